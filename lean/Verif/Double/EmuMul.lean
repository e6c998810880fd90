import Verif.Double.EmuOps

/-!
# Emulated rounding: helper lemmas on multiplication, division and square root
-/

set_option exponentiation.threshold 3000

namespace Kv
namespace Emu
open Fl Format

local notation "B" => binary64

theorem twoproduct_fst (fma : Bool) (a b : Dbl) : (twoproduct fma a b).1 = ti a b := by
  unfold twoproduct
  simp only
  split_ifs <;> rfl

/-- the condition under which the remainder returned by `twoproduct` is used -/
def CmpOk (d b t : ℚ) : Prop := 2 ^ (-969 : ℤ) ≤ |t| ∨ d * b = 0 ∨ GridOk d b

theorem cmpOk_grid {d b t r : ℚ} (hd : (B).Rep d) (hb : (B).Rep b) (h : CmpOk d b t)
    (hr : r = (B).roundQ .near (d * b)) (e : r = t) : d * b = 0 ∨ GridOk d b := by
  rcases h with h | h | h
  · right; apply gridOk_of_le hd hb; rw [← hr, e]; exact h
  · exact Or.inl h
  · exact Or.inr h

theorem twoprod_lt (fma : Bool) {d b t : ℚ} (hd : (B).Rep d) (hb : (B).Rep b) (ht : (B).Rep t)
    (h : CmpOk d b t) :
    (lt (twoproduct fma (fin d hd) (fin b hb)).1 (fin t ht) ||
      (eq (twoproduct fma (fin d hd) (fin b hb)).1 (fin t ht) &&
        lt (twoproduct fma (fin d hd) (fin b hb)).2 (lit 0))) = true ↔ d * b < t := by
  have htm := abs_le.1 ht.abs_le
  rcases round_near_cases (F := B) (d * b) with ⟨hx, hr⟩ | ⟨hr, hq⟩ | ⟨hr, hq⟩
  · have hc := cmp_gt (F := B) (Q := d * b) ht.repU
    rcases eq_or_ne ((B).roundQ .near (d * b)) t with e | e
    · obtain ⟨h', e'⟩ := twoproduct_fin fma hd hb hx hr (cmpOk_grid hd hb h rfl e)
      rw [e', lit0]
      simp only [lt, eq, Bool.or_eq_true, Bool.and_eq_true, decide_eq_true_eq]
      exact hc
    · rw [twoproduct_fst, ti_fin, hr]
      simp only [lt, eq, Bool.or_eq_true, Bool.and_eq_true, decide_eq_true_eq, e, false_and, or_false]
      rw [← hc]; tauto
  · rw [twoproduct_fst, ti_fin, hr]
    simp only [lt, eq, Bool.false_and, Bool.or_false, Bool.false_eq_true, false_iff, not_lt]
    linarith
  · rw [twoproduct_fst, ti_fin, hr]
    simp only [lt, Bool.true_or, true_iff]
    linarith

theorem twoprod_gt (fma : Bool) {d b t : ℚ} (hd : (B).Rep d) (hb : (B).Rep b) (ht : (B).Rep t)
    (h : CmpOk d b t) :
    (lt (fin t ht) (twoproduct fma (fin d hd) (fin b hb)).1 ||
      (eq (twoproduct fma (fin d hd) (fin b hb)).1 (fin t ht) &&
        lt (lit 0) (twoproduct fma (fin d hd) (fin b hb)).2)) = true ↔ t < d * b := by
  have htm := abs_le.1 ht.abs_le
  rcases round_near_cases (F := B) (d * b) with ⟨hx, hr⟩ | ⟨hr, hq⟩ | ⟨hr, hq⟩
  · have hc := cmp_lt (F := B) (Q := d * b) ht.repU
    rcases eq_or_ne ((B).roundQ .near (d * b)) t with e | e
    · obtain ⟨h', e'⟩ := twoproduct_fin fma hd hb hx hr (cmpOk_grid hd hb h rfl e)
      rw [e', lit0]
      simp only [lt, eq, Bool.or_eq_true, Bool.and_eq_true, decide_eq_true_eq]
      rw [← hc]; tauto
    · rw [twoproduct_fst, ti_fin, hr]
      simp only [lt, eq, Bool.or_eq_true, Bool.and_eq_true, decide_eq_true_eq, e, false_and, or_false]
      rw [← hc]
      constructor
      · tauto
      · rintro (h | h)
        · exact h
        · exact absurd h.1.symm e
  · rw [twoproduct_fst, ti_fin, hr]
    simp only [lt, Bool.true_or, true_iff]
    linarith
  · rw [twoproduct_fst, ti_fin, hr]
    simp only [lt, eq, Bool.false_and, Bool.or_false, Bool.false_eq_true, false_iff, not_lt]
    linarith

theorem eq_comm' (x y : Dbl) : eq x y = eq y x := by
  cases x <;> cases y <;> simp [eq, eq_comm]

theorem le_two_le {k : ℤ} (h1 : -1074 ≤ k) (h2 : k ≤ 1023) {a : ℚ} (ha : (B).Rep a) :
    le (two k) (Fl.abs (fin a ha)) = decide (2 ^ k ≤ |a|) := by
  rw [two_eq h1 h2, abs_fin ha (rep_abs ha)]; rfl

theorem lt_two_fin {k : ℤ} (h1 : -1074 ≤ k) (h2 : k ≤ 1023) {a : ℚ} (ha : (B).Rep a) :
    lt (Fl.abs (fin a ha)) (two k) = decide (|a| < 2 ^ k) := by
  rw [two_eq h1 h2, abs_fin ha (rep_abs ha)]; rfl

/-- multiplication by `2^537`: exact or overflow -/
theorem ti_537 {a : ℚ} (ha : (B).Rep a) (hle : |a| ≤ 2 ^ (486 : ℤ)) :
    ∃ h : (B).Rep (a * 2 ^ (537 : ℤ)), ti (fin a ha) (two 537) = fin (a * 2 ^ (537 : ℤ)) h := by
  have h : (B).Rep (a * 2 ^ (537 : ℤ)) := by
    refine rep64 (ha.repU.scale_up 537) ?_
    rw [abs_mul, abs_of_pos (two_zpow_pos 537)]
    calc |a| * 2 ^ (537 : ℤ) ≤ 2 ^ (486 : ℤ) * 2 ^ (537 : ℤ) :=
          mul_le_mul_of_nonneg_right hle (two_zpow_pos _).le
      _ ≤ 2 ^ (1023 : ℤ) := by rw [← zpow_add₀ (by norm_num)]; exact pw_le (by norm_num)
  exact ⟨h, by rw [two_eq (by norm_num) (by norm_num)]; exact ti_exact _ _ _ rfl⟩

theorem tiny_le {a : ℚ} (ha : (B).Rep a) (h0 : a ≠ 0) : 2 ^ (-1074 : ℤ) ≤ |a| := by
  have g : OnGrid (-1074) |a| := by
    have := onGrid_of_repU ha.repU
    rcases abs_choice a with h | h <;> rw [h]
    · exact this
    · exact this.neg
  have := OnGrid.sep (OnGrid.zero _) g (abs_pos.2 h0)
  linarith

theorem le_near_abs {q M : ℚ} (hM : (B).RepU M) (h : M ≤ |q|) : M ≤ |(B).roundQ .near q| := by
  rcases abs_choice q with h' | h'
  · rw [h'] at h
    exact (le_roundQ_of_le .near hM h).trans (le_abs_self _)
  · rw [h'] at h
    have := roundQ_le_of_le (F := B) .near hM.neg (q := q) (by linarith)
    have h3 := neg_abs_le ((B).roundQ .near q)
    linarith

/-- in the small branch of the multiplication the operands can be scaled -/
theorem small_ok {a b : ℚ} (hb : (B).Rep b) (hab : a * b ≠ 0)
    (h : |(B).roundQ .near (a * b)| < 2 ^ (-969 : ℤ)) : |a| ≤ 2 ^ (486 : ℤ) := by
  by_contra hc
  have hc := not_le.1 hc
  have hb0 := tiny_le hb (mul_ne_zero_iff.1 hab).2
  have h1 : (2 : ℚ) ^ (-969 : ℤ) ≤ |a * b| := by
    refine (pw_le (show (-969 : ℤ) ≤ 486 + -1074 by norm_num)).trans ?_
    rw [abs_mul, zpow_add₀ (by norm_num)]
    exact mul_le_mul hc.le hb0 (two_zpow_pos _).le (abs_nonneg _)
  exact absurd h (not_lt.2 (le_near_abs (repU_pow (by rw [emin64]; norm_num)) h1))

theorem scale_grid {a : ℚ} (ha : (B).Rep a) : OnGrid (-537) (a * 2 ^ (537 : ℤ)) := by
  have := (onGrid_of_repU ha.repU).scale 537
  rwa [emin64] at this

/-- the comparison of the small branch of the multiplication -/
structure SmallRes (fma : Bool) (a b r : ℚ) (ha : (B).Rep a) (hb : (B).Rep b) (hr : (B).Rep r) : Prop where
  up : (let s := twoproduct fma (ti (fin a ha) (two 537)) (ti (fin b hb) (two 537))
    let t := ti (ti (fin r hr) (two 537)) (two 537)
    (lt t s.1 || (eq t s.1 && lt (lit 0) s.2))) = true ↔ r < a * b
  down : (let s := twoproduct fma (ti (fin a ha) (two 537)) (ti (fin b hb) (two 537))
    let t := ti (ti (fin r hr) (two 537)) (two 537)
    (lt s.1 t || (eq t s.1 && lt s.2 (lit 0)))) = true ↔ a * b < r

theorem lt_nan_left (x : Dbl) : lt nan x = false := by cases x <;> rfl
theorem lt_nan_right (x : Dbl) : lt x nan = false := by cases x <;> rfl
theorem eq_nan_right (x : Dbl) : eq x nan = false := by cases x <;> rfl
theorem eq_nan_left (x : Dbl) : eq nan x = false := by cases x <;> rfl

theorem ti_zero_two : ti (fin 0 rep_zero) (two 537) = fin 0 rep_zero := by
  rw [two_eq (by norm_num) (by norm_num)]; exact ti_exact _ _ _ (zero_mul _)

theorem ti_537_cases {a : ℚ} (ha : (B).Rep a) :
    (∃ c h, ti (fin a ha) (two 537) = fin c h) ∨ ti (fin a ha) (two 537) = pinf ∨
      ti (fin a ha) (two 537) = ninf := by
  rw [two_eq (by norm_num) (by norm_num), ti_fin]
  rcases round_near_cases (F := B) (a * 2 ^ (537 : ℤ)) with ⟨hx, hr⟩ | ⟨hr, hq⟩ | ⟨hr, hq⟩
  · exact Or.inl ⟨_, _, hr⟩
  · exact Or.inr (Or.inl hr)
  · exact Or.inr (Or.inr hr)

theorem small_zero (fma : Bool) {a b : ℚ} (ha : (B).Rep a) (hb : (B).Rep b) (hab : a * b = 0) :
    (twoproduct fma (ti (fin a ha) (two 537)) (ti (fin b hb) (two 537))).1 = nan ∨
    twoproduct fma (ti (fin a ha) (two 537)) (ti (fin b hb) (two 537)) = (fin 0 rep_zero, fin 0 rep_zero) := by
  have key : ∀ {c d : ℚ} (hc : (B).Rep c) (hd : (B).Rep d), c * d = 0 →
      twoproduct fma (fin c hc) (fin d hd) = (fin 0 rep_zero, fin 0 rep_zero) := by
    intro c d hc hd h
    obtain ⟨h', e'⟩ := twoproduct_fin fma hc hd rep_zero (by rw [h]; exact round_of_rep _ _) (Or.inl h)
    rw [e']; congr 1; exact fin_congr _ _ (by rw [h]; ring)
  rcases mul_eq_zero.1 hab with rfl | rfl
  · rw [ti_zero_two]
    rcases ti_537_cases hb with ⟨c, h, e⟩ | e | e <;> rw [e]
    · exact Or.inr (key _ _ (zero_mul _))
    · left; rw [twoproduct_fst]; simp [ti, mul, sgn, infOfSign]
    · left; rw [twoproduct_fst]; simp [ti, mul, sgn, infOfSign]
  · rw [ti_zero_two]
    rcases ti_537_cases ha with ⟨c, h, e⟩ | e | e <;> rw [e]
    · exact Or.inr (key _ _ (mul_zero _))
    · left; rw [twoproduct_fst]; simp [ti, mul, sgn, infOfSign]
    · left; rw [twoproduct_fst]; simp [ti, mul, sgn, infOfSign]

theorem small_res (fma : Bool) {a b r : ℚ} (ha : (B).Rep a) (hb : (B).Rep b) (hr : (B).Rep r)
    (hn : r = (B).roundQ .near (a * b)) (hs : |r| < 2 ^ (-969 : ℤ)) : SmallRes fma a b r ha hb hr := by
  rcases eq_or_ne (a * b) 0 with h0 | h0
  · have r0 : r = 0 := by rw [hn, h0, rep_zero.repU.roundQ_eq]
    subst r0
    constructor <;> simp only [ti_zero_two] <;>
      rcases small_zero fma ha hb h0 with e | e <;> rw [e, h0]
    · simp [lt_nan_right, eq_nan_right]
    · simp [lt, eq, lit0]
    · simp [lt_nan_left, eq_nan_right]
    · simp [lt, eq, lit0]
  · have hs' := hs
    rw [hn] at hs'
    have h486a := small_ok hb h0 hs'
    have h486b := small_ok ha (by rwa [mul_comm]) (by rwa [mul_comm])
    obtain ⟨ka, ea⟩ := ti_537 ha h486a
    obtain ⟨kb, eb⟩ := ti_537 hb h486b
    obtain ⟨kr, er⟩ := ti_537 hr (hs.le.trans (pw_le (by norm_num)))
    have krl : |r * 2 ^ (537 : ℤ)| ≤ 2 ^ (486 : ℤ) := by
      rw [abs_mul, abs_of_pos (two_zpow_pos 537)]
      calc |r| * 2 ^ (537 : ℤ) ≤ 2 ^ (-969 : ℤ) * 2 ^ (537 : ℤ) :=
            mul_le_mul_of_nonneg_right hs.le (two_zpow_pos _).le
        _ ≤ 2 ^ (486 : ℤ) := by rw [← zpow_add₀ (by norm_num)]; exact pw_le (by norm_num)
    obtain ⟨kt, et⟩ := ti_537 kr krl
    have hg : CmpOk (a * 2 ^ (537 : ℤ)) (b * 2 ^ (537 : ℤ)) (r * 2 ^ (537 : ℤ) * 2 ^ (537 : ℤ)) :=
      Or.inr (Or.inr ⟨-537, -537, by norm_num, by norm_num, by norm_num, scale_grid ha, scale_grid hb⟩)
    have hp : (0 : ℚ) < 2 ^ (537 : ℤ) * 2 ^ (537 : ℤ) := mul_pos (two_zpow_pos _) (two_zpow_pos _)
    have e1 : a * 2 ^ (537 : ℤ) * (b * 2 ^ (537 : ℤ)) = a * b * (2 ^ (537 : ℤ) * 2 ^ (537 : ℤ)) := by ring
    have e2 : r * 2 ^ (537 : ℤ) * 2 ^ (537 : ℤ) = r * (2 ^ (537 : ℤ) * 2 ^ (537 : ℤ)) := by ring
    constructor <;> simp only [ea, eb, er, et]
    · rw [eq_comm', twoprod_gt fma ka kb kt hg, e1, e2]
      exact mul_lt_mul_iff_of_pos_right hp
    · rw [eq_comm', twoprod_lt fma ka kb kt hg, e1, e2]
      exact mul_lt_mul_iff_of_pos_right hp

theorem ti_inf_cases {x y : Dbl} (h : ∀ a ha b hb, ¬ (x = fin a ha ∧ y = fin b hb)) (md : RMode) :
    ti x y = mul md x y := by
  unfold ti
  cases x <;> cases y <;> first | rfl | (exact absurd ⟨rfl, rfl⟩ (h _ _ _ _))

/-- the value of `mul_up`, with projections instead of pattern matching -/
theorem mulUp_proj (fma : Bool) (x y : Dbl) : mulUp fma x y =
    if eq (ti x y) pinf then ti x y
    else if eq (ti x y) ninf then
      if isInf x || isInf y then ti x y else neg maxF
    else if le (two (-969)) (Fl.abs (ti x y)) then
      if lt (lit 0) (twoproduct fma x y).2 then succ (ti x y) else ti x y
    else
      if (let s := twoproduct fma (ti x (two 537)) (ti y (two 537))
        let t := ti (ti (ti x y) (two 537)) (two 537)
        (lt t s.1 || (eq t s.1 && lt (lit 0) s.2))) then succ (ti x y) else ti x y := by
  rw [← twoproduct_fst fma x y]; rfl

theorem mulDown_proj (fma : Bool) (x y : Dbl) : mulDown fma x y =
    if eq (ti x y) pinf then
      if isInf x || isInf y then ti x y else maxF
    else if eq (ti x y) ninf then ti x y
    else if le (two (-969)) (Fl.abs (ti x y)) then
      if lt (twoproduct fma x y).2 (lit 0) then pred (ti x y) else ti x y
    else
      if (let s := twoproduct fma (ti x (two 537)) (ti y (two 537))
        let t := ti (ti (ti x y) (two 537)) (two 537)
        (lt s.1 t || (eq t s.1 && lt s.2 (lit 0)))) then pred (ti x y) else ti x y := by
  rw [← twoproduct_fst fma x y]; rfl

theorem ti_nan_cases {x y : Dbl} (h : ∀ a ha b hb, ¬ (x = fin a ha ∧ y = fin b hb)) :
    ti x y = nan ∨ ((isInf x || isInf y) = true ∧ (ti x y = pinf ∨ ti x y = ninf)) := by
  have hs : ∀ s : Int, (infOfSign s : Dbl) = nan ∨ (infOfSign s : Dbl) = pinf ∨ (infOfSign s : Dbl) = ninf := by
    intro s; unfold infOfSign; split_ifs <;> simp
  unfold ti
  cases x <;> cases y <;>
    first
      | exact absurd ⟨rfl, rfl⟩ (h _ _ _ _)
      | exact Or.inl rfl
      | exact Or.inr ⟨by simp [isInf, Fl.abs, eq], Or.inl rfl⟩
      | exact Or.inr ⟨by simp [isInf, Fl.abs, eq], Or.inr rfl⟩
      | (simp only [mul]
         rcases hs _ with e | e
         · exact Or.inl e
         · exact Or.inr ⟨by simp [isInf, Fl.abs, eq], e⟩)

theorem mul_fin_md {a b : ℚ} (md : RMode) (ha : (B).Rep a) (hb : (B).Rep b) :
    mul md (fin a ha) (fin b hb) = Fl.round md (a * b) := rfl

theorem le_abs_nan (x : Dbl) : le x (Fl.abs nan) = false := by cases x <;> rfl

theorem mulUp_eq (fma : Bool) (x y : Dbl) : mulUp fma x y = mul .up x y := by
  rw [mulUp_proj]
  by_cases hfin : ∃ a ha b hb, x = fin a ha ∧ y = fin b hb
  · obtain ⟨a, ha, b, hb, rfl, rfl⟩ := hfin
    rw [mul_fin_md, ti_fin]
    rcases round_near_cases (F := B) (a * b) with ⟨hx, hr⟩ | ⟨hr, hq⟩ | ⟨hr, hq⟩
    · rw [hr, if_neg (by simp [eq]), if_neg (by simp [eq]), le_two_le (by norm_num) (by norm_num)]
      by_cases hbig : 2 ^ (-969 : ℤ) ≤ |(B).roundQ .near (a * b)|
      · rw [if_pos (decide_eq_true hbig)]
        obtain ⟨h', e'⟩ := twoproduct_fin fma ha hb hx hr (Or.inr (gridOk_of_le ha hb hbig))
        rw [e', lit0]
        refine near_up hx hr ?_
        show decide _ = true ↔ _
        rw [decide_eq_true_iff]; constructor <;> intro h <;> linarith
      · rw [if_neg (by simpa using hbig)]
        exact near_up hx hr (small_res fma ha hb hx rfl (not_le.1 hbig)).up
    · rw [up_pinf hq, hr, if_pos (by rfl)]
    · rw [up_ninf hq, hr, if_neg (by simp [eq]), if_pos (by rfl)]
      have : (isInf (fin a ha) || isInf (fin b hb)) = false := by
        unfold isInf; rw [abs_fin ha (rep_abs ha), abs_fin hb (rep_abs hb)]; rfl
      rw [this]; rfl
  · have hf : ∀ a ha b hb, ¬ (x = fin a ha ∧ y = fin b hb) :=
      fun a ha b hb h => hfin ⟨a, ha, b, hb, h⟩
    rw [← ti_inf_cases hf]
    rcases ti_nan_cases hf with h | ⟨h1, h2 | h2⟩
    · rw [h, eq_nan_left, eq_nan_left, le_abs_nan]
      have : ti (ti nan (two 537)) (two 537) = nan := rfl
      simp [this, lt_nan_left, eq_nan_left]
    · rw [h2, if_pos (by rfl)]
    · rw [h2, if_neg (by simp [eq]), if_pos (by rfl), if_pos h1]

theorem mulDown_eq (fma : Bool) (x y : Dbl) : mulDown fma x y = mul .down x y := by
  rw [mulDown_proj]
  by_cases hfin : ∃ a ha b hb, x = fin a ha ∧ y = fin b hb
  · obtain ⟨a, ha, b, hb, rfl, rfl⟩ := hfin
    rw [mul_fin_md, ti_fin]
    rcases round_near_cases (F := B) (a * b) with ⟨hx, hr⟩ | ⟨hr, hq⟩ | ⟨hr, hq⟩
    · rw [hr, if_neg (by simp [eq]), if_neg (by simp [eq]), le_two_le (by norm_num) (by norm_num)]
      by_cases hbig : 2 ^ (-969 : ℤ) ≤ |(B).roundQ .near (a * b)|
      · rw [if_pos (decide_eq_true hbig)]
        obtain ⟨h', e'⟩ := twoproduct_fin fma ha hb hx hr (Or.inr (gridOk_of_le ha hb hbig))
        rw [e', lit0]
        refine near_down hx hr ?_
        show decide _ = true ↔ _
        rw [decide_eq_true_iff]; constructor <;> intro h <;> linarith
      · rw [if_neg (by simpa using hbig)]
        exact near_down hx hr (small_res fma ha hb hx rfl (not_le.1 hbig)).down
    · rw [down_pinf hq, hr, if_pos (by rfl)]
      have : (isInf (fin a ha) || isInf (fin b hb)) = false := by
        unfold isInf; rw [abs_fin ha (rep_abs ha), abs_fin hb (rep_abs hb)]; rfl
      rw [this]; rfl
    · rw [down_ninf hq, hr, if_neg (by simp [eq]), if_pos (by rfl)]
  · have hf : ∀ a ha b hb, ¬ (x = fin a ha ∧ y = fin b hb) :=
      fun a ha b hb h => hfin ⟨a, ha, b, hb, h⟩
    rw [← ti_inf_cases hf]
    rcases ti_nan_cases hf with h | ⟨h1, h2 | h2⟩
    · rw [h, eq_nan_left, eq_nan_left, le_abs_nan]
      have : ti (ti nan (two 537)) (two 537) = nan := rfl
      simp [this, lt_nan_right, eq_nan_left]
    · rw [h2, if_pos (by rfl), if_pos h1]
    · rw [h2, if_neg (by simp [eq]), if_pos (by rfl)]

end Emu
end Kv
