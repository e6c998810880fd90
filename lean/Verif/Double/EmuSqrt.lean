import Verif.Double.EmuDiv

/-!
# Emulated rounding: helper lemmas on the square root
-/

set_option exponentiation.threshold 3000

namespace Kv
namespace Emu
open Fl Format

local notation "B" => binary64

/-- integer root chosen by the square root rounded to nearest -/
def sqrtN (q : ℚ) : ℕ :=
  if sqrtT B q < (sqrtS B q + 1 / 2 : ℚ) * (sqrtS B q + 1 / 2) then sqrtS B q
  else if (sqrtS B q + 1 / 2 : ℚ) * (sqrtS B q + 1 / 2) < sqrtT B q then sqrtS B q + 1
  else if sqrtS B q % 2 = 0 then sqrtS B q else sqrtS B q + 1

theorem sqrtQ_near (q : ℚ) : sqrtQ B .near q = (sqrtN q : ℚ) * 2 ^ sqrtExp B q := by
  unfold sqrtQ sqrtN sqrtT sqrtS sqrtT sqrtExp
  rfl

theorem sqrtN_cases (q : ℚ) : sqrtN q = sqrtS B q ∨
    (sqrtN q = sqrtS B q + 1 ∧ (sqrtS B q + 1 / 2 : ℚ) * (sqrtS B q + 1 / 2) ≤ sqrtT B q) := by
  unfold sqrtN
  split_ifs with h1 h2 h3
  · exact Or.inl rfl
  · exact Or.inr ⟨rfl, h2.le⟩
  · exact Or.inl rfl
  · exact Or.inr ⟨rfl, not_lt.1 h1⟩

theorem sqrtN_sq {q : ℚ} (hq : 0 ≤ q) :
    sqrtN q = 0 ∨ ((sqrtN q : ℚ) - 1) * (sqrtN q - 1) < sqrtT B q := by
  have hS := sqrtS_sq_le (F := B) hq
  by_cases h0 : sqrtN q = 0
  · exact Or.inl h0
  right
  rcases sqrtN_cases q with h | ⟨h, h'⟩
  · have : 1 ≤ sqrtS B q := by omega
    have : (1 : ℚ) ≤ sqrtS B q := by exact_mod_cast this
    rw [h]; nlinarith
  · rw [h]; push_cast
    have : (0 : ℚ) ≤ sqrtS B q := by positivity
    nlinarith

theorem sqrtN_le (q : ℚ) : sqrtN q ≤ sqrtS B q + 1 := by
  rcases sqrtN_cases q with h | ⟨h, _⟩ <;> omega

theorem le_sqrtN (q : ℚ) : sqrtS B q ≤ sqrtN q := by
  rcases sqrtN_cases q with h | ⟨h, _⟩ <;> omega

theorem sqrtQ_near_repU {q : ℚ} (hq : 0 ≤ q) : (B).RepU (sqrtQ B .near q) := by
  rw [sqrtQ_near]
  have h1 := sqrtN_le q
  have h2 := sqrtS_lt (F := B) hq
  have := repU_of_le (F := B) (m := (sqrtN q : ℤ)) (e := sqrtExp B q) (by
    rw [abs_of_nonneg (by positivity)]
    have : sqrtN q ≤ 2 ^ (B).p := by omega
    exact_mod_cast this) (sqrtExp_ge_emin q)
  exact_mod_cast this

theorem sqrtQ_near_nonneg (q : ℚ) : 0 ≤ sqrtQ B .near q := by
  rw [sqrtQ_near]; exact mul_nonneg (by positivity) (two_zpow_pos _).le

theorem sqrtQ_near_faithful {q : ℚ} (hq : 0 ≤ q) : Faithful B (Real.sqrt q) (sqrtQ B .near q) where
  lo _ t ht h := by
    refine (RepU_le_sqrtS hq ht h).trans ?_
    rw [sqrtQ_near]
    refine mul_le_mul_of_nonneg_right ?_ (two_zpow_pos _).le
    exact_mod_cast le_sqrtN q
  hi _ t ht h := by
    rw [sqrtQ_near]
    exact le_RepU_of_sqrt hq ht h (sqrtN_le q) (sqrtN_sq hq)

theorem sqrtQ_near_le {q : ℚ} (h : (B).Rep q) (hq : 0 ≤ q) : sqrtQ B .near q ≤ 2 ^ (512 : ℤ) := by
  rw [sqrtQ_near]
  refine le_RepU_of_sqrt hq (repU_pow (by rw [emin64]; norm_num)) ?_ (sqrtN_le q) (sqrtN_sq hq)
  have h1 := (abs_le.1 h.abs_le).2
  have h2 := maxQ64_lt
  apply Real.sqrt_le_iff.2
  have h3 : q ≤ (2 ^ (512 : ℤ)) ^ 2 := by
    have : ((2 : ℚ) ^ (512 : ℤ)) ^ 2 = 2 ^ (1024 : ℤ) := by
      rw [sq, ← zpow_add₀ (by norm_num)]; norm_num
    rw [this]; linarith
  exact ⟨by positivity, by exact_mod_cast h3⟩

theorem sqrtQ_near_rep {q : ℚ} (h : (B).Rep q) (hq : 0 ≤ q) : (B).Rep (sqrtQ B .near q) := by
  refine rep64 (sqrtQ_near_repU hq) ?_
  rw [abs_of_nonneg (sqrtQ_near_nonneg q)]
  exact (sqrtQ_near_le h hq).trans (pw_le (by norm_num))

theorem sqrt_near_fin {q : ℚ} (h : (B).Rep q) (hq : 0 ≤ q) :
    sqrt .near (fin q h) = fin (sqrtQ B .near q) (sqrtQ_near_rep h hq) := by
  simp only [sqrt, if_neg (not_lt.2 hq)]
  exact round_of_rep _ _

theorem sqrt_zero : sqrtQ B .near 0 = 0 := by
  have h := (sqrtQ_near_faithful (q := 0) le_rfl).hi
  have h0 := sqrtQ_near_nonneg 0
  rcases eq_or_lt_of_le h0 with e | e
  · exact e.symm
  · have := h (by simpa using e) 0 rep_zero.repU (by simp)
    linarith

theorem lt_sqrt_iff {r q : ℚ} (hr : 0 ≤ r) : r * r < q ↔ (r : ℝ) < Real.sqrt q := by
  rw [Real.lt_sqrt (by exact_mod_cast hr), sq]; exact_mod_cast Iff.rfl

theorem sqrt_lt_iff {r q : ℚ} (hr : 0 ≤ r) (hq : 0 ≤ q) : q < r * r ↔ Real.sqrt q < (r : ℝ) := by
  rcases eq_or_lt_of_le hr with e | e
  · rw [← e]; simp only [mul_zero, Rat.cast_zero]
    constructor
    · intro h; linarith
    · intro h; exact absurd h (not_lt.2 (Real.sqrt_nonneg _))
  · rw [Real.sqrt_lt' (by exact_mod_cast e), sq]; exact_mod_cast Iff.rfl

theorem sqrtUp_proj (fma : Bool) (x : Dbl) : sqrtUp fma x =
    if lt x (two (-969)) then
      if (lt (twoproduct fma (ti (sqrt .near x) (two 53)) (ti (sqrt .near x) (two 53))).1 (ti x (two 106)) ||
        (eq (twoproduct fma (ti (sqrt .near x) (two 53)) (ti (sqrt .near x) (two 53))).1 (ti x (two 106)) &&
         lt (twoproduct fma (ti (sqrt .near x) (two 53)) (ti (sqrt .near x) (two 53))).2 (lit 0)))
      then succ (sqrt .near x) else sqrt .near x
    else
      if (lt (twoproduct fma (sqrt .near x) (sqrt .near x)).1 x ||
        (eq (twoproduct fma (sqrt .near x) (sqrt .near x)).1 x &&
         lt (twoproduct fma (sqrt .near x) (sqrt .near x)).2 (lit 0)))
      then succ (sqrt .near x) else sqrt .near x := rfl

theorem sqrtDown_proj (fma : Bool) (x : Dbl) : sqrtDown fma x =
    if lt x (two (-969)) then
      if (lt (ti x (two 106)) (twoproduct fma (ti (sqrt .near x) (two 53)) (ti (sqrt .near x) (two 53))).1 ||
        (eq (twoproduct fma (ti (sqrt .near x) (two 53)) (ti (sqrt .near x) (two 53))).1 (ti x (two 106)) &&
         lt (lit 0) (twoproduct fma (ti (sqrt .near x) (two 53)) (ti (sqrt .near x) (two 53))).2))
      then pred (sqrt .near x) else sqrt .near x
    else
      if (lt x (twoproduct fma (sqrt .near x) (sqrt .near x)).1 ||
        (eq (twoproduct fma (sqrt .near x) (sqrt .near x)).1 x &&
         lt (lit 0) (twoproduct fma (sqrt .near x) (sqrt .near x)).2))
      then pred (sqrt .near x) else sqrt .near x := rfl

theorem twoproduct_pinf (fma : Bool) : twoproduct fma pinf pinf = (pinf, nan) := by
  unfold twoproduct
  simp only [two_eq (show (-1074 : ℤ) ≤ 996 by norm_num) (show (996 : ℤ) ≤ 1023 by norm_num)]
  have e : ti pinf pinf = (pinf : Dbl) := rfl
  rw [e]
  have e1 : ti pinf (two (-28)) = (pinf : Dbl) := by
    rw [two_eq (by norm_num) (by norm_num)]; simp [ti, mul, sgn, infOfSign]
  have hsp : split (pinf : Dbl) = (nan, nan) := by
    unfold split
    have : ti pinf (pl (two 27) (lit 1)) = (pinf : Dbl) := by
      rw [sigma_eq]; simp [ti, mul, sgn, infOfSign, show (0 : ℚ) < 2 ^ 27 + 1 by norm_num]
    simp only [this]; rfl
  cases fma
  · rw [if_neg (by simp), if_pos (by rfl), e1]
    have : dekker pinf pinf (ti pinf (two 28)) = (nan : Dbl) := by
      unfold dekker
      rw [hsp]
      have hl : lt (two 1023) (Fl.abs (pinf : Dbl)) = true := by
        rw [two_eq (by norm_num) (by norm_num)]; rfl
      rcases split (ti pinf (two 28)) with ⟨b1, b2⟩
      simp only [hl, if_true]
      have t : ∀ z : Dbl, ti nan z = nan := fun z => rfl
      have p : ∀ z : Dbl, pl nan z = nan := fun z => rfl
      have m : ∀ z : Dbl, mi nan z = nan := fun z => rfl
      simp only [t, p, m]
    rw [this]
  · rw [if_pos rfl]; rfl

/-- the square root of a scaled number -/
structure ScaledSqrt (q r : ℚ) (h : (B).Rep q) (hr : (B).Rep r) : Prop where
  ex : ∃ k2 kd, ti (fin q h) (two 106) = fin (q * 2 ^ (106 : ℤ)) k2 ∧
    ti (fin r hr) (two 53) = fin (r * 2 ^ (53 : ℤ)) kd
  ok : CmpOk (r * 2 ^ (53 : ℤ)) (r * 2 ^ (53 : ℤ)) (q * 2 ^ (106 : ℤ))

theorem scaledSqrt {q : ℚ} (h : (B).Rep q) (hq : 0 ≤ q) (hs : q < 2 ^ (-969 : ℤ)) :
    ScaledSqrt q (sqrtQ B .near q) h (sqrtQ_near_rep h hq) where
  ex := by
    have k2 : (B).Rep (q * 2 ^ (106 : ℤ)) := by
      refine rep64 (h.repU.scale_up 106) ?_
      rw [abs_mul, abs_of_pos (two_zpow_pos 106), abs_of_nonneg hq]
      calc q * 2 ^ (106 : ℤ) ≤ 2 ^ (-969 : ℤ) * 2 ^ (106 : ℤ) :=
            mul_le_mul_of_nonneg_right hs.le (two_zpow_pos _).le
        _ ≤ 2 ^ (1023 : ℤ) := by rw [← zpow_add₀ (by norm_num)]; exact pw_le (by norm_num)
    have kd : (B).Rep (sqrtQ B .near q * 2 ^ (53 : ℤ)) := by
      refine rep64 ((sqrtQ_near_rep h hq).repU.scale_up 53) ?_
      rw [abs_mul, abs_of_pos (two_zpow_pos 53), abs_of_nonneg (sqrtQ_near_nonneg q)]
      calc sqrtQ B .near q * 2 ^ (53 : ℤ) ≤ 2 ^ (512 : ℤ) * 2 ^ (53 : ℤ) :=
            mul_le_mul_of_nonneg_right (sqrtQ_near_le h hq) (two_zpow_pos _).le
        _ ≤ 2 ^ (1023 : ℤ) := by rw [← zpow_add₀ (by norm_num)]; exact pw_le (by norm_num)
    refine ⟨k2, kd, ?_, ?_⟩
    · rw [two_eq (by norm_num) (by norm_num)]; exact ti_exact _ _ _ rfl
    · rw [two_eq (by norm_num) (by norm_num)]; exact ti_exact _ _ _ rfl
  ok := by
    rcases eq_or_lt_of_le hq with e | e
    · right; left; rw [← e, sqrt_zero]; simp
    · left
      rw [abs_mul, abs_of_pos (two_zpow_pos 106)]
      calc (2 : ℚ) ^ (-969 : ℤ) ≤ 2 ^ (-1074 : ℤ) * 2 ^ (106 : ℤ) := by
            rw [← zpow_add₀ (by norm_num)]; exact pw_le (by norm_num)
        _ ≤ _ := mul_le_mul_of_nonneg_right (tiny_le h e.ne') (two_zpow_pos _).le

theorem scale_sq (r : ℚ) : r * 2 ^ (53 : ℤ) * (r * 2 ^ (53 : ℤ)) = r * r * 2 ^ (106 : ℤ) := by
  have : (2 : ℚ) ^ (106 : ℤ) = 2 ^ (53 : ℤ) * 2 ^ (53 : ℤ) := by
    rw [← zpow_add₀ (by norm_num)]; norm_num
  rw [this]; ring

theorem sqrtUp_eq (fma : Bool) (x : Dbl) : sqrtUp fma x = sqrt .up x := by
  rw [sqrtUp_proj]
  cases x with
  | nan =>
    simp only [sqrt, lt_nan_left, Bool.false_eq_true, if_false, lt_nan_right, eq_nan_right, Bool.false_and,
      Bool.or_self]
  | pinf =>
    have e : sqrt .near (pinf : Dbl) = pinf := rfl
    rw [e, twoproduct_pinf, two_eq (by norm_num) (by norm_num)]
    simp [lt, eq, sqrt]
  | ninf =>
    have e : sqrt .near (ninf : Dbl) = nan := rfl
    rw [e, two_eq (by norm_num) (by norm_num), if_pos (by rfl)]
    have e2 : ti nan (two 53) = (nan : Dbl) := rfl
    rw [e2, twoproduct_fst]
    have e3 : ti nan nan = (nan : Dbl) := rfl
    rw [e3]
    simp [lt_nan_left, eq_nan_left, sqrt]
  | fin q h =>
    by_cases hq : q < 0
    · have e : ∀ md, sqrt md (fin q h) = nan := fun md => by simp [sqrt, hq]
      rw [e, e, two_eq (by norm_num) (by norm_num)]
      rw [if_pos (show lt (fin q h) (fin _ _) = true from decide_eq_true (hq.trans (two_zpow_pos _)))]
      have e2 : ti nan (two 53) = (nan : Dbl) := rfl
      rw [e2, twoproduct_fst]
      have e3 : ti nan nan = (nan : Dbl) := rfl
      rw [e3]
      simp [lt_nan_left, eq_nan_left]
    · have hq := not_lt.1 hq
      refine IsUp.unique ?_ (sqrt_up_isUp h hq)
      have hr := sqrtQ_near_rep h hq
      have hf := sqrtQ_near_faithful hq
      have h0 := sqrtQ_near_nonneg q
      rw [sqrt_near_fin h hq]
      have e : lt (fin q h) (two (-969)) = decide (q < 2 ^ (-969 : ℤ)) := by
        rw [two_eq (by norm_num) (by norm_num)]; rfl
      rw [e]
      by_cases hs : q < 2 ^ (-969 : ℤ)
      · rw [if_pos (decide_eq_true hs)]
        obtain ⟨⟨k2, kd, e2, ed⟩, ok⟩ := scaledSqrt h hq hs
        rw [e2, ed]
        refine up_flag hr hf ?_
        rw [twoprod_lt fma kd kd k2 ok, scale_sq, ← lt_sqrt_iff h0]
        exact mul_lt_mul_iff_of_pos_right (two_zpow_pos _)
      · rw [if_neg (by simpa using hs)]
        refine up_flag hr hf ?_
        rw [twoprod_lt fma hr hr h (Or.inl (by rw [abs_of_nonneg hq]; exact not_lt.1 hs)), ← lt_sqrt_iff h0]

theorem sqrtDown_eq (fma : Bool) (x : Dbl) : sqrtDown fma x = sqrt .down x := by
  rw [sqrtDown_proj]
  cases x with
  | nan =>
    simp only [sqrt, lt_nan_left, Bool.false_eq_true, if_false, eq_nan_right, Bool.false_and,
      Bool.or_self]
  | pinf =>
    have e : sqrt .near (pinf : Dbl) = pinf := rfl
    rw [e, twoproduct_pinf, two_eq (by norm_num) (by norm_num)]
    simp [lt, eq, sqrt]
  | ninf =>
    have e : sqrt .near (ninf : Dbl) = nan := rfl
    rw [e, two_eq (by norm_num) (by norm_num), if_pos (by rfl)]
    have e2 : ti nan (two 53) = (nan : Dbl) := rfl
    rw [e2, twoproduct_fst]
    have e3 : ti nan nan = (nan : Dbl) := rfl
    rw [e3]
    simp [lt_nan_right, eq_nan_left, sqrt]
  | fin q h =>
    by_cases hq : q < 0
    · have e : ∀ md, sqrt md (fin q h) = nan := fun md => by simp [sqrt, hq]
      rw [e, e, two_eq (by norm_num) (by norm_num)]
      rw [if_pos (show lt (fin q h) (fin _ _) = true from decide_eq_true (hq.trans (two_zpow_pos _)))]
      have e2 : ti nan (two 53) = (nan : Dbl) := rfl
      rw [e2, twoproduct_fst]
      have e3 : ti nan nan = (nan : Dbl) := rfl
      rw [e3]
      simp [lt_nan_right, eq_nan_left]
    · have hq := not_lt.1 hq
      refine IsDown.unique ?_ (sqrt_down_isDown h hq)
      have hr := sqrtQ_near_rep h hq
      have hf := sqrtQ_near_faithful hq
      have h0 := sqrtQ_near_nonneg q
      rw [sqrt_near_fin h hq]
      have e : lt (fin q h) (two (-969)) = decide (q < 2 ^ (-969 : ℤ)) := by
        rw [two_eq (by norm_num) (by norm_num)]; rfl
      rw [e]
      by_cases hs : q < 2 ^ (-969 : ℤ)
      · rw [if_pos (decide_eq_true hs)]
        obtain ⟨⟨k2, kd, e2, ed⟩, ok⟩ := scaledSqrt h hq hs
        rw [e2, ed]
        refine down_flag hr hf ?_
        rw [twoprod_gt fma kd kd k2 ok, scale_sq, ← sqrt_lt_iff h0 hq]
        exact mul_lt_mul_iff_of_pos_right (two_zpow_pos _)
      · rw [if_neg (by simpa using hs)]
        refine down_flag hr hf ?_
        rw [twoprod_gt fma hr hr h (Or.inl (by rw [abs_of_nonneg hq]; exact not_lt.1 hs)),
          ← sqrt_lt_iff h0 hq]

/-! ## relation between the modes -/

theorem neg_add_up (x y : Dbl) : neg (add .up (neg x) (neg y)) = add .down x y := by
  cases x <;> cases y <;> try rfl
  rename_i a _ b _
  show neg (Fl.round .up (-a + -b)) = Fl.round .down (a + b)
  rw [show -a + -b = -(a + b) by ring, round_neg_up, Fl.neg_neg]

theorem neg_mul_up (x y : Dbl) : neg (mul .up (neg x) y) = mul .down x y := by
  cases x <;> cases y
  case fin.fin a _ b _ =>
    show neg (Fl.round .up (-a * b)) = Fl.round .down (a * b)
    rw [neg_mul, round_neg_up, Fl.neg_neg]
  all_goals
    simp only [mul, neg, sgn, infOfSign] <;>
      split_ifs <;> first | rfl | omega | (exfalso; linarith)

theorem neg_div_up (x y : Dbl) : neg (div .up (neg x) y) = div .down x y := by
  cases x <;> cases y
  case fin.fin a _ b _ =>
    simp only [neg, div]
    by_cases hb : b = 0
    · simp only [hb, if_true, sgn, infOfSign]
      split_ifs <;> first | rfl | omega | (exfalso; linarith)
    · simp only [hb, if_false]
      have := round_neg_up (F := B) (a / b)
      rw [neg_div, this]
      exact Fl.neg_neg _
  all_goals
    simp only [div, neg, sgn, infOfSign, zero] <;>
      (try split_ifs) <;> first | rfl | omega

end Emu
end Kv
