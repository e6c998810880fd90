import Verif.Double.EmuMul

/-!
# Emulated rounding: helper lemmas on division
-/

set_option exponentiation.threshold 3000

namespace Kv
namespace Emu
open Fl Format

local notation "B" => binary64

theorem div_special {x y : Dbl} (h : divSpecial x y = true) (md : RMode) : dv x y = div md x y := by
  unfold dv
  cases x <;> cases y <;> try rfl
  rename_i a ha b hb
  unfold divSpecial at h
  simp only [isNaN, isInf, abs_fin ha (rep_abs ha), abs_fin hb (rep_abs hb), lit0, eq, Bool.or_false,
    Bool.or_eq_true, decide_eq_true_eq] at h
  by_cases hb0 : b = 0
  · simp only [div, hb0, if_true]
  · have ha0 : a = 0 := by tauto
    simp only [div, hb0, if_false, ha0, zero_div]
    rw [round_of_rep _ rep_zero, round_of_rep _ rep_zero]

theorem div_fin {a b : ℚ} (md : RMode) (ha : (B).Rep a) (hb : (B).Rep b) (h0 : b ≠ 0) :
    div md (fin a ha) (fin b hb) = Fl.round md (a / b) := by
  simp only [div, if_neg h0]

/-- the core of the upward division -/
theorem div_core_up (fma : Bool) {a b : ℚ} (ha : (B).Rep a) (hb : (B).Rep b) (h0 : 0 < b)
    (hbig : 2 ^ (-969 : ℤ) ≤ |a|) :
    (let d := dv (fin a ha) (fin b hb)
     if eq d pinf then d
     else if eq d ninf then neg maxF
     else if (lt (twoproduct fma d (fin b hb)).1 (fin a ha) ||
        (eq (twoproduct fma d (fin b hb)).1 (fin a ha) &&
          lt (twoproduct fma d (fin b hb)).2 (lit 0))) then succ d else d) = Fl.round .up (a / b) := by
  have e : dv (fin a ha) (fin b hb) = Fl.round .near (a / b) := div_fin _ _ _ h0.ne'
  simp only [e]
  rcases round_near_cases (F := B) (a / b) with ⟨hx, hr⟩ | ⟨hr, hq⟩ | ⟨hr, hq⟩
  · rw [hr, if_neg (by simp [eq]), if_neg (by simp [eq])]
    refine near_up hx hr ?_
    rw [twoprod_lt fma hx hb ha (Or.inl hbig), lt_div_iff₀ h0]
  · rw [up_pinf hq, hr, if_pos (by rfl)]
  · rw [up_ninf hq, hr, if_neg (by simp [eq]), if_pos (by rfl)]

theorem div_core_down (fma : Bool) {a b : ℚ} (ha : (B).Rep a) (hb : (B).Rep b) (h0 : 0 < b)
    (hbig : 2 ^ (-969 : ℤ) ≤ |a|) :
    (let d := dv (fin a ha) (fin b hb)
     if eq d pinf then maxF
     else if eq d ninf then d
     else if (lt (fin a ha) (twoproduct fma d (fin b hb)).1 ||
        (eq (twoproduct fma d (fin b hb)).1 (fin a ha) &&
          lt (lit 0) (twoproduct fma d (fin b hb)).2)) then pred d else d) = Fl.round .down (a / b) := by
  have e : dv (fin a ha) (fin b hb) = Fl.round .near (a / b) := div_fin _ _ _ h0.ne'
  simp only [e]
  rcases round_near_cases (F := B) (a / b) with ⟨hx, hr⟩ | ⟨hr, hq⟩ | ⟨hr, hq⟩
  · rw [hr, if_neg (by simp [eq]), if_neg (by simp [eq])]
    refine near_down hx hr ?_
    rw [twoprod_gt fma hx hb ha (Or.inl hbig), div_lt_iff₀ h0]
  · rw [down_pinf hq, hr, if_pos (by rfl)]
  · rw [down_ninf hq, hr, if_neg (by simp [eq]), if_pos (by rfl)]

theorem rep_tiny : (B).Rep (2 ^ (-1074 : ℤ)) := rep_pow (by norm_num) (by norm_num)

theorem up_tiny {q : ℚ} (h0 : 0 < q) (h : q ≤ 2 ^ (-1074 : ℤ)) :
    (Fl.round .up q : Dbl) = fin (2 ^ (-1074 : ℤ)) rep_tiny := by
  refine IsUp.unique (round_up_isUp q) ⟨by simp, by rw [toE_fin, coeQ_le]; exact h, ?_⟩
  intro s hs hx
  cases s with
  | nan => exact absurd rfl hs
  | pinf => exact le_top
  | ninf => exact absurd hx (by simp)
  | fin t ht =>
    rw [toE_fin, coeQ_le] at hx
    rw [toE_fin, toE_fin, coeQ_le]
    have := tiny_le ht (by linarith : t ≠ 0)
    rwa [abs_of_pos (by linarith)] at this

theorem up_tiny_neg {q : ℚ} (h0 : q < 0) (h : -2 ^ (-1074 : ℤ) < q) :
    (Fl.round .up q : Dbl) = fin 0 rep_zero := by
  refine IsUp.unique (round_up_isUp q) ⟨by simp, by rw [toE_fin, coeQ_le]; exact h0.le, ?_⟩
  intro s hs hx
  cases s with
  | nan => exact absurd rfl hs
  | pinf => exact le_top
  | ninf => exact absurd hx (by simp)
  | fin t ht =>
    rw [toE_fin, coeQ_le] at hx
    rw [toE_fin, toE_fin, coeQ_le]
    by_contra hc
    have hc := not_le.1 hc
    have := tiny_le ht hc.ne
    rw [abs_of_neg hc] at this
    linarith

theorem down_tiny_neg {q : ℚ} (h0 : q < 0) (h : -2 ^ (-1074 : ℤ) ≤ q) :
    (Fl.round .down q : Dbl) = neg (fin (2 ^ (-1074 : ℤ)) rep_tiny) := by
  rw [← up_tiny (q := -q) (by linarith) (by linarith), ← round_neg_down, _root_.neg_neg]

theorem down_tiny {q : ℚ} (h0 : 0 < q) (h : q < 2 ^ (-1074 : ℤ)) :
    (Fl.round .down q : Dbl) = fin 0 rep_zero := by
  have := up_tiny_neg (q := -q) (by linarith) (by linarith)
  rw [round_neg_up] at this
  have h2 := congrArg neg this
  rw [Fl.neg_neg] at h2
  rw [h2]; simp [neg]

/-- outcome of the scaling step -/
inductive ScaleRes (a b : ℚ) : Dbl × Option Dbl → Prop
  | none {A : ℚ} (hA : (B).Rep A) (ha : a / b ≠ 0) (hs : A < 0 ↔ a / b < 0) (h : |a / b| < 2 ^ (-1074 : ℤ)) :
      ScaleRes a b (fin A hA, none)
  | some {A Bb : ℚ} (hA : (B).Rep A) (hB : (B).Rep Bb) (h0 : 0 < Bb) (h : 2 ^ (-969 : ℤ) ≤ |A|)
      (e : A / Bb = a / b) : ScaleRes a b (fin A hA, some (fin Bb hB))

theorem scale_pos {A Bb : ℚ} (hA : (B).Rep A) (hB : (B).Rep Bb) (hA0 : A ≠ 0) (h0 : 0 < Bb) :
    ScaleRes A Bb (
      if lt (Fl.abs (fin A hA)) (two (-969)) then
        if lt (Fl.abs (fin Bb hB)) (two 918) then
          (ti (fin A hA) (two 105), some (ti (fin Bb hB) (two 105)))
        else (fin A hA, none)
      else (fin A hA, some (fin Bb hB))) := by
  rw [lt_two_fin (by norm_num) (by norm_num), lt_two_fin (by norm_num) (by norm_num),
    abs_of_pos h0]
  have pc := two_zpow_pos 105
  by_cases h1 : |A| < 2 ^ (-969 : ℤ)
  · rw [if_pos (decide_eq_true h1)]
    by_cases h2 : Bb < 2 ^ (918 : ℤ)
    · rw [if_pos (decide_eq_true h2), two_eq (by norm_num) (by norm_num)]
      have kA : (B).Rep (A * 2 ^ (105 : ℤ)) := by
        refine rep64 (hA.repU.scale_up 105) ?_
        rw [abs_mul, abs_of_pos pc]
        calc |A| * 2 ^ (105 : ℤ) ≤ 2 ^ (-969 : ℤ) * 2 ^ (105 : ℤ) :=
              mul_le_mul_of_nonneg_right h1.le pc.le
          _ ≤ 2 ^ (1023 : ℤ) := by rw [← zpow_add₀ (by norm_num)]; exact pw_le (by norm_num)
      have kB : (B).Rep (Bb * 2 ^ (105 : ℤ)) := by
        refine rep64 (hB.repU.scale_up 105) ?_
        rw [abs_mul, abs_of_pos pc, abs_of_pos h0]
        calc Bb * 2 ^ (105 : ℤ) ≤ 2 ^ (918 : ℤ) * 2 ^ (105 : ℤ) :=
              mul_le_mul_of_nonneg_right h2.le pc.le
          _ ≤ 2 ^ (1023 : ℤ) := by rw [← zpow_add₀ (by norm_num)]; exact pw_le (by norm_num)
      rw [ti_exact hA _ kA rfl, ti_exact hB _ kB rfl]
      refine ScaleRes.some kA kB (mul_pos h0 pc) ?_ ?_
      · rw [abs_mul, abs_of_pos pc]
        calc (2 : ℚ) ^ (-969 : ℤ) = 2 ^ (-1074 : ℤ) * 2 ^ (105 : ℤ) := by
              rw [← zpow_add₀ (by norm_num)]; norm_num
          _ ≤ _ := mul_le_mul_of_nonneg_right (tiny_le hA hA0) pc.le
      · exact mul_div_mul_right _ _ pc.ne'
    · rw [if_neg (by simpa using h2)]
      have h2 := not_lt.1 h2
      refine ScaleRes.none hA (div_ne_zero hA0 h0.ne') ?_ ?_
      · constructor
        · intro h; exact div_neg_of_neg_of_pos h h0
        · intro h; by_contra hc; exact absurd h (not_lt.2 (div_nonneg (not_lt.1 hc) h0.le))
      · rw [abs_div, abs_of_pos h0, div_lt_iff₀ h0]
        refine h1.trans_le ?_
        have : (2 : ℚ) ^ (-969 : ℤ) ≤ 2 ^ (-1074 : ℤ) * 2 ^ (918 : ℤ) := by
          rw [← zpow_add₀ (by norm_num)]; exact pw_le (by norm_num)
        exact this.trans (mul_le_mul_of_nonneg_left h2 (two_zpow_pos _).le)
  · rw [if_neg (by simpa using h1)]
    exact ScaleRes.some hA hB h0 (not_lt.1 h1) rfl

theorem scaleRes_neg {a b : ℚ} {r} (h : ScaleRes (-a) (-b) r) : ScaleRes a b r := by
  have e : -a / -b = a / b := neg_div_neg_eq a b
  cases h with
  | none hA h1 h2 h3 => rw [e] at h1 h2 h3; exact .none hA h1 h2 h3
  | some hA hB h0 h1 h2 => rw [e] at h2; exact .some hA hB h0 h1 h2

theorem divScale_res {a b : ℚ} (ha : (B).Rep a) (hb : (B).Rep b) (ha0 : a ≠ 0) (hb0 : b ≠ 0) :
    ScaleRes a b (divScale (fin a ha) (fin b hb)) := by
  unfold divScale
  have e : lt (fin b hb : Dbl) (lit 0) = decide (b < 0) := by rw [lit0]; rfl
  rw [e]
  by_cases h : b < 0
  · simp only [h, decide_true, if_true]
    exact scaleRes_neg (scale_pos ha.neg hb.neg (neg_ne_zero.2 ha0) (neg_pos.2 h))
  · simp only [h, decide_false, if_false, Bool.false_eq_true]
    exact scale_pos ha hb ha0 (lt_of_le_of_ne (not_lt.1 h) (Ne.symm hb0))

theorem not_special {x y : Dbl} (h : ¬ divSpecial x y = true) :
    ∃ a ha b hb, x = fin a ha ∧ y = fin b hb ∧ a ≠ 0 ∧ b ≠ 0 := by
  unfold divSpecial at h
  cases x <;> cases y <;> simp [isNaN, isInf, Fl.abs, eq, lit0] at h
  rename_i a ha b hb
  exact ⟨a, ha, b, hb, rfl, rfl, by tauto, by tauto⟩

theorem divUp_proj (fma : Bool) (x y : Dbl) : divUp fma x y =
    if divSpecial x y then dv x y
    else match divScale x y with
    | (xn, none) => if lt xn (lit 0) then lit 0 else two (-1074)
    | (xn, some yn) => (let d := dv xn yn
     if eq d pinf then d
     else if eq d ninf then neg maxF
     else if (lt (twoproduct fma d yn).1 xn ||
        (eq (twoproduct fma d yn).1 xn &&
          lt (twoproduct fma d yn).2 (lit 0))) then succ d else d) := rfl

theorem divDown_proj (fma : Bool) (x y : Dbl) : divDown fma x y =
    if divSpecial x y then dv x y
    else match divScale x y with
    | (xn, none) => if lt xn (lit 0) then neg (two (-1074)) else lit 0
    | (xn, some yn) => (let d := dv xn yn
     if eq d pinf then maxF
     else if eq d ninf then d
     else if (lt xn (twoproduct fma d yn).1 ||
        (eq (twoproduct fma d yn).1 xn &&
          lt (lit 0) (twoproduct fma d yn).2)) then pred d else d) := rfl

theorem divUp_eq (fma : Bool) (x y : Dbl) : divUp fma x y = div .up x y := by
  rw [divUp_proj]
  by_cases hs : divSpecial x y = true
  · rw [if_pos hs]; exact div_special hs _
  · rw [if_neg hs]
    obtain ⟨a, ha, b, hb, rfl, rfl, ha0, hb0⟩ := not_special hs
    rw [div_fin _ _ _ hb0]
    have hr := divScale_res ha hb ha0 hb0
    cases hr' : divScale (fin a ha) (fin b hb) with
    | mk xn o =>
      rw [hr'] at hr
      cases hr with
      | none hA h1 h2 h3 =>
        simp only [lit0, two_eq (show (-1074 : ℤ) ≤ -1074 by norm_num) (show (-1074 : ℤ) ≤ 1023 by norm_num), lt]
        have h3 := abs_lt.1 h3
        by_cases hn : a / b < 0
        · rw [if_pos (decide_eq_true (h2.2 hn)), up_tiny_neg hn h3.1]
        · rw [if_neg (by simpa using fun h => hn (h2.1 h)),
            up_tiny (lt_of_le_of_ne (not_lt.1 hn) (Ne.symm h1)) h3.2.le]
      | some hA hB h0 h1 e =>
        rw [← e]
        exact div_core_up fma hA hB h0 h1

theorem divDown_eq (fma : Bool) (x y : Dbl) : divDown fma x y = div .down x y := by
  rw [divDown_proj]
  by_cases hs : divSpecial x y = true
  · rw [if_pos hs]; exact div_special hs _
  · rw [if_neg hs]
    obtain ⟨a, ha, b, hb, rfl, rfl, ha0, hb0⟩ := not_special hs
    rw [div_fin _ _ _ hb0]
    have hr := divScale_res ha hb ha0 hb0
    cases hr' : divScale (fin a ha) (fin b hb) with
    | mk xn o =>
      rw [hr'] at hr
      cases hr with
      | none hA h1 h2 h3 =>
        simp only [lit0, two_eq (show (-1074 : ℤ) ≤ -1074 by norm_num) (show (-1074 : ℤ) ≤ 1023 by norm_num), lt]
        have h3 := abs_lt.1 h3
        by_cases hn : a / b < 0
        · rw [if_pos (decide_eq_true (h2.2 hn)), down_tiny_neg hn h3.1.le]
        · rw [if_neg (by simpa using fun h => hn (h2.1 h)),
            down_tiny (lt_of_le_of_ne (not_lt.1 hn) (Ne.symm h1)) h3.2]
      | some hA hB h0 h1 e =>
        rw [← e]
        exact div_core_down fma hA hB h0 h1

end Emu
end Kv
