import Verif.Float.Ops

/-! # Helper lemmas: the IEEE operations are correctly rounded -/

namespace Kv
namespace Fl
open Format
variable {F : Format}

@[simp] theorem toE_nan : toE (nan : Fl F) = 0 := rfl
@[simp] theorem toE_pinf : toE (pinf : Fl F) = ⊤ := rfl
@[simp] theorem toE_ninf : toE (ninf : Fl F) = ⊥ := rfl
@[simp] theorem toE_fin (q : ℚ) (h : F.Rep q) : toE (fin q h) = ((q : ℝ) : EReal) := rfl

/-- `r` is the least float not below `x`. -/
def IsUp (x : EReal) (r : Fl F) : Prop :=
  r ≠ nan ∧ x ≤ toE r ∧ ∀ s : Fl F, s ≠ nan → x ≤ toE s → toE r ≤ toE s

/-- `r` is the greatest float not above `x`. -/
def IsDown (x : EReal) (r : Fl F) : Prop :=
  r ≠ nan ∧ toE r ≤ x ∧ ∀ s : Fl F, s ≠ nan → toE s ≤ x → toE s ≤ toE r

theorem neg_ne_nan {x : Fl F} : neg x ≠ nan ↔ x ≠ nan := by
  cases x <;> simp [neg]

theorem neg_neg (x : Fl F) : neg (neg x) = x := by
  cases x <;> simp [neg]

@[simp] theorem toE_neg (x : Fl F) : toE (neg x) = - toE x := by
  cases x <;> simp [neg]

theorem IsUp.neg {x : EReal} {r : Fl F} (h : IsUp x r) : IsDown (-x) (neg r) := by
  refine ⟨neg_ne_nan.2 h.1, ?_, ?_⟩
  · simpa using h.2.1
  · intro s hs hx
    have := h.2.2 (Fl.neg s) (neg_ne_nan.2 hs) (by rw [toE_neg]; exact EReal.le_neg_of_le_neg hx)
    rw [toE_neg] at this ⊢
    exact EReal.le_neg_of_le_neg this

theorem IsDown.neg {x : EReal} {r : Fl F} (h : IsDown x r) : IsUp (-x) (neg r) := by
  refine ⟨neg_ne_nan.2 h.1, ?_, ?_⟩
  · simpa using h.2.1
  · intro s hs hx
    have := h.2.2 (Fl.neg s) (neg_ne_nan.2 hs) (by rw [toE_neg]; exact EReal.neg_le_of_neg_le hx)
    rw [toE_neg] at this ⊢
    exact EReal.neg_le_of_neg_le this

theorem coeQ_le {a b : ℚ} : (((a : ℝ) : EReal) ≤ ((b : ℝ) : EReal)) ↔ a ≤ b := by
  rw [EReal.coe_le_coe_iff]; exact_mod_cast Iff.rfl

theorem coeQ_lt {a b : ℚ} : (((a : ℝ) : EReal) < ((b : ℝ) : EReal)) ↔ a < b := by
  rw [EReal.coe_lt_coe_iff]; exact_mod_cast Iff.rfl

theorem coeQ_eq {a b : ℚ} : (((a : ℝ) : EReal) = ((b : ℝ) : EReal)) ↔ a = b := by
  rw [EReal.coe_eq_coe_iff]; exact_mod_cast Iff.rfl

theorem round_of_rep (md : RMode) {q : ℚ} (h : F.Rep q) : round md q = fin q h := by
  have h1 : F.roundQ md q = q := h.repU.roundQ_eq md
  unfold round pack
  rw [dif_pos (by rw [h1]; exact h.abs_le)]
  congr

theorem pack_ne_nan (md : RMode) (q : ℚ) (hq : F.RepU q) : (pack md q hq : Fl F) ≠ nan := by
  unfold pack
  split_ifs
  · simp
  · cases md <;> cases decide (0 < q) <;> simp [overflow, maxF, neg]

theorem round_ne_nan (md : RMode) (q : ℚ) : (round md q : Fl F) ≠ nan := pack_ne_nan _ _ _

theorem pack_congr (md : RMode) {r s : ℚ} (hr : F.RepU r) (hs : F.RepU s) (h : r = s) :
    (pack md r hr : Fl F) = pack md s hs := by subst h; rfl

theorem pack_ne_zero {q : ℚ} (h : ¬ |q| ≤ F.maxQ) : q ≠ 0 := by
  intro h0; rw [h0] at h; simp at h; linarith [maxQ_pos (F := F)]

theorem round_up_isUp (q : ℚ) : IsUp (F := F) ((q : ℝ) : EReal) (round .up q) := by
  refine ⟨round_ne_nan _ _, ?_, ?_⟩
  · unfold round pack
    split_ifs with h1
    · rw [toE_fin, coeQ_le]; exact le_roundQ_up q
    · by_cases h2 : 0 < F.roundQ .up q
      · simp [overflow, h2]
      · simp only [overflow, h2, decide_false, maxF, neg, toE_fin, coeQ_le]
        have h3 := le_roundQ_up (F := F) q
        have h4 : F.roundQ .up q < - F.maxQ := by
          have := not_le.1 h1
          rw [abs_of_nonpos (not_lt.1 h2)] at this
          linarith
        linarith
  · intro s hs hx
    cases s with
    | nan => exact absurd rfl hs
    | pinf => exact le_top
    | ninf => exact absurd hx (by simp)
    | fin b hb =>
      rw [toE_fin, coeQ_le] at hx
      have h5 := roundQ_le_of_le .up hb.repU hx
      have hb1 := abs_le.1 hb.abs_le
      unfold round pack
      split_ifs with h1
      · rw [toE_fin, toE_fin, coeQ_le]; exact h5
      · by_cases h2 : 0 < F.roundQ .up q
        · exfalso
          rw [abs_of_pos h2] at h1
          exact h1 (h5.trans hb1.2)
        · simp only [overflow, h2, decide_false, maxF, neg, toE_fin, coeQ_le]; exact hb1.1

/-- Opposite rounding mode. -/
def opp : RMode → RMode
  | .up => .down
  | .down => .up
  | .near => .near

theorem roundQ_neg (md : RMode) (q : ℚ) : F.roundQ md (-q) = - F.roundQ (opp md) q := by
  cases md
  · exact roundQ_neg_up q
  · exact roundQ_neg_down q
  · exact roundQ_neg_near q

theorem pack_neg (md : RMode) (r : ℚ) (hr : F.RepU r) :
    (pack md (-r) hr.neg : Fl F) = neg (pack (opp md) r hr) := by
  unfold pack
  by_cases h : |r| ≤ F.maxQ
  · rw [dif_pos (by rwa [abs_neg]), dif_pos h]; rfl
  · rw [dif_neg (by rwa [abs_neg]), dif_neg h]
    rcases lt_or_gt_of_ne (pack_ne_zero h) with h0 | h0
    · have h1 : (0 : ℚ) < -r := by linarith
      cases md <;> simp [overflow, h1, not_lt.2 h0.le, opp, neg, maxF]
    · have h1 : ¬ (0 : ℚ) < -r := by linarith
      cases md <;> simp [overflow, h1, h0, opp, neg, maxF]

theorem round_neg (md : RMode) (q : ℚ) : (round md (-q) : Fl F) = neg (round (opp md) q) := by
  unfold round
  rw [← pack_neg]
  exact pack_congr _ _ _ (roundQ_neg md q)

theorem round_neg_up (q : ℚ) : (round .up (-q) : Fl F) = neg (round .down q) := round_neg _ _
theorem round_neg_down (q : ℚ) : (round .down (-q) : Fl F) = neg (round .up q) := round_neg _ _
theorem round_neg_near (q : ℚ) : (round .near (-q) : Fl F) = neg (round .near q) := round_neg _ _

theorem round_down_isDown (q : ℚ) : IsDown (F := F) ((q : ℝ) : EReal) (round .down q) := by
  have h := (round_up_isUp (F := F) (-q)).neg
  rw [round_neg_up, neg_neg] at h
  simpa using h

theorem isUp_self {x : Fl F} (hx : x ≠ nan) : IsUp (toE x) x := ⟨hx, le_rfl, fun _ _ h => h⟩
theorem isDown_self {x : Fl F} (hx : x ≠ nan) : IsDown (toE x) x := ⟨hx, le_rfl, fun _ _ h => h⟩

theorem add_up_isUp {x y : Fl F} (hx : x ≠ nan) (hy : y ≠ nan)
    (h1 : ¬ (toE x = ⊤ ∧ toE y = ⊥)) (h2 : ¬ (toE x = ⊥ ∧ toE y = ⊤)) :
    IsUp (toE x + toE y) (add .up x y) := by
  cases x <;> cases y <;> simp at hx hy h1 h2 <;> simp only [add, toE_fin, toE_pinf, toE_ninf]
  case fin.fin a ha b hb =>
    have := round_up_isUp (F := F) (a + b)
    push_cast at this
    simpa using this
  all_goals first
    | simpa using isUp_self (F := F) (x := pinf) (by simp)
    | simpa using isUp_self (F := F) (x := ninf) (by simp)

theorem sub_up_isUp {x y : Fl F} (hx : x ≠ nan) (hy : y ≠ nan)
    (h1 : ¬ (toE x = ⊤ ∧ toE y = ⊤)) (h2 : ¬ (toE x = ⊥ ∧ toE y = ⊥)) :
    IsUp (toE x - toE y) (sub .up x y) := by
  have := add_up_isUp (x := x) (y := neg y) hx (neg_ne_nan.2 hy)
    (by rw [toE_neg]; simpa using h1) (by rw [toE_neg]; simpa using h2)
  rw [toE_neg, ← sub_eq_add_neg] at this
  exact this

theorem toE_eq_top {x : Fl F} : toE x = ⊤ ↔ x = pinf := by
  cases x <;> simp
theorem toE_eq_bot {x : Fl F} : toE x = ⊥ ↔ x = ninf := by
  cases x <;> simp

theorem toE_infOfSign_pos {s : ℤ} (h : 0 < s) : (infOfSign s : Fl F) = pinf := by
  simp [infOfSign, h]
theorem toE_infOfSign_neg {s : ℤ} (h : s < 0) : (infOfSign s : Fl F) = ninf := by
  simp [infOfSign, h, not_lt.2 h.le]

theorem coeQ_pos {a : ℚ} (h : 0 < a) : (0 : ℝ) < (a : ℝ) := by exact_mod_cast h
theorem coeQ_neg {a : ℚ} (h : a < 0) : (a : ℝ) < 0 := by exact_mod_cast h

theorem mul_up_isUp {x y : Fl F} (hx : x ≠ nan) (hy : y ≠ nan)
    (h1 : toE x = 0 → toE y ≠ ⊤ ∧ toE y ≠ ⊥) (h2 : toE y = 0 → toE x ≠ ⊤ ∧ toE x ≠ ⊥) :
    IsUp (toE x * toE y) (mul .up x y) := by
  have hp := isUp_self (F := F) (x := pinf) (by simp)
  have hn := isUp_self (F := F) (x := ninf) (by simp)
  rw [toE_pinf] at hp
  rw [toE_ninf] at hn
  cases x with
  | nan => exact absurd rfl hx
  | pinf =>
    cases y with
    | nan => exact absurd rfl hy
    | pinf => simpa [mul, infOfSign, sgn] using hp
    | ninf => simpa [mul, infOfSign, sgn] using hn
    | fin b hb =>
      rcases lt_trichotomy b 0 with h | h | h
      · simp only [mul, toE_fin, toE_pinf]
        rw [EReal.top_mul_coe_of_neg (coeQ_neg h), toE_infOfSign_neg (by simp [sgn, h, not_lt.2 h.le])]
        exact hn
      · exfalso; subst h; simp at h2
      · simp only [mul, toE_fin, toE_pinf]
        rw [EReal.top_mul_coe_of_pos (coeQ_pos h), toE_infOfSign_pos (by simp [sgn, h])]
        exact hp
  | ninf =>
    cases y with
    | nan => exact absurd rfl hy
    | pinf => simpa [mul, infOfSign, sgn] using hn
    | ninf => simpa [mul, infOfSign, sgn] using hp
    | fin b hb =>
      rcases lt_trichotomy b 0 with h | h | h
      · simp only [mul, toE_fin, toE_ninf]
        rw [EReal.bot_mul_coe_of_neg (coeQ_neg h), toE_infOfSign_pos (by simp [sgn, h, not_lt.2 h.le])]
        exact hp
      · exfalso; subst h; simp at h2
      · simp only [mul, toE_fin, toE_ninf]
        rw [EReal.bot_mul_coe_of_pos (coeQ_pos h), toE_infOfSign_neg (by simp [sgn, h])]
        exact hn
  | fin a ha =>
    cases y with
    | nan => exact absurd rfl hy
    | pinf =>
      rcases lt_trichotomy a 0 with h | h | h
      · simp only [mul, toE_fin, toE_pinf]
        rw [EReal.coe_mul_top_of_neg (coeQ_neg h), toE_infOfSign_neg (by simp [sgn, h, not_lt.2 h.le])]
        exact hn
      · exfalso; subst h; simp at h1
      · simp only [mul, toE_fin, toE_pinf]
        rw [EReal.coe_mul_top_of_pos (coeQ_pos h), toE_infOfSign_pos (by simp [sgn, h])]
        exact hp
    | ninf =>
      rcases lt_trichotomy a 0 with h | h | h
      · simp only [mul, toE_fin, toE_ninf]
        rw [EReal.coe_mul_bot_of_neg (coeQ_neg h), toE_infOfSign_pos (by simp [sgn, h, not_lt.2 h.le])]
        exact hp
      · exfalso; subst h; simp at h1
      · simp only [mul, toE_fin, toE_ninf]
        rw [EReal.coe_mul_bot_of_pos (coeQ_pos h), toE_infOfSign_neg (by simp [sgn, h])]
        exact hn
    | fin b hb =>
      have := round_up_isUp (F := F) (a * b)
      push_cast at this
      simpa [mul] using this

theorem div_up_isUp {x y : Fl F} (hx : x ≠ nan) (hy : y ≠ nan) (h0 : toE y ≠ 0)
    (h1 : (toE x = ⊤ ∨ toE x = ⊥) → toE y ≠ ⊤ ∧ toE y ≠ ⊥) :
    IsUp (toE x / toE y) (div .up x y) := by
  have hp := isUp_self (F := F) (x := pinf) (by simp)
  have hn := isUp_self (F := F) (x := ninf) (by simp)
  have hz := isUp_self (F := F) (x := zero) (by simp [zero])
  rw [toE_pinf] at hp
  rw [toE_ninf] at hn
  have hz0 : toE (zero : Fl F) = 0 := by simp [zero]
  rw [hz0] at hz
  cases x with
  | nan => exact absurd rfl hx
  | pinf =>
    cases y with
    | nan => exact absurd rfl hy
    | pinf => simp at h1
    | ninf => simp at h1
    | fin b hb =>
      rcases lt_trichotomy b 0 with h | h | h
      · simp only [div, toE_fin, toE_pinf]
        rw [EReal.top_div_of_neg_ne_bot (by exact_mod_cast h) (by simp), if_pos h,
          toE_infOfSign_neg (by simp [sgn])]
        exact hn
      · exfalso; subst h; simp at h0
      · simp only [div, toE_fin, toE_pinf]
        rw [EReal.top_div_of_pos_ne_top (by exact_mod_cast h) (by simp), if_neg (not_lt.2 h.le),
          toE_infOfSign_pos (by simp [sgn])]
        exact hp
  | ninf =>
    cases y with
    | nan => exact absurd rfl hy
    | pinf => simp at h1
    | ninf => simp at h1
    | fin b hb =>
      rcases lt_trichotomy b 0 with h | h | h
      · simp only [div, toE_fin, toE_ninf]
        rw [EReal.bot_div_of_neg_ne_bot (by exact_mod_cast h) (by simp), if_pos h,
          toE_infOfSign_pos (by simp [sgn])]
        exact hp
      · exfalso; subst h; simp at h0
      · simp only [div, toE_fin, toE_ninf]
        rw [EReal.bot_div_of_pos_ne_top (by exact_mod_cast h) (by simp), if_neg (not_lt.2 h.le),
          toE_infOfSign_neg (by simp [sgn])]
        exact hn
  | fin a ha =>
    cases y with
    | nan => exact absurd rfl hy
    | pinf => simpa [div] using hz
    | ninf => simpa [div] using hz
    | fin b hb =>
      have hb0 : b ≠ 0 := by
        intro h; subst h; simp at h0
      have := round_up_isUp (F := F) (a / b)
      push_cast at this
      rw [EReal.coe_div] at this
      simpa [div, hb0] using this

/-- `-((-x) ∘ y)` in round-up mode is `x ∘ y` in round-down mode: addition. -/
theorem add_down_isDown {x y : Fl F} (hx : x ≠ nan) (hy : y ≠ nan)
    (h1 : ¬ (toE x = ⊤ ∧ toE y = ⊥)) (h2 : ¬ (toE x = ⊥ ∧ toE y = ⊤)) :
    IsDown (toE x + toE y) (neg (add .up (neg x) (neg y))) := by
  have h := (add_up_isUp (x := neg x) (y := neg y) (neg_ne_nan.2 hx) (neg_ne_nan.2 hy)
    (by simpa using h2) (by simpa using h1)).neg
  rw [toE_neg, toE_neg, EReal.neg_add, _root_.neg_neg, sub_eq_add_neg, _root_.neg_neg] at h
  · exact h
  · by_cases hc : toE x = ⊤ <;> by_cases hd : toE y = ⊥ <;> simp_all
  · by_cases hc : toE x = ⊥ <;> by_cases hd : toE y = ⊤ <;> simp_all

theorem sub_down_isDown {x y : Fl F} (hx : x ≠ nan) (hy : y ≠ nan)
    (h1 : ¬ (toE x = ⊤ ∧ toE y = ⊤)) (h2 : ¬ (toE x = ⊥ ∧ toE y = ⊥)) :
    IsDown (toE x - toE y) (neg (sub .up (neg x) (neg y))) := by
  have h := add_down_isDown (x := x) (y := neg y) hx (neg_ne_nan.2 hy)
    (by simpa using h1) (by simpa using h2)
  rw [toE_neg, ← sub_eq_add_neg] at h
  exact h

theorem mul_down_isDown {x y : Fl F} (hx : x ≠ nan) (hy : y ≠ nan)
    (h1 : toE x = 0 → toE y ≠ ⊤ ∧ toE y ≠ ⊥) (h2 : toE y = 0 → toE x ≠ ⊤ ∧ toE x ≠ ⊥) :
    IsDown (toE x * toE y) (neg (mul .up (neg x) y)) := by
  have h := (mul_up_isUp (x := neg x) (y := y) (neg_ne_nan.2 hx) hy
    (by intro h; rw [toE_neg, EReal.neg_eq_zero_iff] at h; exact h1 h)
    (by intro h; rw [toE_neg]; have := h2 h; simpa using this.symm)).neg
  rw [toE_neg, EReal.neg_mul, _root_.neg_neg] at h
  exact h

theorem div_down_isDown {x y : Fl F} (hx : x ≠ nan) (hy : y ≠ nan) (h0 : toE y ≠ 0)
    (h1 : (toE x = ⊤ ∨ toE x = ⊥) → toE y ≠ ⊤ ∧ toE y ≠ ⊥) :
    IsDown (toE x / toE y) (neg (div .up (neg x) y)) := by
  have h := (div_up_isUp (x := neg x) (y := y) (neg_ne_nan.2 hx) hy h0
    (by intro h; rw [toE_neg] at h; simp at h; exact h1 h.symm)).neg
  rw [toE_neg, div_eq_mul_inv, EReal.neg_mul, _root_.neg_neg, ← div_eq_mul_inv] at h
  exact h

theorem lt_iff (x y : Fl F) : lt x y = true ↔ x ≠ nan ∧ y ≠ nan ∧ toE x < toE y := by
  cases x <;> cases y <;> simp [lt]

theorem le_iff (x y : Fl F) : le x y = true ↔ x ≠ nan ∧ y ≠ nan ∧ toE x ≤ toE y := by
  cases x <;> cases y <;> simp [le]

theorem eq_iff (x y : Fl F) : eq x y = true ↔ x ≠ nan ∧ y ≠ nan ∧ toE x = toE y := by
  cases x <;> cases y <;> simp [eq]

end Fl
end Kv
