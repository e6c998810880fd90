import Verif.Double.EmuSqrt
import Verif.Double.Hw
import Verif.Props.Arith

/-!
# C20 (emulated directed rounding), C21 (error-free transformations)
-/

set_option exponentiation.threshold 3000

namespace Kv
open Fl Emu

local notation "B" => binary64

/-! ## C20 -/

/-- Spec: `r` is the least double (or `+∞`) that is not below the extended real `v`. -/
def LeastAbove (v : EReal) (r : Dbl) : Prop :=
  r ≠ nan ∧ v ≤ toE r ∧ ∀ s : Dbl, s ≠ nan → v ≤ toE s → toE r ≤ toE s

/-- Spec: `r` is the greatest double (or `-∞`) that is not above the extended real `v`. -/
def GreatestBelow (v : EReal) (r : Dbl) : Prop :=
  r ≠ nan ∧ toE r ≤ v ∧ ∀ s : Dbl, s ≠ nan → toE s ≤ v → toE s ≤ toE r

/-- **C20.** `add_up`, `add_down` computed in mode nearest are correctly rounded, for all operands
other than NaN and `∞ - ∞`. -/
theorem C20_add (x y : Dbl) (hx : x ≠ nan) (hy : y ≠ nan) (h1 : ¬ (toE x = ⊤ ∧ toE y = ⊥))
    (h2 : ¬ (toE x = ⊥ ∧ toE y = ⊤)) :
    LeastAbove (toE x + toE y) (addUp x y) ∧ GreatestBelow (toE x + toE y) (addDown x y) := by
  rw [addUp_eq, addDown_eq, ← neg_add_up]
  exact ⟨add_up_isUp hx hy h1 h2, add_down_isDown hx hy h1 h2⟩

/-- **C20.** `sub_up`, `sub_down`. -/
theorem C20_sub (x y : Dbl) (hx : x ≠ nan) (hy : y ≠ nan) (h1 : ¬ (toE x = ⊤ ∧ toE y = ⊤))
    (h2 : ¬ (toE x = ⊥ ∧ toE y = ⊥)) :
    LeastAbove (toE x - toE y) (subUp x y) ∧ GreatestBelow (toE x - toE y) (subDown x y) := by
  have e : sub .down x y = neg (sub .up (neg x) (neg y)) := by
    unfold sub; rw [neg_add_up]
  rw [subUp_eq, subDown_eq, e]
  exact ⟨sub_up_isUp hx hy h1 h2, sub_down_isDown hx hy h1 h2⟩

/-- **C20.** `mul_up`, `mul_down`, with and without the FMA instruction. -/
theorem C20_mul (fma : Bool) (x y : Dbl) (hx : x ≠ nan) (hy : y ≠ nan)
    (h1 : toE x = 0 → toE y ≠ ⊤ ∧ toE y ≠ ⊥) (h2 : toE y = 0 → toE x ≠ ⊤ ∧ toE x ≠ ⊥) :
    LeastAbove (toE x * toE y) (mulUp fma x y) ∧ GreatestBelow (toE x * toE y) (mulDown fma x y) := by
  rw [mulUp_eq, mulDown_eq, ← neg_mul_up]
  exact ⟨mul_up_isUp hx hy h1 h2, mul_down_isDown hx hy h1 h2⟩

/-- **C20.** `div_up`, `div_down`, with and without the FMA instruction. -/
theorem C20_div (fma : Bool) (x y : Dbl) (hx : x ≠ nan) (hy : y ≠ nan) (h1 : toE y ≠ 0)
    (h2 : (toE x = ⊤ ∨ toE x = ⊥) → toE y ≠ ⊤ ∧ toE y ≠ ⊥) :
    LeastAbove (toE x / toE y) (divUp fma x y) ∧ GreatestBelow (toE x / toE y) (divDown fma x y) := by
  rw [divUp_eq, divDown_eq, ← neg_div_up]
  exact ⟨div_up_isUp hx hy h1 h2, div_down_isDown hx hy h1 h2⟩

/-- **C20.** `sqrt_up`, `sqrt_down` of every finite nonnegative double. -/
theorem C20_sqrt (fma : Bool) (q : ℚ) (h : (B).Rep q) (hq : 0 ≤ q) :
    LeastAbove (Real.sqrt q : ℝ) (sqrtUp fma (fin q h)) ∧
      GreatestBelow (Real.sqrt q : ℝ) (sqrtDown fma (fin q h)) := by
  rw [sqrtUp_eq, sqrtDown_eq]
  exact ⟨sqrt_up_isUp h hq, sqrt_down_isDown h hq⟩

/-- **C20.** Every operation of `rop<double>` with emulated rounding returns, for all operands (NaN,
infinite and subnormal ones included), exactly what hardware rounding returns. -/
theorem C20_emulated_eq_hardware (fma : Bool) :
    (instRopEmu fma : Rop (Fl binary64)) = (instRopHw binary64 : Rop (Fl binary64)) := by
  unfold instRopEmu instRopHw
  congr 1
  · funext x y; exact addUp_eq x y
  · funext x y; rw [addDown_eq]; exact (neg_add_up x y).symm
  · funext x y; exact subUp_eq x y
  · funext x y; rw [subDown_eq]; unfold Hw.subDown sub; rw [neg_add_up]
  · funext x y; exact mulUp_eq fma x y
  · funext x y; rw [mulDown_eq]; exact (neg_mul_up x y).symm
  · funext x y; exact divUp_eq fma x y
  · funext x y; rw [divDown_eq]; exact (neg_div_up x y).symm
  · funext x; exact sqrtUp_eq fma x
  · funext x; exact sqrtDown_eq fma x

theorem emu_mul_inf (fma : Bool) (x y : Dbl) (hx : x ≠ nan) (hy : y ≠ nan) (h1 : toE x ≠ 0)
    (h2 : toE y ≠ 0) (h3 : toE x = ⊤ ∨ toE x = ⊥ ∨ toE y = ⊤ ∨ toE y = ⊥) :
    toE (mulUp fma x y) = toE x * toE y ∧ toE (mulDown fma x y) = toE x * toE y := by
  rw [mulUp_eq, mulDown_eq, ← neg_mul_up]
  exact (instRopSemHw binary64).mul_inf x y hx hy h1 h2 h3

theorem emu_sqrt_up (fma : Bool) (x : Dbl) (hx : x ≠ nan) (h0 : 0 ≤ toE x) :
    sqrtUp fma x ≠ nan ∧
      ∀ a : ℝ, (a : EReal) ≤ toE x → ((Real.sqrt a : ℝ) : EReal) ≤ toE (sqrtUp fma x) := by
  rw [sqrtUp_eq]; exact Fl.sqrt_up_spec x hx h0

theorem emu_sqrt_down (fma : Bool) (x : Dbl) (hx : x ≠ nan) (h0 : 0 ≤ toE x) :
    sqrtDown fma x ≠ nan ∧
      ∀ a : ℝ, toE x ≤ (a : EReal) → toE (sqrtDown fma x) ≤ ((Real.sqrt a : ℝ) : EReal) := by
  rw [sqrtDown_eq]; exact Fl.sqrt_down_spec x hx h0

/-- Consequently emulated rounding satisfies the laws of directed rounding, and all theorems on
`interval<T>` apply to it. -/
noncomputable instance instRopSemEmu (fma : Bool) : RopSem (Emu fma) :=
  let s := instRopSemHw binary64
  { instRopEmu fma with
    val := Fl.toE
    nan := fun x => x = Fl.nan
    lt_iff := s.lt_iff
    le_iff := s.le_iff
    eq_iff := s.eq_iff
    nan_neg := s.nan_neg
    val_neg := s.val_neg
    lit_zero := s.lit_zero
    lit_one := s.lit_one
    lit_half := s.lit_half
    inf_val := s.inf_val
    add_up := fun x y hx hy h1 h2 => ⟨(C20_add x y hx hy h1 h2).1.1, (C20_add x y hx hy h1 h2).1.2.1⟩
    add_down := fun x y hx hy h1 h2 => ⟨(C20_add x y hx hy h1 h2).2.1, (C20_add x y hx hy h1 h2).2.2.1⟩
    sub_up := fun x y hx hy h1 h2 => ⟨(C20_sub x y hx hy h1 h2).1.1, (C20_sub x y hx hy h1 h2).1.2.1⟩
    sub_down := fun x y hx hy h1 h2 => ⟨(C20_sub x y hx hy h1 h2).2.1, (C20_sub x y hx hy h1 h2).2.2.1⟩
    mul_up := fun x y hx hy h1 h2 => ⟨(C20_mul fma x y hx hy h1 h2).1.1, (C20_mul fma x y hx hy h1 h2).1.2.1⟩
    mul_down := fun x y hx hy h1 h2 => ⟨(C20_mul fma x y hx hy h1 h2).2.1, (C20_mul fma x y hx hy h1 h2).2.2.1⟩
    mul_inf := emu_mul_inf fma
    div_up := fun x y hx hy h1 h2 => ⟨(C20_div fma x y hx hy h1 h2).1.1, (C20_div fma x y hx hy h1 h2).1.2.1⟩
    div_down := fun x y hx hy h1 h2 => ⟨(C20_div fma x y hx hy h1 h2).2.1, (C20_div fma x y hx hy h1 h2).2.2.1⟩
    sqrt_up := emu_sqrt_up fma
    sqrt_down := emu_sqrt_down fma }

instance instRopFloorEmu (fma : Bool) : RopFloor (Emu fma) where
  floor_sem := (instRopFloorHw binary64).floor_sem
  ceil_sem := (instRopFloorHw binary64).ceil_sem

/-- the interval product theorem instantiated for emulated rounding without FMA -/
example (X Y : Interval (Emu false)) (x y : ℝ) (hx : x ∈ X) (hy : y ∈ Y) : x * y ∈ X.mul Y :=
  C02_mul hx hy

/-- the hypotheses of `C20_add`, `C20_mul`, `C20_div` hold for a subnormal and a huge number -/
example : (fin (2 ^ (-1074 : ℤ)) rep_tiny : Dbl) ≠ nan ∧ (maxF : Dbl) ≠ nan ∧ toE (maxF : Dbl) ≠ 0 := by
  refine ⟨by simp, by simp [maxF], ?_⟩
  have h := le_maxQ64
  have h2 := Format.two_zpow_pos 1023
  have h3 := Format.two_zpow_pos 1022
  simp only [maxF, toE_fin]
  intro hc
  have : ((B).maxQ : ℝ) = 0 := by exact_mod_cast hc
  have : (B).maxQ = 0 := by exact_mod_cast this
  linarith

/-- a rounding boundary: `1 + 2^-1074` is rounded up to the successor of `1`, not to `1` -/
example : LeastAbove (toE (fin 1 Format.rep_one : Dbl) + toE (fin (2 ^ (-1074 : ℤ)) rep_tiny))
    (addUp (fin 1 Format.rep_one) (fin (2 ^ (-1074 : ℤ)) rep_tiny)) :=
  (C20_add _ _ (by simp) (by simp) (by simp) (by simp)).1

/-! ## C21 -/

/-- **C21.** `twosum` of two finite doubles whose rounded sum is finite: the first component is the
rounded sum, and both components add up exactly to `a + b`. -/
theorem C21_twosum {a b x : ℚ} (ha : (B).Rep a) (hb : (B).Rep b) (hx : (B).Rep x)
    (hr : add .near (fin a ha) (fin b hb) = fin x hx) :
    ∃ y hy, twosum (fin a ha) (fin b hb) = (fin x hx, fin y hy) ∧ x + y = a + b := by
  obtain ⟨h, e⟩ := twosum_fin ha hb hx hr
  exact ⟨_, h, e, by ring⟩

/-- **C21.** `twoproduct` of two finite doubles whose rounded product is finite and not below
`2^-969` in modulus, or zero because a factor is zero: the components add up exactly to `a * b`,
with and without the FMA instruction. -/
theorem C21_twoproduct (fma : Bool) {a b x : ℚ} (ha : (B).Rep a) (hb : (B).Rep b) (hx : (B).Rep x)
    (hr : mul .near (fin a ha) (fin b hb) = fin x hx) (hu : 2 ^ (-969 : ℤ) ≤ |x| ∨ a = 0 ∨ b = 0) :
    ∃ y hy, twoproduct fma (fin a ha) (fin b hb) = (fin x hx, fin y hy) ∧ x + y = a * b := by
  have hg : a * b = 0 ∨ GridOk a b := by
    rcases hu with h | h | h
    · right; apply gridOk_of_le ha hb; rwa [← round_fin_val hr]
    · left; rw [h, zero_mul]
    · left; rw [h, mul_zero]
  obtain ⟨h, e⟩ := twoproduct_fin fma ha hb hx hr hg
  exact ⟨_, h, e, by ring⟩

/-- the hypotheses hold for `a = b = 1 + 2^-52`, whose product is not a double -/
example : ∃ (a : ℚ) (ha : (B).Rep a) (x : ℚ) (hx : (B).Rep x), mul .near (fin a ha) (fin a ha) = fin x hx ∧
    2 ^ (-969 : ℤ) ≤ |x| ∧ x ≠ a * a := by
  have ha : (B).Rep (1 + 2 ^ (-52 : ℤ)) :=
    ⟨2 ^ 52 + 1, -52, by norm_num [binary64], by norm_num [binary64], by norm_num [binary64], by norm_num⟩
  have hx : (B).Rep (1 + 2 ^ (-51 : ℤ)) :=
    ⟨2 ^ 52 + 2, -52, by norm_num [binary64], by norm_num [binary64], by norm_num [binary64], by norm_num⟩
  refine ⟨_, ha, _, hx, ?_, ?_, by norm_num⟩
  · rw [mul_fin_md]
    have e : (B).roundQ .near ((1 + 2 ^ (-52 : ℤ)) * (1 + 2 ^ (-52 : ℤ))) = 1 + 2 ^ (-51 : ℤ) := by
      decide +kernel
    rw [round_eq_pack hx.repU e, pack, dif_pos hx.abs_le]
  · rw [abs_of_pos (by norm_num)]
    have := pw_le (show (-969 : ℤ) ≤ 0 by norm_num)
    have h2 := Format.two_zpow_pos (-51)
    simp only [zpow_zero] at this
    linarith

/-- without the hypothesis on the size of the product the remainder is lost: `2^-1000 * 2^-1000` -/
example (fma : Bool) : ∃ h : (B).Rep (2 ^ (-1000 : ℤ)),
    (twoproduct fma (fin _ h) (fin _ h)).1 = fin 0 Format.rep_zero := by
  have h : (B).Rep (2 ^ (-1000 : ℤ)) := rep_pow (by norm_num) (by norm_num)
  refine ⟨h, ?_⟩
  rw [twoproduct_fst, ti_fin]
  have e : (B).roundQ .near (2 ^ (-1000 : ℤ) * 2 ^ (-1000 : ℤ)) = 0 := by decide +kernel
  rw [round_eq_pack Format.rep_zero.repU e, pack, dif_pos Format.rep_zero.abs_le]

end Kv
