import Verif.Double.DDNohwLemmas
import Verif.Props.DD

/-!
# C83: double-double arithmetic with directed rounding, without hardware rounding modes

Properties of `kv::rop<kv::dd>` when compiled with `KV_NOHWROUND` (rdd-nohwround.hpp), where the
directed roundings of `double` are emulated.  The specification (`Above`, `Below`, `Normal`, `ofQ`) is
that of C22.
-/

set_option exponentiation.threshold 3000

namespace Kv
namespace DDN
open Fl Format Emu DD

local notation "B" => binary64

section
variable {x1 x2 y1 y2 : ℚ} (hx1 : (B).Rep x1) (hx2 : (B).Rep x2) (hy1 : (B).Rep y1) (hy2 : (B).Rep y2)

/-- **C83** (addition) of arbitrary finite pairs. -/
theorem C83_add :
    Below (addDown (ofQ x1 x2 hx1 hx2) (ofQ y1 y2 hy1 hy2)) ((x1 : ℝ) + x2 + (y1 + y2)) ∧
    Above (addUp (ofQ x1 x2 hx1 hx2) (ofQ y1 y2 hy1 hy2)) ((x1 : ℝ) + x2 + (y1 + y2)) := by
  rw [addDown_same, addUp_same]
  exact C22_add hx1 hx2 hy1 hy2

/-- **C83** (subtraction) of arbitrary finite pairs. -/
theorem C83_sub :
    Below (subDown (ofQ x1 x2 hx1 hx2) (ofQ y1 y2 hy1 hy2)) ((x1 : ℝ) + x2 - (y1 + y2)) ∧
    Above (subUp (ofQ x1 x2 hx1 hx2) (ofQ y1 y2 hy1 hy2)) ((x1 : ℝ) + x2 - (y1 + y2)) := by
  rw [subDown_same, subUp_same]
  exact C22_sub hx1 hx2 hy1 hy2

/-- **C83** (multiplication) of arbitrary finite pairs; overflow and underflow included. -/
theorem C83_mul (fma : Bool) :
    Below (mulDown fma (ofQ x1 x2 hx1 hx2) (ofQ y1 y2 hy1 hy2)) (((x1 : ℝ) + x2) * (y1 + y2)) ∧
    Above (mulUp fma (ofQ x1 x2 hx1 hx2) (ofQ y1 y2 hy1 hy2)) (((x1 : ℝ) + x2) * (y1 + y2)) := by
  have h1 : mulDown fma (ofQ x1 x2 hx1 hx2) (ofQ y1 y2 hy1 hy2) = DD.mulDown false (ofQ x1 x2 hx1 hx2) (ofQ y1 y2 hy1 hy2) :=
    mulN_same hx1 hx2 hy1 hy2 false fma
  have h2 : mulUp fma (ofQ x1 x2 hx1 hx2) (ofQ y1 y2 hy1 hy2) = DD.mulUp false (ofQ x1 x2 hx1 hx2) (ofQ y1 y2 hy1 hy2) :=
    mulN_same hx1 hx2 hy1 hy2 true fma
  rw [h1, h2]
  exact C22_mul hx1 hx2 hy1 hy2 false

/-- **C83** (division), partial.  The divisor is normalised and not zero.  The full property has no other
hypothesis.  Missing: the dividend is above `2^1022` and one of the low components is an odd
multiple of the smallest subnormal number.  If it is the one of the divisor, the property is false
(`C83_div_up_fails`). -/
theorem C83_div_partial (fma : Bool) (n : Normal (ofQ y1 y2 hy1 hy2)) (h0 : y1 ≠ 0)
    (hh : ((B).Rep (x2 * (1 / 2)) ∧ (B).Rep (y2 * (1 / 2))) ∨ |x1| ≤ 2 ^ (1022 : ℤ)) :
    Below (divDown fma (ofQ x1 x2 hx1 hx2) (ofQ y1 y2 hy1 hy2)) (((x1 : ℝ) + x2) / (y1 + y2)) ∧
    Above (divUp fma (ofQ x1 x2 hx1 hx2) (ofQ y1 y2 hy1 hy2)) (((x1 : ℝ) + x2) / (y1 + y2)) := by
  have h1 : divDown fma (ofQ x1 x2 hx1 hx2) (ofQ y1 y2 hy1 hy2) = DD.divDown false (ofQ x1 x2 hx1 hx2) (ofQ y1 y2 hy1 hy2) :=
    divN_same hx1 hx2 hy1 hy2 false fma h0 hh
  have h2 : divUp fma (ofQ x1 x2 hx1 hx2) (ofQ y1 y2 hy1 hy2) = DD.divUp false (ofQ x1 x2 hx1 hx2) (ofQ y1 y2 hy1 hy2) :=
    divN_same hx1 hx2 hy1 hy2 true fma h0 hh
  rw [h1, h2]
  exact C22_div_partial hx1 hx2 hy1 hy2 false n h0 (hh.imp_left And.right)

/-- **C83** (square root) of a normalised number with positive leading component. -/
theorem C83_sqrt (fma : Bool) (n : Normal (ofQ x1 x2 hx1 hx2)) (h0 : 0 < x1) :
    Below (sqrtDown fma (ofQ x1 x2 hx1 hx2)) (Real.sqrt ((x1 : ℝ) + x2)) ∧
    Above (sqrtUp fma (ofQ x1 x2 hx1 hx2)) (Real.sqrt ((x1 : ℝ) + x2)) := by
  have h1 : sqrtDown fma (ofQ x1 x2 hx1 hx2) = DD.sqrtDown false (ofQ x1 x2 hx1 hx2) :=
    sqrtN_same false fma hx1 hx2 h0 (of_normal n)
  have h2 : sqrtUp fma (ofQ x1 x2 hx1 hx2) = DD.sqrtUp false (ofQ x1 x2 hx1 hx2) :=
    sqrtN_same true fma hx1 hx2 h0 (of_normal n)
  rw [h1, h2]
  exact C22_sqrt hx1 hx2 false n h0

end

/-- **C83** (square root of zero and of infinity). -/
theorem C83_sqrt_special (fma : Bool) :
    sqrtDown fma ⟨Fl.zero, Fl.zero⟩ = ⟨Fl.zero, Fl.zero⟩ ∧ sqrtUp fma ⟨Fl.zero, Fl.zero⟩ = ⟨Fl.zero, Fl.zero⟩ ∧
    sqrtDown fma ⟨pinf, Fl.zero⟩ = ⟨pinf, Fl.zero⟩ ∧ sqrtUp fma ⟨pinf, Fl.zero⟩ = ⟨pinf, Fl.zero⟩ := by
  have e : Fl.eq (Fl.zero : Dbl) (lit 0) = true := by rw [lit0]; rfl
  have e2 : Fl.eq (pinf : Dbl) (lit 0) = false := by rw [lit0]; rfl
  have e3 : (lit 0 : Dbl) = Fl.zero := lit0
  refine ⟨?_, ?_, ?_, ?_⟩ <;> simp only [sqrtDown, sqrtUp, e, e2, Bool.and_self, if_true, Bool.false_and,
    Bool.false_eq_true, if_false] <;> simp only [e3] <;> rfl

/-- **C83** fails for `div_up`: with normalised operands the result is finite and strictly below the
exact quotient (same operands as for C22). -/
theorem C83_div_up_fails (fma : Bool) : Normal badX ∧ Normal badY ∧ isFin (divUp fma badX badY) = true ∧
    valQ (divUp fma badX badY) < valQ badX / valQ badY := by
  refine ⟨?_, ?_, ?_⟩
  · show Fl.add .near _ _ = _; decide +kernel
  · show Fl.add .near _ _ = _; decide +kernel
  · cases fma <;> decide +kernel

/-- **C83** fails for `div_down`. -/
theorem C83_div_down_fails (fma : Bool) : Normal badX ∧ Normal badY' ∧ isFin (divDown fma badX badY') = true ∧
    valQ badX / valQ badY' < valQ (divDown fma badX badY') := by
  refine ⟨?_, ?_, ?_⟩
  · show Fl.add .near _ _ = _; decide +kernel
  · show Fl.add .near _ _ = _; decide +kernel
  · cases fma <;> decide +kernel

/-! ## the hypotheses are satisfiable -/

theorem rep_low : (B).Rep (2 ^ (-60 : ℤ)) := rep_pow (by norm_num) (by norm_num)

/-- a divisor which is not a double, and a dividend above `2^1022` -/
example (fma : Bool) :
    Below (divDown fma (ofQ (B).maxQ (2 ^ (968 : ℤ)) maxQ_rep rep968) (ofQ (3 / 2) (2 ^ (-60 : ℤ)) rep_one_half rep_low))
      ((((B).maxQ : ℚ) + ((2 ^ (968 : ℤ) : ℚ) : ℝ)) / (((3 / 2 : ℚ) : ℝ) + ((2 ^ (-60 : ℤ) : ℚ) : ℝ))) :=
  (C83_div_partial maxQ_rep rep968 rep_one_half rep_low fma (by show Fl.add .near _ _ = _; decide +kernel) (by norm_num)
    (Or.inl ⟨by
      have : (B).Rep (2 ^ (967 : ℤ)) := rep_pow (by norm_num) (by norm_num)
      rw [show (2 : ℚ) ^ (968 : ℤ) * (1 / 2) = 2 ^ (967 : ℤ) by
        rw [show (968 : ℤ) = 967 + 1 by norm_num, zpow_add₀ (by norm_num)]; norm_num]
      exact this, by
      have : (B).Rep (2 ^ (-61 : ℤ)) := rep_pow (by norm_num) (by norm_num)
      rw [show (2 : ℚ) ^ (-60 : ℤ) * (1 / 2) = 2 ^ (-61 : ℤ) by
        rw [show (-60 : ℤ) = -61 + 1 by norm_num, zpow_add₀ (by norm_num)]; norm_num]
      exact this⟩)).1

example (fma : Bool) : Above (sqrtUp fma (ofQ (3 / 2) (2 ^ (-60 : ℤ)) rep_one_half rep_low))
    (Real.sqrt (((3 / 2 : ℚ) : ℝ) + ((2 ^ (-60 : ℤ) : ℚ) : ℝ))) :=
  (C83_sqrt rep_one_half rep_low fma (by show Fl.add .near _ _ = _; decide +kernel) (by norm_num)).2

end DDN
end Kv
