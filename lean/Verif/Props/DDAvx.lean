import Verif.Double.DDAvxLemmas
import Verif.Props.DD

/-!
# C86: double-double arithmetic with directed rounding by AVX-512 instructions

The claim is the one of C22 for the code that is compiled with `KV_USE_AVX512`: the two directed
results of an operation with finite operands enclose the exact result.  The specification (`ofQ`,
`Normal`, `Above`, `Below`) is that of Verif/Props/DD.lean.  The claim is false when the operation
overflows; it holds when the leading quotient, product or sum does not overflow and the result is
finite.
-/

set_option exponentiation.threshold 3000

namespace Kv
namespace DDAvx
open DD Fl Format Emu

local notation "B" => binary64

section
variable {x1 x2 y1 y2 : ℚ} (hx1 : (B).Rep x1) (hx2 : (B).Rep x2) (hy1 : (B).Rep y1) (hy2 : (B).Rep y2)

/-- **C86** (addition), partial: the sum of the leading components is in the range of the doubles and
the results are finite.  The full property has neither hypothesis; it is false
(`C86_add_down_fails`, `C86_add_up_fails`, `C86_add_not_number`). -/
theorem C86_add_partial (ho : |x1 + y1| ≤ (B).maxQ) :
    (isFin (addDown (ofQ x1 x2 hx1 hx2) (ofQ y1 y2 hy1 hy2)) = true →
      Below (addDown (ofQ x1 x2 hx1 hx2) (ofQ y1 y2 hy1 hy2)) ((x1 : ℝ) + x2 + (y1 + y2))) ∧
    (isFin (addUp (ofQ x1 x2 hx1 hx2) (ofQ y1 y2 hy1 hy2)) = true →
      Above (addUp (ofQ x1 x2 hx1 hx2) (ofQ y1 y2 hy1 hy2)) ((x1 : ℝ) + x2 + (y1 + y2))) :=
  ⟨fun h => below_of (addR_bd hx1 hx2 hy1 hy2 false ho h), fun h => above_of (addR_bd hx1 hx2 hy1 hy2 true ho h)⟩

/-- **C86** (subtraction), partial, with the same restrictions. -/
theorem C86_sub_partial (ho : |x1 - y1| ≤ (B).maxQ) :
    (isFin (subDown (ofQ x1 x2 hx1 hx2) (ofQ y1 y2 hy1 hy2)) = true →
      Below (subDown (ofQ x1 x2 hx1 hx2) (ofQ y1 y2 hy1 hy2)) ((x1 : ℝ) + x2 - (y1 + y2))) ∧
    (isFin (subUp (ofQ x1 x2 hx1 hx2) (ofQ y1 y2 hy1 hy2)) = true →
      Above (subUp (ofQ x1 x2 hx1 hx2) (ofQ y1 y2 hy1 hy2)) ((x1 : ℝ) + x2 - (y1 + y2))) :=
  ⟨fun h => below_of (subR_bd hx1 hx2 hy1 hy2 false ho h), fun h => above_of (subR_bd hx1 hx2 hy1 hy2 true ho h)⟩

/-- **C86** (multiplication), partial, with the same restrictions.  Underflow is included. -/
theorem C86_mul_partial (ho : |x1 * y1| ≤ (B).maxQ) :
    (isFin (mulDown (ofQ x1 x2 hx1 hx2) (ofQ y1 y2 hy1 hy2)) = true →
      Below (mulDown (ofQ x1 x2 hx1 hx2) (ofQ y1 y2 hy1 hy2)) (((x1 : ℝ) + x2) * (y1 + y2))) ∧
    (isFin (mulUp (ofQ x1 x2 hx1 hx2) (ofQ y1 y2 hy1 hy2)) = true →
      Above (mulUp (ofQ x1 x2 hx1 hx2) (ofQ y1 y2 hy1 hy2)) (((x1 : ℝ) + x2) * (y1 + y2))) :=
  ⟨fun h => below_of (mulR_bd hx1 hx2 hy1 hy2 false ho h), fun h => above_of (mulR_bd hx1 hx2 hy1 hy2 true ho h)⟩

/-- **C86** (division) by a normalised number that is not zero, partial.  Besides the restrictions of
the other operations the dividend is at most `2^1022`, or the low components of both operands can
be halved exactly. -/
theorem C86_div_partial (n : Normal (ofQ y1 y2 hy1 hy2)) (h0 : y1 ≠ 0) (ho : |x1 / y1| ≤ (B).maxQ)
    (hh : ((B).Rep (y2 * (1 / 2)) ∧ (B).Rep (x2 * (1 / 2))) ∨ |x1| ≤ 2 ^ (1022 : ℤ)) :
    (isFin (divDown (ofQ x1 x2 hx1 hx2) (ofQ y1 y2 hy1 hy2)) = true →
      Below (divDown (ofQ x1 x2 hx1 hx2) (ofQ y1 y2 hy1 hy2)) (((x1 : ℝ) + x2) / (y1 + y2))) ∧
    (isFin (divUp (ofQ x1 x2 hx1 hx2) (ofQ y1 y2 hy1 hy2)) = true →
      Above (divUp (ofQ x1 x2 hx1 hx2) (ofQ y1 y2 hy1 hy2)) (((x1 : ℝ) + x2) / (y1 + y2))) :=
  have hlt := norm_lt hy1 hy2 (of_normal n) h0
  ⟨fun h => below_of (divR_bd false hx1 hx2 hy1 hy2 hlt hh ho h),
   fun h => above_of (divR_bd true hx1 hx2 hy1 hy2 hlt hh ho h)⟩

/-- **C86** (square root) of a normalised number with positive leading component; no restriction. -/
theorem C86_sqrt (n : Normal (ofQ x1 x2 hx1 hx2)) (h0 : 0 < x1) :
    Below (sqrtDown (ofQ x1 x2 hx1 hx2)) (Real.sqrt ((x1 : ℝ) + x2)) ∧
    Above (sqrtUp (ofQ x1 x2 hx1 hx2)) (Real.sqrt ((x1 : ℝ) + x2)) := by
  rw [sqrtDown_eq, sqrtUp_eq]
  exact C22_sqrt hx1 hx2 true n h0

end

/-! ## counterexamples -/

theorem rep512 : (B).Rep (2 ^ (512 : ℤ)) := rep_pow (by norm_num) (by norm_num)
theorem rep458 : (B).Rep (2 ^ (458 : ℤ)) := rep_pow (by norm_num) (by norm_num)
theorem rep969 : (B).Rep (2 ^ (969 : ℤ)) := rep_pow (by norm_num) (by norm_num)
theorem rep970 : (B).Rep (2 ^ (970 : ℤ)) := rep_pow (by norm_num) (by norm_num)
theorem rep1023 : (B).Rep (2 ^ (1023 : ℤ)) := rep_pow (by norm_num) (by norm_num)
theorem repm54 : (B).Rep (2 ^ (-54 : ℤ)) := rep_pow (by norm_num) (by norm_num)

/-- the largest double -/
def big : DD := ofQ (B).maxQ 0 maxQ_rep rep_zero
/-- minus the largest double -/
def mbig : DD := ofQ (-(B).maxQ) 0 maxQ_rep.neg rep_zero
/-- one half -/
def half : DD := ofQ (1 / 2) 0 Format.rep_half rep_zero
/-- minus the largest double, plus `2^969` -/
def a1 : DD := ofQ (-(B).maxQ) (2 ^ (969 : ℤ)) maxQ_rep.neg rep969
/-- `-2^970` -/
def a2 : DD := ofQ (-2 ^ (970 : ℤ)) 0 rep970.neg rep_zero
/-- `-(2^512 - 2^458)` -/
def m1 : DD := ofQ (-2 ^ (512 : ℤ)) (2 ^ (458 : ℤ)) rep512.neg rep458
/-- `2^512 - 2^458` -/
def m2 : DD := ofQ (2 ^ (512 : ℤ)) (-2 ^ (458 : ℤ)) rep512 rep458.neg
/-- `-2^1023 + 2^969` -/
def d1 : DD := ofQ (-2 ^ (1023 : ℤ)) (2 ^ (969 : ℤ)) rep1023.neg rep969
/-- `1/2 + 2^-54` -/
def d2 : DD := ofQ (1 / 2) (2 ^ (-54 : ℤ)) Format.rep_half repm54
/-- the largest double plus `2^969` -/
def a3 : DD := ofQ (B).maxQ (2 ^ (969 : ℤ)) maxQ_rep rep969
/-- `2^969` -/
def c1 : DD := ofQ (2 ^ (969 : ℤ)) 0 rep969 rep_zero

/-- the operands of the counterexamples are finite and normalised -/
theorem C86_operands : Normal big ∧ Normal mbig ∧ Normal half ∧ Normal a1 ∧ Normal a2 ∧ Normal m1 ∧ Normal m2 ∧
    Normal d1 ∧ Normal d2 ∧ Normal c1 ∧ Normal a3 := by
  refine ⟨?_, ?_, ?_, ?_, ?_, ?_, ?_, ?_, ?_, ?_, ?_⟩ <;>
    (show Fl.add .near _ _ = _; decide +kernel)

/-- **C86** fails for `add_down`: the lower bound of a finite sum is `+∞`, and the lower bound of a
sum below all `dd` numbers is a finite number above the sum. -/
theorem C86_add_down_fails : (addDown big big).a1 = pinf ∧
    isFin (addDown mbig mbig) = true ∧ valQ mbig + valQ mbig < valQ (addDown mbig mbig) := by
  decide +kernel

/-- **C86** fails for `sub_down` in the same way. -/
theorem C86_sub_down_fails : (subDown big mbig).a1 = pinf ∧
    isFin (subDown mbig big) = true ∧ valQ mbig - valQ big < valQ (subDown mbig big) := by
  decide +kernel

/-- **C86** fails for `div_down` in the same way. -/
theorem C86_div_down_fails : (divDown big half).a1 = pinf ∧
    isFin (divDown mbig half) = true ∧ valQ mbig / valQ half < valQ (divDown mbig half) := by
  decide +kernel

/-- **C86** fails for `add_up`, `sub_up`: when the leading components overflow, the result is the
smallest `dd` number although the exact sum is larger. -/
theorem C86_add_up_fails : isFin (addUp a1 a2) = true ∧ valQ (addUp a1 a2) < valQ a1 + valQ a2 ∧
    isFin (subUp a1 (neg a2)) = true ∧ valQ (subUp a1 (neg a2)) < valQ a1 - valQ (neg a2) := by
  decide +kernel

/-- **C86** fails for multiplication in the same way. -/
theorem C86_mul_fails : isFin (mulUp m1 m2) = true ∧ valQ (mulUp m1 m2) < valQ m1 * valQ m2 ∧
    isFin (mulDown m2 m2) = true ∧ valQ m2 * valQ m2 < valQ (mulDown m2 m2) := by
  decide +kernel

/-- **C86** fails for `div_up` in the same way. -/
theorem C86_div_up_fails : isFin (divUp d1 d2) = true ∧ valQ (divUp d1 d2) < valQ d1 / valQ d2 := by
  decide +kernel

/-- **C86** fails when the overflow occurs in the last statement: the components of the result are
`+∞` and `-∞`. -/
theorem C86_add_not_number : (addUp a3 c1).a1 = pinf ∧ (addUp a3 c1).a2 = ninf := by
  decide +kernel

/-! ## the hypotheses are met by concrete numbers -/

example : isFin (addDown badX badY) = true ∧ isFin (addUp badX badY) = true ∧
    isFin (subDown badX badY) = true ∧ isFin (subUp badX badY) = true ∧
    isFin (mulDown badY badY) = true ∧ isFin (mulUp badY badY') = true ∧
    isFin (divDown badX badY) = true ∧ isFin (divUp badX badY) = true := by decide +kernel
example : |-(B).maxQ + 3 / 2| ≤ (B).maxQ ∧ |(B).maxQ - 3 / 2| ≤ (B).maxQ ∧ |(3 / 2 : ℚ) * (3 / 2)| ≤ (B).maxQ ∧
    |(B).maxQ / (3 / 2)| ≤ (B).maxQ := by decide +kernel
example := C86_div_partial rep969 rep_one_half _ _ normal_ex (by norm_num)
    (by decide +kernel) (Or.inr (by norm_num))
example := C86_sqrt _ _ normal_ex (by norm_num)

end DDAvx
end Kv
