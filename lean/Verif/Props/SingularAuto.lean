import Verif.Props.SingularLog
import Verif.Ode.SingularAuto

/-!
# C77: integrals of functions with a singularity at an end of the interval, automatic step size
-/

namespace Kv
open PowerSeries Psa PM MeasureTheory Filter Topology Defint
open Rop (lit)
set_option linter.unusedVariables false

/-! ## disagreements

The attempts in mode 2 use the coefficients which were recorded in mode 1 with the same order.  After `div_tn` the last coefficients
in mode 2 do not belong to the recorded ones: the remainder is overwritten by a recorded 0. -/

/-- stands for `std::pow`; in the examples its values for positive numbers have no influence -/
def exPow (m e : D) : D := if Rop.eq m (lit 0) then lit 0 else lit 1

/-- `defint_power2_autostep` for `(x + x³)^1` from 0 to 1, order 2, `epsilon` 2^-52: the result is below 5/8, the integral is 3/4 -/
theorem C77_power2_violated : ∃ Z st', (letI := scalI 200; defintPower2Auto 200 ⟨exSingCub, fun _ => pt 0, exPow⟩ exSingCub (fun _ => pt 0) (pt 0) (pt 1) 2
      (pt 1) (1 : ℕ) (lit (1 / 2 ^ 52))) (st0 1) = (.ok Z, st') ∧ (∀ y ∈ Z, y < 5 / 8) ∧
    ZeroOfOrder (fun x => exSingCub.real (fun _ => 0) fun _ => x) 0 1 ∧
    IsIntegral (fun x => (exSingCub.real (fun _ => 0) fun _ => x) ^ (1 : ℝ)) 0 1 (3 / 4) := by
  have h58 : Is (lit (5 / 8 : ℚ) : D) (5 / 8 : ℝ) := by
    have := Interval.is_cst (q := 5 / 8) 5 (-3) (by norm_num) (by norm_num) (by norm_num) (by norm_num)
    convert this using 1; norm_num
  obtain ⟨Z, st', h, h1⟩ := intSupBelow_iff h58
    (show intSupBelow ((letI := scalI 200; defintPower2Auto 200 ⟨exSingCub, fun _ => pt 0, exPow⟩ exSingCub (fun _ => pt 0) (pt 0) (pt 1) 2
      (pt 1) (1 : ℕ) (lit (1 / 2 ^ 52))) (st0 1)) (5 / 8) = true by decide +kernel)
  refine ⟨Z, st', h, h1, exSingCub_order, ?_, ?_⟩
  · simp only [Real.rpow_one]
    exact (by fun_prop : Continuous fun x : ℝ => x + x * (x * x)).intervalIntegrable _ _
  · simp only [Real.rpow_one]
    show ∫ x in (0 : ℝ)..1, x + x * (x * x) = 3 / 4
    have e : (fun x : ℝ => x + x * (x * x)) = fun x => x ^ 1 + x ^ 3 := by funext x; ring
    rw [e, intervalIntegral.integral_add (continuous_pow 1 |>.intervalIntegrable _ _) (continuous_pow 3 |>.intervalIntegrable _ _), integral_pow, integral_pow]
    norm_num

/-- `(x + x³)/x` as a program: `div_reduce(x + x³, x, 1)` -/
def exReduce [Scal (Interval D)] (x : Ode.Ser) : PM (Interval D) Ode.Ser := do
  let y ← evalE exSingCub (fun _ => pt 0) x
  divReduce y x 1

/-- `defint_singular_autostep` for `(x + x³)/x` from 0 to 1, order 3: the result is below 5/4, the integral is 4/3 -/
theorem C77_singular_violated : ∃ Z st', (letI := scalI 200; defintSingularAuto 200 ⟨.bin .div exSingCub (.var 0), fun _ => pt 0, exPow⟩ exReduce (pt 0) (pt 1) 3
      (lit (1 / 2 ^ 52))) (st0 1) = (.ok Z, st') ∧ (∀ y ∈ Z, y < 5 / 4) ∧
    IsIntegral (fun x => (exSingCub.real (fun _ => 0) fun _ => x) / x) 0 1 (4 / 3) := by
  have h54 : Is (lit (5 / 4 : ℚ) : D) (5 / 4 : ℝ) := by
    have := Interval.is_cst (q := 5 / 4) 5 (-2) (by norm_num) (by norm_num) (by norm_num) (by norm_num)
    convert this using 1; norm_num
  obtain ⟨Z, st', h, h1⟩ := intSupBelow_iff h54
    (show intSupBelow ((letI := scalI 200; defintSingularAuto 200 ⟨.bin .div exSingCub (.var 0), fun _ => pt 0, exPow⟩ exReduce (pt 0) (pt 1) 3
      (lit (1 / 2 ^ 52))) (st0 1)) (5 / 4) = true by decide +kernel)
  refine ⟨Z, st', h, h1, ?_⟩
  have hi : IsIntegral (fun x => x ^ 0 + x ^ 2) 0 1 (4 / 3) := by
    refine ⟨(by fun_prop : Continuous fun x : ℝ => x ^ 0 + x ^ 2).intervalIntegrable _ _, ?_⟩
    rw [intervalIntegral.integral_add (continuous_pow 0 |>.intervalIntegrable _ _) (continuous_pow 2 |>.intervalIntegrable _ _), integral_pow, integral_pow]
    norm_num
  refine isIntegral_congr one_pos hi fun x h0 _ => ?_
  show x ^ 0 + x ^ 2 = (x + x * (x * x)) / x
  rw [eq_div_iff h0.ne']; ring

/-- `x + x⁴` -/
def exSingQuart : Expr 1 := .bin .add (.var 0) (.bin .mul (.bin .mul (.var 0) (.var 0)) (.bin .mul (.var 0) (.var 0)))

/-- `defint_log2_autostep` for `log(x + x⁴)` from 0 to 1, order 2: the result is below -15/16, the integral is at least -7/8.  The value
used for `std::log(0.1)` has no influence. -/
theorem C77_log2_violated : ∃ Z st', (letI := scalI 200; defintLog2Auto 200 ⟨.un .log exSingQuart, fun _ => pt 0, exPow⟩ (lit (-2)) exSingQuart (fun _ => pt 0)
      (pt 0) (pt 1) 2 (1 : ℕ) (lit (1 / 2 ^ 52))) (st0 1) = (.ok Z, st') ∧ (∀ y ∈ Z, y < -15 / 16) ∧
    ∃ I, -7 / 8 ≤ I ∧ IsIntegral (fun x => Real.log (exSingQuart.real (fun _ => 0) fun _ => x)) 0 1 I := by
  have h54 : Is (lit (-15 / 16 : ℚ) : D) (-15 / 16 : ℝ) := by
    have := Interval.is_cst (q := -15 / 16) (-15) (-4) (by norm_num) (by norm_num) (by norm_num) (by norm_num)
    convert this using 1; norm_num
  obtain ⟨Z, st', h, h1⟩ := intSupBelow_iff h54
    (show intSupBelow ((letI := scalI 200; defintLog2Auto 200 ⟨.un .log exSingQuart, fun _ => pt 0, exPow⟩ (lit (-2)) exSingQuart (fun _ => pt 0)
      (pt 0) (pt 1) 2 (1 : ℕ) (lit (1 / 2 ^ 52))) (st0 1)) (-15 / 16) = true by decide +kernel)
  refine ⟨Z, st', h, h1, ?_⟩
  have hc : ContinuousOn (fun x : ℝ => Real.log (1 + x ^ 3)) (Set.uIcc 0 1) := by
    rw [Set.uIcc_of_le zero_le_one]
    intro x hx
    have : 0 ≤ x ^ 3 := pow_nonneg hx.1 3
    exact (ContinuousAt.log (by fun_prop) (by linarith)).continuousWithinAt
  have hi1 : IntervalIntegrable Real.log volume 0 1 := intervalIntegral.intervalIntegrable_log'
  have hi2 := hc.intervalIntegrable (μ := volume)
  refine ⟨_, ?_, isIntegral_congr (F := fun x => Real.log x + Real.log (1 + x ^ 3)) one_pos ⟨hi1.add hi2, rfl⟩ fun x h0 _ => ?_⟩
  · rw [intervalIntegral.integral_add hi1 hi2]
    have e1 := Weighted.log_integral (T := 1) one_pos 0
    simp only [pow_zero, mul_one] at e1
    have e2 : ∫ x in (0 : ℝ)..1, x ^ 3 * (1 / 2) ≤ ∫ x in (0 : ℝ)..1, Real.log (1 + x ^ 3) := by
      refine intervalIntegral.integral_mono_on zero_le_one ((by fun_prop : Continuous fun x : ℝ => x ^ 3 * (1 / 2)).intervalIntegrable _ _) hi2 fun x hx => ?_
      have h3 : 0 ≤ x ^ 3 := pow_nonneg hx.1 3
      have h4 : x ^ 3 ≤ 1 := pow_le_one₀ hx.1 hx.2
      have h5 := Real.one_sub_inv_le_log_of_pos (x := 1 + x ^ 3) (by linarith)
      refine le_trans ?_ h5
      have h6 : 1 - (1 + x ^ 3)⁻¹ = x ^ 3 / (1 + x ^ 3) := by
        have : 1 + x ^ 3 ≠ 0 := by linarith
        field_simp; ring
      rw [h6, le_div_iff₀ (by linarith)]
      nlinarith
    rw [intervalIntegral.integral_mul_const, integral_pow] at e2
    rw [show (∫ x in (0 : ℝ)..1, Real.log x) = _ from e1, Real.log_one]
    norm_num at e2 ⊢
    linarith
  · show _ = Real.log (x + x * x * (x * x))
    have h3 : 0 < x ^ 3 := pow_pos h0 3
    rw [← Real.log_mul h0.ne' (by linarith)]
    congr 1; ring

end Kv
