import Verif.Props.Gamma
import Mathlib.Analysis.SpecialFunctions.Gaussian.GaussianIntegral
import Mathlib.Analysis.Calculus.LocalExtr.Rolle
import Mathlib.Analysis.Real.Pi.Bounds

namespace Kv
open PM RopSem GammaFn
open Rop (lit)

theorem gamma_three_half : Real.Gamma (3 / 2) = Real.sqrt Real.pi / 2 := by
  have := Real.Gamma_add_one (s := 1 / 2) (by norm_num)
  rw [Real.Gamma_one_half_eq] at this
  rw [show (3 / 2 : ℝ) = 1 / 2 + 1 by norm_num, this]; ring

/-- the minimum of `Γ` on the positive numbers is between 1 and 15/8 -/
theorem exists_crit : ∃ γ : ℝ, 1 ≤ γ ∧ γ ≤ 15 / 8 ∧ deriv Real.Gamma γ = 0 := by
  obtain ⟨γ, h1, h2⟩ := exists_deriv_eq_zero (f := Real.Gamma) (a := 1) (b := 2) (by norm_num)
    (fun y hy => (Real.differentiableAt_Gamma fun n => reg_pos.pole y (lt_of_lt_of_le one_pos hy.1) n).continuousAt.continuousWithinAt)
    (by rw [Real.Gamma_one, Real.Gamma_two])
  refine ⟨γ, h1.1.le, ?_, h2⟩
  have hγ : (0 : ℝ) < γ := one_pos.trans h1.1
  have hmin := reg_pos.min hγ h2 (3 / 2) (by norm_num)
  have hs := Real.convexOn_log_Gamma.slope_mono_adjacent (x := γ) (y := 2) (z := 3) hγ (by norm_num) h1.2 (by norm_num)
  have h3 : Real.Gamma 3 = 2 := by
    rw [show (3 : ℝ) = 2 + 1 by norm_num, Real.Gamma_add_one two_ne_zero, Real.Gamma_two, mul_one]
  simp only [Function.comp_apply, Real.Gamma_two, h3, Real.log_one] at hs
  rw [div_le_iff₀ (by linarith [h1.2])] at hs
  norm_num at hs
  have hl2 : 0 < Real.log 2 := Real.log_pos (by norm_num)
  have hk : Real.log (Real.Gamma (3 / 2)) ≤ -(Real.log 2 / 8) := by
    rw [gamma_three_half]
    have e : Real.log (Real.sqrt Real.pi / 2) = Real.log ((Real.pi / 4) ^ 4) / 8 := by
      rw [Real.log_pow, Real.log_div (by positivity) (by norm_num), Real.log_div Real.pi_ne_zero (by norm_num), Real.log_sqrt Real.pi_pos.le,
        show (4 : ℝ) = 2 ^ 2 by norm_num, Real.log_pow]
      push_cast; ring
    have hp : (Real.pi / 4) ^ 4 ≤ 1 / 2 := by
      calc (Real.pi / 4) ^ 4 ≤ (3.2 / 4) ^ 4 := pow_le_pow_left₀ (by positivity) (by linarith [Real.pi_lt_d2]) 4
        _ ≤ 1 / 2 := by norm_num
    have := Real.log_le_log (by positivity) hp
    rw [e, show (1 / 2 : ℝ) = 2⁻¹ by norm_num, Real.log_inv] at *
    linarith
  by_contra hc
  rw [not_le] at hc
  nlinarith

theorem is_gm_15_8 : Is (lit (15 / 8) : D) (15 / 8) := by
  have := Interval.is_cst (q := 15 / 8) 15 (-3) (by norm_num) (by norm_num) (by norm_num) (by norm_num)
  push_cast at this; exact this
theorem is_gm_1_2 : Is (lit (1 / 2) : D) (1 / 2) := by
  have := Interval.is_cst (q := 1 / 2) 1 (-1) (by norm_num) (by norm_num) (by norm_num) (by norm_num)
  push_cast at this; exact this
theorem is_gm_1_32 : Is (lit (1 / 32) : D) (1 / 32) := by
  have := Interval.is_cst (q := 1 / 32) 1 (-5) (by norm_num) (by norm_num) (by norm_num) (by norm_num)
  push_cast at this; exact this
theorem is_gm_3_2 : Is (lit (3 / 2) : D) (3 / 2) := by
  have := Interval.is_cst (q := 3 / 2) 3 (-1) (by norm_num) (by norm_num) (by norm_num) (by norm_num)
  push_cast at this; exact this
theorem is_gm_th : Is (lit (53 / 32) : D) (53 / 32) := by
  have := Interval.is_cst (q := 53 / 32) 53 (-5) (by norm_num) (by norm_num) (by norm_num) (by norm_num)
  push_cast at this; exact this

/-- parameters for examples: a short integral (`lg` is 1/32), steps of length 1, `digamma_zero` which reports an error -/
def exGamma : GammaPar := ⟨30, lit (1 / 32), fun _ _ => lit 1, 1, fun _ => pure (Interval.point (lit 0)), ⟨lit 1, lit (15 / 8)⟩⟩

theorem exGamma_ok : exGamma.Ok where
  order := by decide
  pw := fun _ _ _ => NN.lit (by norm_num)
  th := ⟨53 / 32, by rw [show th exGamma = (lit (53 / 32) : D) by decide +kernel]; exact is_gm_th, by norm_num, by
    calc (53 / 32 : ℝ) ≤ 2 := by norm_num
      _ ≤ 2 ^ 1000 := le_self_pow₀ (by norm_num) (by norm_num)⟩

theorem exGamma_crit : exGamma.Crit where
  dz := fun d c st Y st' _ h hz => by
    obtain ⟨rfl, -⟩ := pure_run h
    rw [show Interval.zeroIn (Interval.point (lit 0 : D)) = true by decide +kernel] at hz
    cases hz
  m2 := by
    obtain ⟨γ, h1, h2, h3⟩ := exists_crit
    have hm : ∀ y, y ∈ exGamma.m2 ↔ 1 ≤ y ∧ y ≤ 15 / 8 := fun y => GammaFn.mem_of_is (X := exGamma.m2) Interval.is_one is_gm_15_8
    have hfl : ∀ y ∈ exGamma.m2, ⌊y⌋ = 1 := fun y hy => by
      have := (hm y).1 hy
      exact Int.floor_eq_iff.2 ⟨by push_cast; exact this.1, by push_cast; linarith [this.2]⟩
    exact ⟨γ, (hm γ).2 ⟨h1, h2⟩, lt_of_lt_of_le one_pos h1, h3, fun y hy => by rw [hfl y hy, hfl γ ((hm γ).2 ⟨h1, h2⟩)]⟩

/-- C78 applies to `[1, 3/2]`, the value at 3/2 -/
example : ∃ Z st', (letI := scalI 30; gamma exGamma ⟨lit 1, lit (3 / 2)⟩) (st0 1) = (.ok Z, st') ∧ Real.sqrt Real.pi / 2 ∈ Z := by
  obtain ⟨Z, st', h⟩ := okRun_iff (show okRun ((letI := scalI 30; gamma exGamma ⟨lit 1, lit (3 / 2)⟩) (st0 1)) = true by decide +kernel)
  refine ⟨Z, st', h, ?_⟩
  rw [← gamma_three_half]
  exact C78_partial exGamma_ok exGamma_crit ((GammaFn.mem_of_is (X := ⟨lit 1, lit (3 / 2)⟩) Interval.is_one is_gm_3_2).2 ⟨by norm_num, le_rfl⟩)
    (reg_pos.pole (3 / 2) (by norm_num)) h

theorem is_gm_neg_1_2 : Is (lit (-1 / 2) : D) (-1 / 2) := by
  have := Interval.is_cst (q := -1 / 2) (-1) (-1) (by norm_num) (by norm_num) (by norm_num) (by norm_num)
  push_cast at this; exact this

theorem neg_half_no_pole (n : ℕ) : (-1 / 2 : ℝ) ≠ -n := fun h => by
  have h1 : (0 : ℝ) < n := by linarith
  have h2 : (n : ℝ) < 1 := by linarith
  have h3 : 0 < n := by exact_mod_cast h1
  have h4 : n < 1 := by exact_mod_cast h2
  omega

theorem gamma_neg_half : Real.Gamma (-1 / 2) = -(2 * Real.sqrt Real.pi) := by
  have := Real.Gamma_add_one (s := -1 / 2) (by norm_num)
  rw [show (-1 / 2 : ℝ) + 1 = 1 / 2 by norm_num, Real.Gamma_one_half_eq] at this
  linarith

/-- C78 for the negative number -1/2 -/
example : ∃ Z st', (letI := scalI 30; gamma exGamma (Interval.point (lit (-1 / 2)))) (st0 1) = (.ok Z, st') ∧ -(2 * Real.sqrt Real.pi) ∈ Z := by
  obtain ⟨Z, st', h⟩ := okRun_iff (show okRun ((letI := scalI 30; gamma exGamma (Interval.point (lit (-1 / 2)))) (st0 1)) = true by decide +kernel)
  refine ⟨Z, st', h, ?_⟩
  rw [← gamma_neg_half]
  exact C78_point exGamma_ok is_gm_neg_1_2 neg_half_no_pole h

/-- C79 applies to `[1, 3/2]` -/
example : ∃ Z st', (letI := scalI 30; lgamma exGamma ⟨lit 1, lit (3 / 2)⟩) (st0 1) = (.ok Z, st') ∧ Real.log |Real.Gamma (3 / 2)| ∈ Z := by
  obtain ⟨Z, st', h⟩ := okRun_iff (show okRun ((letI := scalI 30; lgamma exGamma ⟨lit 1, lit (3 / 2)⟩) (st0 1)) = true by decide +kernel)
  have hm : ∀ y, y ∈ (⟨lit 1, lit (3 / 2)⟩ : Interval D) ↔ 1 ≤ y ∧ y ≤ 3 / 2 := fun y => GammaFn.mem_of_is (X := ⟨lit 1, lit (3 / 2)⟩) Interval.is_one is_gm_3_2
  refine ⟨Z, st', h, C79_partial exGamma_ok exGamma_crit ((hm _).2 ⟨by norm_num, le_rfl⟩) (fun n hn => ?_) h⟩
  have := ((hm _).1 hn).1
  have h0 : (0 : ℝ) ≤ n := n.cast_nonneg
  linarith

/-- C79 for the negative number -1/2 -/
example : ∃ Z st', (letI := scalI 30; lgamma exGamma (Interval.point (lit (-1 / 2)))) (st0 1) = (.ok Z, st') ∧ Real.log |Real.Gamma (-1 / 2)| ∈ Z := by
  obtain ⟨Z, st', h⟩ := okRun_iff (show okRun ((letI := scalI 30; lgamma exGamma (Interval.point (lit (-1 / 2)))) (st0 1)) = true by decide +kernel)
  exact ⟨Z, st', h, C79_point exGamma_ok is_gm_neg_1_2 neg_half_no_pole h⟩

/-- C79 fails for an interval whose lower end is a pole (gamma.hpp:201-203): for `[0, 1/2]` the result is `[DBL_MAX, ∞]` whatever the parameters are,
but `log |Γ(1/2)|` is below 1 -/
theorem C79_pole_end_violated (P : GammaPar) (st : PSt (Interval D)) :
    (letI := scalI P.fuel; lgamma P ⟨lit 0, lit (1 / 2)⟩) st = (.ok ⟨Rop.maxv, Rop.inf⟩, st) ∧
    (1 / 2 : ℝ) ∈ (⟨lit 0, lit (1 / 2)⟩ : Interval D) ∧ Real.log |Real.Gamma (1 / 2)| ∉ (⟨Rop.maxv, Rop.inf⟩ : Interval D) := by
  refine ⟨?_, (GammaFn.mem_of_is (X := ⟨lit 0, lit (1 / 2)⟩) Interval.is_zero is_gm_1_2).2 ⟨by norm_num, le_rfl⟩, fun h => ?_⟩
  · unfold lgamma
    rw [if_neg (by decide +kernel), if_neg (by decide +kernel), if_pos (by decide +kernel)]
    rfl
  · have h1 := h.1.2
    have h2 : Rop.lt (lit 1 : D) Rop.maxv = true := by decide +kernel
    have h3 := ((RopSem.lt_iff _ _).1 h2).2.2
    rw [Interval.is_one.2] at h3
    have h4 : (1 : ℝ) < Real.log |Real.Gamma (1 / 2)| := by exact_mod_cast h3.trans_le h1
    rw [Real.Gamma_one_half_eq, abs_of_nonneg (Real.sqrt_nonneg _), Real.log_sqrt Real.pi_pos.le] at h4
    have h5 : Real.log Real.pi ≤ Real.log (Real.exp 2) := Real.log_le_log Real.pi_pos (by
      have e1 : Real.exp 2 = Real.exp 1 ^ 2 := by rw [← Real.exp_nat_mul]; norm_num
      have e2 := Real.exp_one_gt_d9
      rw [e1]
      nlinarith [Real.pi_lt_d2])
    rw [Real.log_exp] at h5
    linarith

/-- the run is above `q` -/
def intInfAbove {β : Type} (r : Res (Interval D) × β) (q : ℚ) : Bool := match r.1 with
  | .ok Z => Rop.lt (lit q) Z.inf
  | .error _ => false

theorem intInfAbove_iff {β : Type} {r : Res (Interval D) × β} {q : ℚ} {c : ℝ} (hq : Is (lit q : D) c) (h : intInfAbove r q = true) :
    ∃ Z st', r = (.ok Z, st') ∧ ∀ y ∈ Z, c < y := by
  obtain ⟨r1, r2⟩ := r
  cases r1 with
  | ok Z =>
    refine ⟨Z, r2, rfl, fun y hy => ?_⟩
    have h1 := (RopSem.lt_iff (lit q : D) Z.inf).1 h
    rw [hq.2] at h1
    exact_mod_cast lt_of_lt_of_le h1.2.2 hy.1.2
  | error e => cases h

end Kv
