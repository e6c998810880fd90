import Verif.Special.BetaLemmas

/-!
# Properties of `beta` (/repo/kv/beta.hpp)
-/

namespace Kv
open PM RopSem MeasureTheory
open Rop (lit)
set_option linter.unusedVariables false

/-- the parameters for which the enclosures are proved: an order between 1 and `2^31 - 2`, and a function for step sizes which takes
non-negative numbers to non-negative numbers -/
structure BetaPar.Ok (P : BetaPar) : Prop where
  order : 1 ≤ P.order ∧ P.order + 1 < 2 ^ 31
  pw : Ode.PwOk P.pw

variable {P : BetaPar} {X Y Z : Interval D} {x y : ℝ} {st st' : PSt (Interval D)}

namespace BetaFn

theorem is_bt_half : Is (lit (1 / 2) : D) (1 / 2) := by
  have := Interval.is_cst (q := 1 / 2) 1 (-1) (by norm_num) (by norm_num) (by norm_num) (by norm_num)
  push_cast at this; exact this

theorem par_mem (hx : x ∈ X) (hy : y ∈ Y) (i : ℕ) : (if i = 0 then x else y) ∈ par X Y i := by
  unfold par
  split_ifs
  · exact hx
  · exact hy

theorem point_le {d : D} {c : ℝ} (h : Is d c) (hc : |c| ≤ 1) : ∀ t ∈ Interval.point d, |t| ≤ (2 : ℝ) ^ 1000 := fun t ht => by
  rw [(GammaFn.point_is h).1 ht]
  exact hc.trans (one_le_pow₀ (by norm_num))

theorem betaR_mem (hP : P.Ok) (hx : x ∈ X) (hy : y ∈ Y) (h0 : 0 < x) (h1 : 0 < y)
    (h : (letI := scalI P.fuel; betaR P X Y) st = (.ok Z, st')) : Real.Gamma x * Real.Gamma y / Real.Gamma (x + y) ∈ Z := by
  unfold betaR at h
  obtain ⟨A, st1, hA, h2⟩ := bind_run h
  obtain ⟨B, st2, hB, h3⟩ := bind_run h2
  obtain ⟨rfl, rfl⟩ := pure_run h3
  have d1 := is_dbl (Interval.is_one (T := D))
  have f1 : Is (lit 1 : D) (dbl (lit 1 : D)) := is_dbl' ⟨_, Interval.is_one⟩
  have rT : ∀ t, ((powT 0).real (fun i => if i = 0 then x else y) fun _ => t) = t ^ (x - 1) := fun t => by
    show t ^ (x - dbl (lit 1 : D)) = _
    rw [d1]
  have rS : ∀ t, ((powS 1).real (fun i => if i = 0 then x else y) fun _ => t) = (1 - t) ^ (y - 1) := fun t => by
    show (dbl (lit 1 : D) - t) ^ (y - dbl (lit 1 : D)) = _
    rw [d1]
  obtain ⟨I, hI, i1, i2⟩ := C77_power_partial (a := 0) (b := 1 / 2) (π := x - 1) (ρ := fun i => if i = 0 then x else y)
    (ρ' := fun i => if i = 0 then x else y) (f := powS 1) (par_mem hx hy)
    ⟨by simp [powS, Expr.FinCst]; exact f1, by simp [powS, Expr.noInv], by simp [powS, Expr.LDom, Expr.isC]⟩ (par_mem hx hy)
    ⟨by simp [powT, powS, Expr.FinCst]; exact f1, by simp [powT, powS, Expr.noInv], by simp [powT, powS, Expr.LDom, Expr.isC]⟩
    (fun t _ => by
      show (powT 0).real _ _ * (powS 1).real _ _ = _
      rw [rT, rS, sub_zero]) hP.order.1 hP.order.2 ((GammaFn.point_is Interval.is_zero).2 rfl) ((GammaFn.point_is is_bt_half).2 rfl) (by norm_num)
    (point_le Interval.is_zero (by norm_num)) (point_le is_bt_half (by norm_num [abs_of_pos]))
    (Interval.subS_mem hx Interval.is_one) (by linarith) hP.pw (NN.lit (by norm_num)) hA
  obtain ⟨J, hJ, j1, j2⟩ := C77_power_r_partial (a := 1 / 2) (b := 1) (π := y - 1) (ρ := fun i => if i = 0 then x else y)
    (ρ' := fun i => if i = 0 then x else y) (f := powT 0) (par_mem hx hy)
    ⟨by simp [powT, Expr.FinCst]; exact f1, by simp [powT, Expr.noInv], by simp [powT, Expr.LDom, Expr.isC]⟩ (par_mem hx hy)
    ⟨by simp [powT, powS, Expr.FinCst]; exact f1, by simp [powT, powS, Expr.noInv], by simp [powT, powS, Expr.LDom, Expr.isC]⟩
    (fun t _ => by
      show (powT 0).real _ _ * (powS 1).real _ _ = _
      rw [rT, rS, mul_comm]) hP.order.1 hP.order.2 ((GammaFn.point_is is_bt_half).2 rfl) ((GammaFn.point_is Interval.is_one).2 rfl) (by norm_num)
    (point_le is_bt_half (by norm_num [abs_of_pos])) (point_le Interval.is_one (by norm_num))
    (Interval.subS_mem hy Interval.is_one) (by linarith) hP.pw (NN.lit (by norm_num)) hB
  have e1 : ∀ t, (t - 0) ^ (x - 1) * ((powS 1).real (fun i => if i = 0 then x else y) fun _ => t) = t ^ (x - 1) * (1 - t) ^ (y - 1) := fun t => by
    rw [rS, sub_zero]
  have e2 : ∀ t, (1 - t) ^ (y - 1) * ((powT 0).real (fun i => if i = 0 then x else y) fun _ => t) = t ^ (x - 1) * (1 - t) ^ (y - 1) := fun t => by
    rw [rT, mul_comm]
  simp only [e1] at i1 i2
  simp only [e2] at j1 j2
  rw [← beta_real h0 h1, ← intervalIntegral.integral_add_adjacent_intervals i1 j1, i2, j2]
  exact Interval.add_mem hI hJ

/-- the shift is exact whenever the factors are computed -/
theorem shift_exact {r : Interval D} (hx : x ∈ X) (h : shiftNum X (Rop.sub (Rop.floor X.inf) (lit 1)) r = .ok Z) :
    ∃ z : ℤ, |z| ≤ 2 ^ 48 ∧ Is (Rop.sub (Rop.floor X.inf) (lit 1)) (z : ℝ) ∧ 0 < x - z := by
  obtain ⟨q, hq, e, hb⟩ : ∃ q hq, Rop.sub (Rop.floor X.inf) (lit 1) = (Fl.fin q hq : D) ∧ |q| < 2 ^ 46 := by
    apply shift_bound
    unfold shiftNum at h
    by_cases h1 : Rop.le (lit 1) (Rop.sub (Rop.floor X.inf) (lit 1)) = true
    · rw [if_pos h1] at h
      obtain ⟨k, hk, -⟩ := bind_ok.1 h
      exact Or.inl ⟨h1, k, hk⟩
    · rw [if_neg h1] at h
      obtain ⟨k, hk, -⟩ := bind_ok.1 h
      exact Or.inr ⟨k, hk⟩
  obtain ⟨_, e1⟩ := GammaFn.lit_one_fin
  rcases GammaFn.inf_cases hx.1.1 with ⟨u, hu⟩ | h1 | h1
  · obtain ⟨h2, h3⟩ := is_shift (GammaFn.is_floor hu) e hb
    refine ⟨_, ?_, h3, ?_⟩
    · rw [abs_le] at h2 ⊢; constructor <;> omega
    · have : (u : EReal) ≤ x := by rw [← hu.2]; exact hx.1.2
      have := EReal.coe_le_coe_iff.1 this
      have := Int.floor_le u
      push_cast
      linarith
  · rw [h1, GammaFn.floor_inf, e1] at e
    cases e
  · rw [h1, GammaFn.floor_ninf, e1] at e
    cases e

end BetaFn

open BetaFn

/-- C80: whatever `beta` returns for two intervals contains `B(x, y) = Γ(x)Γ(y)/Γ(x+y)` for all numbers `x`, `y` of the intervals; and it returns
only if there are no poles of `Γ` in the intervals.  (At a pole `x+y` the quotient means its limit 0: `Real.Gamma` is 0 there.) -/
theorem C80 (hP : P.Ok) (hx : x ∈ X) (hy : y ∈ Y)
    (h : (letI := scalI P.fuel; beta P X Y) st = (.ok Z, st')) :
    (∀ n : ℕ, x ≠ -n) ∧ (∀ n : ℕ, y ≠ -n) ∧ Real.Gamma x * Real.Gamma y / Real.Gamma (x + y) ∈ Z := by
  unfold beta at h
  obtain ⟨r, st1, hr, h1⟩ := bind_run h
  obtain ⟨h2, rfl⟩ := lift_run h1
  obtain ⟨r1, hr1, h3⟩ := bind_ok.1 h2
  obtain ⟨r2, hr2, h4⟩ := bind_ok.1 h3
  obtain ⟨z, hz, iz, pz⟩ := shift_exact hx hr1
  obtain ⟨w, hw, iw, pw⟩ := shift_exact hy h4
  have hzw : |z + w| ≤ 2 ^ 50 := by rw [abs_le] at hz hw ⊢; constructor <;> omega
  have izw := is_add_int iz iw (hzw.trans (by norm_num))
  have m0 := betaR_mem hP (Interval.subS_mem hx iz) (Interval.subS_mem hy iw) pz pw hr
  rw [mul_div_assoc] at m0
  obtain ⟨m1, n1⟩ := shiftNum_mem iz (hz.trans (by norm_num)) hx pz m0 hr1
  rw [show x - z + (y - w) = x + y - ((z + w : ℤ) : ℝ) by push_cast; ring, ← mul_div_assoc] at m1
  have m2 := shiftDen_mem izw hzw (Interval.add_mem hx hy) (by push_cast; linarith) m1 hr2
  rw [mul_comm (Real.Gamma x), mul_div_assoc] at m2
  obtain ⟨m3, n3⟩ := shiftNum_mem iw (hw.trans (by norm_num)) hy pw m2 h4
  exact ⟨n1, n3, by rw [mul_comm (Real.Gamma x), mul_div_assoc]; exact m3⟩

end Kv
