import Mathlib.Analysis.Calculus.FDeriv.Basic
import Mathlib.Analysis.Normed.Module.Basic
import Mathlib.Topology.Algebra.Module.FiniteDimension

/-! # Linear forms given by a vector of coefficients -/

namespace Kv

/-- the linear form with coefficients `g` -/
noncomputable def lin {n : ℕ} (g : Fin n → ℝ) : (Fin n → ℝ) →L[ℝ] ℝ := ∑ j, g j • ContinuousLinearMap.proj j

theorem lin_apply {n : ℕ} (g x : Fin n → ℝ) : lin g x = ∑ j, g j * x j := by
  simp [lin]

theorem lin_smul {n : ℕ} (c : ℝ) (g : Fin n → ℝ) : c • lin g = lin (fun j => c * g j) := by
  ext x; simp [lin_apply, Finset.mul_sum, mul_assoc]
theorem lin_add {n : ℕ} (g h : Fin n → ℝ) : lin g + lin h = lin (fun j => g j + h j) := by
  ext x; simp [lin_apply, Finset.sum_add_distrib, add_mul]
theorem lin_zero {n : ℕ} : lin (fun _ : Fin n => (0 : ℝ)) = 0 := by
  ext x; simp [lin_apply]

end Kv
