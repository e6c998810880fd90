import Verif.Ode.Model
import Verif.Psa.JetExpr

/-! # The formal power series solution of an initial value problem -/

namespace Kv
open PowerSeries Psa

namespace Expr

/-- the first coefficients of the result depend on the first coefficients of the arguments only -/
theorem ps_local {n m : ℕ} {ρ : ℕ → ℝ} {e : Expr n} {c c' : Fin n → PowerSeries ℝ} (hS : e.SDom ρ (fun i => coeff 0 (c i)))
    (h : ∀ i, ∀ k < m, coeff k (c i) = coeff k (c' i)) : ∀ k < m, coeff k (e.ps ρ c) = coeff k (e.ps ρ c') := by
  rcases Nat.eq_zero_or_pos m with rfl | hm
  · intro k hk; omega
  have h1 : ∀ i, HasP m (fun t => ∑ k ∈ Finset.range m, coeff k (c i) * t ^ k) (c i) := fun i => HasT.poly m _
  have h2 : ∀ i, HasP m (fun t => ∑ k ∈ Finset.range m, coeff k (c i) * t ^ k) (c' i) := fun i =>
    HasT.congr_co (h1 i) fun k hk => h i k hk
  have e0 : (fun i => coeff 0 (c' i)) = fun i => coeff 0 (c i) := by
    funext i; rw [h i 0 hm]
  exact HasT.unique (Expr.hasP hm h1 hS) (Expr.hasP hm h2 (by rw [e0]; exact hS))

end Expr

namespace Ode
variable {n : ℕ} (f : Fin n → Expr (n + 1)) (ρ : ℕ → ℝ) (x0 : Fin n → ℝ) (t0 : ℝ)

/-- one step of the Picard iteration -/
noncomputable def fstep (c : Fin n → PowerSeries ℝ) (i : Fin n) : PowerSeries ℝ :=
  PowerSeries.mk fun k => match k with
    | 0 => x0 i
    | k + 1 => coeff k ((f i).ps ρ (withT c (idPs t0))) / (k + 1 : ℕ)

/-- the Picard iteration -/
noncomputable def fiter : ℕ → Fin n → PowerSeries ℝ
  | 0 => fun i => C (x0 i)
  | j + 1 => fstep f ρ x0 t0 (fiter j)

/-- the solution -/
noncomputable def fsol (i : Fin n) : PowerSeries ℝ := PowerSeries.mk fun k => coeff k (fiter f ρ x0 t0 k i)

variable {f ρ x0 t0}

theorem withT_coeff (c : Fin n → PowerSeries ℝ) (s : PowerSeries ℝ) (k : ℕ) :
    (fun i => coeff k (withT c s i)) = withT (fun i => coeff k (c i)) (coeff k s) := by
  funext i
  refine Fin.lastCases ?_ (fun i => ?_) i <;> simp [withT]

theorem idPs_zero (t : ℝ) : coeff 0 (idPs t) = t := by simp [idPs]

theorem fiter_zero (j : ℕ) (i : Fin n) : coeff 0 (fiter f ρ x0 t0 j i) = x0 i := by
  cases j with
  | zero => simp [fiter]
  | succ j => simp [fiter, fstep]

theorem fiter_succ (j k : ℕ) (i : Fin n) : coeff (k + 1) (fiter f ρ x0 t0 (j + 1) i) =
    coeff k ((f i).ps ρ (withT (fiter f ρ x0 t0 j) (idPs t0))) / (k + 1 : ℕ) := by
  simp [fiter, fstep]

theorem fiter_point (j : ℕ) : (fun i => coeff 0 (withT (fiter f ρ x0 t0 j) (idPs t0) i)) = withT x0 t0 := by
  rw [withT_coeff, idPs_zero]
  congr 1
  funext i; exact fiter_zero j i

theorem withT_agree {c c' : Fin n → PowerSeries ℝ} {s : PowerSeries ℝ} {m : ℕ} (h : ∀ i, ∀ k < m, coeff k (c i) = coeff k (c' i)) :
    ∀ i, ∀ k < m, coeff k (withT c s i) = coeff k (withT c' s i) := by
  intro i
  refine Fin.lastCases ?_ (fun i => ?_) i
  · intro k _; simp [withT]
  · intro k hk; simpa [withT] using h i k hk

theorem fiter_stable (hS : ∀ i, (f i).SDom ρ (withT x0 t0)) : ∀ (j : ℕ) (i : Fin n), ∀ k < j + 1,
    coeff k (fiter f ρ x0 t0 j i) = coeff k (fiter f ρ x0 t0 (j + 1) i)
  | 0, i, k, hk => by
    obtain rfl : k = 0 := by omega
    rw [fiter_zero, fiter_zero]
  | j + 1, i, 0, _ => by rw [fiter_zero, fiter_zero]
  | j + 1, i, k + 1, hk => by
    rw [fiter_succ, fiter_succ]
    congr 1
    refine Expr.ps_local (m := j + 1) ?_ (withT_agree fun i => fiter_stable hS j i) k (by omega)
    rw [fiter_point]; exact hS i

theorem fsol_agree (hS : ∀ i, (f i).SDom ρ (withT x0 t0)) (i : Fin n) (k : ℕ) : ∀ j, k ≤ j →
    coeff k (fsol f ρ x0 t0 i) = coeff k (fiter f ρ x0 t0 j i) := by
  intro j hj
  induction j, hj using Nat.le_induction with
  | base => simp [fsol]
  | succ j hj ih => rw [ih, fiter_stable hS j i k (by omega)]

theorem fsol_zero (i : Fin n) : coeff 0 (fsol f ρ x0 t0 i) = x0 i := by
  simp only [fsol, coeff_mk]
  exact fiter_zero 0 i

theorem fsol_point : (fun i => coeff 0 (withT (fsol f ρ x0 t0) (idPs t0) i)) = withT x0 t0 := by
  rw [withT_coeff, idPs_zero]
  congr 1
  funext i; exact fsol_zero i

/-- it satisfies the differential equation -/
theorem fsol_succ (hS : ∀ i, (f i).SDom ρ (withT x0 t0)) (i : Fin n) (k : ℕ) : coeff (k + 1) (fsol f ρ x0 t0 i) =
    coeff k ((f i).ps ρ (withT (fsol f ρ x0 t0) (idPs t0))) / (k + 1 : ℕ) := by
  rw [fsol_agree hS i (k + 1) (k + 1) le_rfl, fiter_succ]
  congr 1
  refine (Expr.ps_local (m := k + 1) ?_ (withT_agree fun i l hl => fsol_agree hS i l k (by omega)) k (by omega)).symm
  rw [fsol_point]; exact hS i

end Ode
end Kv
