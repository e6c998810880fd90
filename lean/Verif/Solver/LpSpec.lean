import Verif.Solver.LinLemmas
import Mathlib.Order.Interval.Finset.Nat

/-! # Specification: linear programs given by vectors of doubles

Nothing here refers to the model of the code. -/

namespace Kv
namespace Lp
open Rop (lit)
open Finset (Icc)

/-- a coefficient; those not given are 0 -/
noncomputable def coef (c : List D) (j : ℕ) : ℝ := dbl (c.getD j (lit 0))

/-- `c0 + c1*x1 + c2*x2 + ...` -/
noncomputable def linear (c : List D) (x : ℕ → ℝ) : ℝ := coef c 0 + ∑ j ∈ Icc 1 (c.length - 1), coef c j * x j

/-- the feasible points -/
def Feasible (cons : List (List D)) (x : ℕ → ℝ) : Prop := (∀ j, 0 ≤ x j) ∧ ∀ c ∈ cons, linear c x ≤ 0

end Lp
end Kv
