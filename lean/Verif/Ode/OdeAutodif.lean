import Verif.Ode.General
import Verif.Psa.AutodifPsa
import Verif.Solver.LinAlg

/-!
# Model of `ode` for `autodif` (/repo/kv/ode-autodif.hpp, `ODE_AUTODIF_NEW` = 1, the default)

As for `ode`: the base type is `double`, the right-hand side is a vector of template functions, `std::pow` is an arbitrary function.
-/

namespace Kv
open Rop (lit)

namespace Ode
open PM Kraw
variable {n : ℕ} [Scal (Interval D)]

namespace Var

/-- the element `(i, j)` of a matrix stored by rows: `k` in ode-autodif.hpp:50-58, 110-118, 133-138 -/
def idx (i j : Fin n) : Fin (n * n) := finProdFinEquiv (i, j)

/-- `t = 0; t += a_k * b_k;` the inner product of ublas -/
def dot (t : Ser) : List Ser → List Ser → PM (Interval D) Ser
  | [], [] => return t
  | a :: s, b :: r => do
    let p ← Psa.mul a b
    let t ← Psa.add t p
    dot t s r
  | _, _ => lift (.error .undefined)

/-- `MakeVariationalEq::operator()`, ode-autodif.hpp:36-77: the derivative of the right-hand side along the series `sol`, times the matrix `x`.
If no component depends on the variables, then `rm` has no columns and the product is undefined. -/
def eq (P : Problem n) (sol : Fin n → Ser) (x : Fin (n * n) → Ser) (t : Ser) : PM (Interval D) (Fin (n * n) → Ser) := do
  let order : ℕ := (List.ofFn fun k => (x k).length - 1).foldl max 0
  let sol2 ← vec fun i => Psa.setorder (sol i) order
  let t2 ← Psa.setorder t order
  let u : Fin n → Autodif Ser := fun i => ⟨sol2 i, List.ofFn fun j : Fin n => [Scal.ofC (if i = j then lit 1 else lit 0)]⟩
  let r ← vec fun i => (P.f i).evalAP P.p (withT u ⟨t2, []⟩)
  if (List.ofFn fun i => (r i).d.length).foldl max 0 = n then
    vec fun k =>
      let ij := finProdFinEquiv.symm k
      dot [Psa.zero] (List.ofFn fun l : Fin n => (r ij.1).d.getD l [Psa.zero]) (List.ofFn fun l : Fin n => x (idx l ij.2))
  else lift (.error .undefined)

/-- the variational equation with the unit matrix as initial value, ode-autodif.hpp:110-118 -/
def problem (P : Problem n) (stop : Interval D) : Problem (n * n) :=
  ⟨fun _ => .cst (lit 0), P.p, fun k => let ij := finProdFinEquiv.symm k; Interval.point (if ij.1 = ij.2 then lit 1 else lit 0), P.start, stop, P.pw⟩

end Var

/-- what `ode` for `autodif` returns and leaves in its reference arguments -/
structure ResultA (n : ℕ) where
  ret : ℤ
  init : Fin n → Autodif (Interval D)
  stop : Interval D
  psa : Option (Fin n → Ser)

end Ode

/-- `ode(f, init, start, end, p, &result_psa)` for `autodif`, ode-autodif.hpp:80-156; `P.init` is not used.  The main loops of the two calls of `ode`
have `fuel` passes at most. -/
def odeAutodif {n : ℕ} [Scal (Interval D)] (fuel : ℕ) (P : Ode.Problem n) (init : Fin n → Autodif (Interval D)) (q : Ode.Param) :
    PM (Interval D) (Ode.ResultA n) := do
  let r1 ← ode fuel { P with init := fun i => (init i).v } q
  if r1.ret = 0 then return ⟨0, init, P.stop, none⟩
  else match r1.psa with
    | none => PM.lift (.error .undefined)
    | some w => do
      let r2 ← odeG (Ode.Var.eq P w) fuel (Ode.Var.problem P r1.stop) { q with autostep := true, epsilon := .pinf }
      if r2.ret = 0 then return ⟨0, init, P.stop, some w⟩
      else if r2.ret = 1 ∧ q.autostep = false then return ⟨0, init, P.stop, some w⟩
      else
        let ret : ℤ := if r2.ret = 1 then 1 else r1.ret
        let cols := Autodif.splitCols init
        let d (i : Fin n) (j : Fin cols) : Interval D := LA.sumI fun k => Interval.mul (r2.init (Ode.Var.idx i k)) (Autodif.row cols (init k) j)
        return ⟨ret, fun i => ⟨r1.init i, List.ofFn (d i)⟩, if ret = 1 then r2.stop else P.stop, some w⟩

end Kv
