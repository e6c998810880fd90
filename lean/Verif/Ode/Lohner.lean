import Verif.Ode.Model

/-!
# Model of `ode_lohner` (/repo/kv/ode-lohner.hpp)

As for `ode`: the base type is `double`, the right-hand side is a vector of template functions, `std::pow` is an arbitrary function, the macros have
their default values, printing is left out, negative `int` parameters are not modelled.  Only the overload for interval vectors is modelled.
-/

namespace Kv
open Rop (lit)

namespace Ode
open PM Kraw
variable {n : ℕ} [Scal (Interval D)]

namespace Lohner

/-- `f(V, tste)` for intervals -/
def box (P : Problem n) (V : Fin n → Interval D) (tste : Interval D) : Res (Fin n → Interval D) := evalVec P.p (withT V tste) n P.f

/-- `f(V, tste) * interval<T>(0., deltat.upper())`, ode-lohner.hpp:153, 161, 196 -/
def boxStep (P : Problem n) (V : Fin n → Interval D) (tste deltat : Interval D) : Res (Fin n → Interval D) := do
  let y ← box P V tste
  .ok fun i => Interval.mul (y i) ⟨lit 0, deltat.sup⟩

/-- `V2 = init + f(V, tste) * interval<T>(0., deltat.upper())`, ode-lohner.hpp:161, 196 -/
def picard (P : Problem n) (V : Fin n → Interval D) (tste deltat : Interval D) : Res (Fin n → Interval D) := do
  let y ← boxStep P V tste deltat
  .ok fun i => Interval.add (P.init i) (y i)

/-- the candidate, ode-lohner.hpp:153-160 -/
def guess (P : Problem n) (tste deltat : Interval D) : Res (Fin n → Interval D) := do
  let y ← boxStep P P.init tste deltat
  let step := makeCandidate fun i => Interval.mag (y i)
  .ok fun i => Interval.add (P.init i) (Interval.sMul (step i) ⟨lit (-1), lit 1⟩)

/-- `flag`, ode-lohner.hpp:163-172 -/
def included (W V : Fin n → Interval D) : Bool := (List.ofFn fun i => Interval.subset (W i) (V i)).all id

/-- `max_ratio`, ode-lohner.hpp:165-170 -/
def maxRatio (W V : Fin n → Interval D) : Res D := maxOver (lit 0) fun i => .ok (Rop.div (Interval.width (W i)) (Interval.width (V i)))

/-- the result of the main loop -/
structure Out (n : ℕ) where
  ret : ℤ
  V : Fin n → Interval D
  deltat : Interval D
  end2 : Interval D
  tste : Interval D

/-- the main loop, ode-lohner.hpp:133-191, at most `fuel` passes -/
def loop (P : Problem n) (q : Param) : ℕ → D → ℕ → Res (Out n)
  | 0, _, _ => .error .outOfFuel
  | fuel + 1, radius, restart => do
    let (end2, radius, ret) := chooseEnd P q radius
    let deltat := Interval.sub end2 P.start
    let tste : Interval D := ⟨P.start.inf, end2.sup⟩
    let V ← guess P tste deltat
    let W ← picard P V tste deltat
    if included W V then .ok ⟨ret, W, deltat, end2, tste⟩
    else if !q.autostep || decide (q.restartMax + 10 ≤ restart) then .ok ⟨0, W, deltat, end2, tste⟩
    else do
      let r ← maxRatio W V
      let fac := stdMax (stdMin (lit (1 / 2)) (Rop.div (lit (1 / 2)) r)) (lit (1 / 8))
      loop P q fuel (Rop.mul radius fac) (restart + 1)

/-- ode-lohner.hpp:194-200: the whole vector is intersected `n` times -/
def refine (P : Problem n) (tste deltat : Interval D) : ℕ → (Fin n → Interval D) → Res (Fin n → Interval D)
  | 0, V => .ok V
  | k + 1, V => do
    let W ← picard P V tste deltat
    refine P tste deltat k ((fun (U : Fin n → Interval D) i => Interval.intersect (U i) (V i))^[n] W)

/-- the coefficients over the box, ode-lohner.hpp:202-224: `z = V2` and `j` passes of the loop; the loop adds `init`, not `V2` -/
def coeffs (P : Problem n) (V : Fin n → Interval D) (tste : Interval D) : ℕ → PM (Interval D) (Fin n → Ser)
  | 0 => return fun i => [V i]
  | j + 1 => do
    let z ← coeffs P V tste j
    switchUse j
    let t ← Psa.setorder [tste, Psa.one] j
    let y ← evalF P z t
    update P y (j + 1)

/-- `for (j=0; j<p.order; j++) z(i).v(j) = x(i).v(j)`, ode-lohner.hpp:226-230 -/
def replace (x : Ser) : ℕ → Ser → Res Ser
  | 0, z => .ok z
  | k + 1, z => do
    let z ← replace x k z
    setAt z k fun _ => Psa.at' x k

/-- ode-lohner.hpp:193-240 -/
def conclude (P : Problem n) (q : Param) (x : Fin n → Ser) (o : Out n) : PM (Interval D) (Result n) := do
  if o.ret ≠ 0 then
    let V ← lift (refine P o.tste o.deltat q.iteration o.V)
    setUse false
    setRec true
    setHist []
    let z ← coeffs P V o.tste q.order
    let z ← vec fun i => lift (replace (x i) q.order (z i))
    let result ← vec fun i => lift (Psa.eval (z i) o.deltat)
    return ⟨o.ret, result, if o.ret = 1 then o.end2 else P.stop, some z⟩
  else return ⟨0, P.init, P.stop, none⟩

/-- the first step size, ode-lohner.hpp:112-131 -/
def radius0 (P : Problem n) (q : Param) (x : Fin n → Ser) : Res D :=
  if q.autostep then do
    let r ← radiusLoop P x (q.order - 1) (lit 0) 0
    let tol ← tolerance P q
    .ok (Rop.div (P.pw tol (Rop.div (lit 1) (lit q.order))) r)
  else .ok (lit 0)

end Lohner
end Ode

/-- `ode_lohner(f, init, start, end, p, &result_psa)`, ode-lohner.hpp:43-246.  The mode is saved in a `bool`.  The main loop has `fuel` passes at most. -/
def odeLohner {n : ℕ} [Scal (Interval D)] (fuel : ℕ) (P : Ode.Problem n) (q : Ode.Param) : PM (Interval D) (Ode.Result n) := do
  let st ← PM.get
  let saveMode : Bool := decide (st.mode ≠ 0)
  PM.setMode 1
  PM.setUse false
  PM.setRec true
  PM.setHist []
  let x ← Ode.coeffs P (q.order - 1)
  let radius ← PM.lift (Ode.Lohner.radius0 P q x)
  let o ← PM.lift (Ode.Lohner.loop P q fuel radius 0)
  let r ← Ode.Lohner.conclude P q x o
  PM.setMode (if saveMode then 1 else 0)
  PM.setUse st.use
  PM.setRec st.record
  return r

end Kv
