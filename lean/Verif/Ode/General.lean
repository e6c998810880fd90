import Verif.Ode.Model

/-!
# `ode` for any right-hand side (/repo/kv/ode.hpp)

The functions of `Verif/Ode/Model.lean` with the evaluation `ev` of the right-hand side as a parameter; the field `f` of the problem is not used.
`odeG_evalF` says that this is the same model for template functions.
-/

namespace Kv
open Rop (lit)

namespace Ode
open PM Kraw
variable {n : ℕ} [Scal (Interval D)]

namespace Gen

/-- the Taylor coefficients: `x = init` and `j` passes of the loop, ode.hpp:98, 112-124 -/
def coeffs (ev : (Fin n → Ser) → Ser → PM (Interval D) (Fin n → Ser)) (P : Problem n) : ℕ → PM (Interval D) (Fin n → Ser)
  | 0 => return fun i => [P.init i]
  | j + 1 => do
    let x ← coeffs ev P j
    switchUse j
    let t ← Psa.setorder (torg P) j
    let y ← ev x t
    update P y (j + 1)

/-- ode.hpp:252-286 -/
def verifyStep (ev : (Fin n → Ser) → Ser → PM (Interval D) (Fin n → Ser)) (P : Problem n) (q : Param) (z : Fin n → Ser) (t : Ser) (deltat end2 : Interval D) (ret : ℤ) (radius : D)
    (restart : ℕ) (resized : Bool) : PM (Interval D) (Next n) := do
  let y ← ev z t
  let w ← update P y q.order
  let flag ← lift (included q w z)
  if flag then return .done ret w deltat end2 t
  else if !q.autostep || decide (q.restartMax ≤ restart) then return .done 0 w deltat end2 t
  else do
    let r ← lift (maxRatio q w z)
    let fac := stdMax (stdMin (lit (1 / 2)) (Rop.div (lit (1 / 2)) r)) (lit (1 / 8))
    return .again (Rop.mul radius fac) (restart + 1) resized

/-- ode.hpp:215-286, after the first evaluation of the right-hand side has succeeded -/
def candidate (ev : (Fin n → Ser) → Ser → PM (Interval D) (Fin n → Ser)) (P : Problem n) (q : Param) (x y : Fin n → Ser) (t : Ser) (deltat end2 : Interval D) (ret : ℤ) (radius : D)
    (restart : ℕ) (resized : Bool) : PM (Interval D) (Next n) := do
  let w ← update P y q.order
  let z ← widen q w x
  if q.autostep && decide (ret ≠ 2) && !resized then do
    let r ← lift (resizeRadius P q z deltat radius)
    if Rop.le radius r && decide (0 < restart) then verifyStep ev P q z t deltat end2 ret radius restart true
    else return .again r restart true
  else verifyStep ev P q z t deltat end2 ret radius restart resized

/-- one pass of the main loop, ode.hpp:175-286; `x` are the Taylor coefficients -/
def attempt (ev : (Fin n → Ser) → Ser → PM (Interval D) (Fin n → Ser)) (P : Problem n) (q : Param) (x : Fin n → Ser) (radius : D) (restart : ℕ) (resized : Bool) :
    PM (Interval D) (Next n) := do
  let (end2, radius, ret) := chooseEnd P q radius
  let deltat := Interval.sub end2 P.start
  setDomain ⟨lit 0, deltat.sup⟩
  let t ← Psa.setorder (torg P) q.order
  match ← tryDom (ev x t) with
  | none =>
    if q.autostep && decide (restart < q.restartMax) then do
      setUse false
      return .again (Rop.mul radius (lit (1 / 2))) (restart + 1) resized
    else lift (.error .domainError)
  | some y => candidate ev P q x y t deltat end2 ret radius restart resized

/-- the main loop, ode.hpp:174-287, at most `fuel` passes -/
def loop (ev : (Fin n → Ser) → Ser → PM (Interval D) (Fin n → Ser)) (P : Problem n) (q : Param) (x : Fin n → Ser) : ℕ → D → ℕ → Bool → PM (Interval D) (Out n)
  | 0, _, _, _ => lift (.error .outOfFuel)
  | fuel + 1, radius, restart, resized => do
    match ← attempt ev P q x radius restart resized with
    | .again radius restart resized => loop ev P q x fuel radius restart resized
    | .done ret w deltat end2 t => return ⟨ret, w, deltat, end2, t⟩

/-- further Picard steps, ode.hpp:290-301 -/
def refine (ev : (Fin n → Ser) → Ser → PM (Interval D) (Fin n → Ser)) (P : Problem n) (q : Param) (t : Ser) : ℕ → (Fin n → Ser) → PM (Interval D) (Fin n → Ser)
  | 0, w => return w
  | k + 1, z => do
    let y ← ev z t
    let w ← update P y q.order
    let w ← vec fun i => lift (do
      let b ← Psa.at' (z i) q.order
      setAt (w i) q.order fun a => .ok (Interval.intersect a b))
    refine ev P q t k w

/-- ode.hpp:289-311 -/
def conclude (ev : (Fin n → Ser) → Ser → PM (Interval D) (Fin n → Ser)) (P : Problem n) (q : Param) (o : Out n) : PM (Interval D) (Result n) := do
  if o.ret ≠ 0 then
    let w ← refine ev P q o.t q.iteration o.w
    let result ← vec fun i => lift (Psa.eval (w i) o.deltat)
    return ⟨o.ret, result, if o.ret = 1 then o.end2 else P.stop, some w⟩
  else return ⟨0, P.init, P.stop, none⟩

end Gen
end Ode

/-- `ode(f, init, start, end, param, &result_psa)`, ode.hpp:47-318.  The mode is saved in a `bool`.  The main loop has
`fuel` passes at most. -/
def odeG {n : ℕ} [Scal (Interval D)] (ev : (Fin n → Ode.Ser) → Ode.Ser → PM (Interval D) (Fin n → Ode.Ser)) (fuel : ℕ) (P : Ode.Problem n) (q : Ode.Param) : PM (Interval D) (Ode.Result n) := do
  let st ← PM.get
  let saveMode : Bool := decide (st.mode ≠ 0)
  PM.setMode 1
  PM.setUse false
  PM.setRec true
  PM.setHist []
  let x ← Ode.Gen.coeffs ev P q.order
  let radius ← PM.lift (Ode.radius0 P q x)
  PM.setMode 2
  let o ← Ode.Gen.loop ev P q x fuel radius 0 false
  let r ← Ode.Gen.conclude ev P q o
  PM.setMode (if saveMode then 1 else 0)
  PM.setUse st.use
  PM.setRec st.record
  return r

namespace Ode
namespace Gen
variable {n : ℕ} [Scal (Interval D)]

theorem coeffs_evalF (P : Problem n) : ∀ j, coeffs (evalF P) P j = Ode.coeffs P j
  | 0 => rfl
  | j + 1 => by rw [coeffs, Ode.coeffs, coeffs_evalF P j]

theorem loop_evalF (P : Problem n) (q : Param) (x : Fin n → Ser) : ∀ k r c b, loop (evalF P) P q x k r c b = Ode.loop P q x k r c b
  | 0, _, _, _ => rfl
  | k + 1, r, c, b => by
    rw [loop, Ode.loop]
    congr 1
    funext o
    cases o with
    | again r c b => exact loop_evalF P q x k r c b
    | done _ _ _ _ _ => rfl

theorem refine_evalF (P : Problem n) (q : Param) (t : Ser) : ∀ k w, refine (evalF P) P q t k w = Ode.refine P q t k w
  | 0, _ => rfl
  | k + 1, w => by
    rw [refine, Ode.refine]
    congr 1
    funext y
    congr 1
    funext w
    congr 1
    funext w
    exact refine_evalF P q t k w

theorem conclude_evalF (P : Problem n) (q : Param) (o : Out n) : conclude (evalF P) P q o = Ode.conclude P q o := by
  unfold conclude Ode.conclude
  rw [refine_evalF]

end Gen
end Ode

/-- for template functions this is `ode` -/
theorem odeG_evalF {n : ℕ} [Scal (Interval D)] (fuel : ℕ) (P : Ode.Problem n) (q : Ode.Param) : odeG (Ode.evalF P) fuel P q = ode fuel P q := by
  unfold odeG ode
  simp only [Ode.Gen.coeffs_evalF, Ode.Gen.loop_evalF, Ode.Gen.conclude_evalF]

end Kv
