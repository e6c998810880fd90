import Verif.Psa.Model
import Verif.Solver.Kraw

/-!
# Model of `ode`, `odelong` (/repo/kv/ode.hpp) and `highderiv`, `PartialDeriv` (/repo/kv/highderiv.hpp)

The base type is `double`.  The right-hand side is a vector of template functions of the `n` unknowns and of the time (last
variable); its components are evaluated in order.  `std::pow`, which is used for the choice of the step only, is an arbitrary
function.  The macros have their default values (`ODE_FAST` 1, `ODE_STEP_COMPONENT` 0, `ODE_RESTART_RATIO` 1,
`ODE_COEF_MID` 0), printing under `verbose` is left out, negative values of the `int` parameters are not modelled.
-/

namespace Kv
open Rop (lit)

namespace PM
variable {S α : Type}

/-- the computations `f 0, f 1, ...` in this order -/
def vec : ∀ {n : ℕ}, (Fin n → PM S α) → PM S (Fin n → α)
  | 0, _ => return fun i => i.elim0
  | _ + 1, f => do
    let a ← f 0
    let r ← vec fun i => f i.succ
    return Fin.cons a r

/-- `try { m } catch (std::domain_error&)`: `none` if the exception was thrown -/
def tryDom (m : PM S α) : PM S (Option α) := fun st =>
  match m st with
  | (.ok a, st') => (.ok (some a), st')
  | (.error .domainError, st') => (.ok none, st')
  | (.error e, st') => (.error e, st')

end PM

namespace Ode
open PM Kraw

/-- a series with interval coefficients -/
abbrev Ser := List (Interval D)

/-- `ode_param`, ode-param.hpp:11-27 -/
structure Param where
  order : ℕ
  autostep : Bool
  epsilon : D
  iteration : ℕ
  restartMax : ℕ

/-- the unknowns and the time -/
def withT {α : Type} {n : ℕ} (x : Fin n → α) (t : α) : Fin (n + 1) → α := Fin.snoc (α := fun _ => α) x t

/-- a problem: right-hand side, interval constants in it, initial value and time; and `std::pow` -/
structure Problem (n : ℕ) where
  f : Fin n → Expr (n + 1)
  p : ℕ → Interval D
  init : Fin n → Interval D
  start : Interval D
  stop : Interval D
  pw : D → D → D

variable {n : ℕ} [Scal (Interval D)]

/-- `f(x, t)` -/
def evalF (P : Problem n) (x : Fin n → Ser) (t : Ser) : PM (Interval D) (Fin n → Ser) :=
  vec fun i => (P.f i).evalP P.p (withT x t)

/-- integrate, set the order, add the initial value: ode.hpp:118-123, 215-219, 253-257, 293-297 -/
def update (P : Problem n) (y : Fin n → Ser) (k : ℕ) : PM (Interval D) (Fin n → Ser) := do
  let y ← vec fun i => do
    let q ← lift (Psa.integrate (y i))
    Psa.setorder q k
  vec fun i => lift (Psa.scalarPlus (P.init i) (y i))

/-- `torg`, ode.hpp:99-100 -/
def torg (P : Problem n) : Ser := [P.start, Psa.one]

/-- `if (j == 1) use_history() = true`, ode.hpp:114 -/
def switchUse (j : ℕ) : PM (Interval D) Unit := if j = 1 then setUse true else return ()

/-- the Taylor coefficients: `x = init` and `j` passes of the loop, ode.hpp:98, 112-124 -/
def coeffs (P : Problem n) : ℕ → PM (Interval D) (Fin n → Ser)
  | 0 => return fun i => [P.init i]
  | j + 1 => do
    let x ← coeffs P j
    switchUse j
    let t ← Psa.setorder (torg P) j
    let y ← evalF P x t
    update P y (j + 1)

/-- `for (i=0; i<n; i++) m = std::max(m, g(i))` -/
def maxOver (m : D) (g : Fin n → Res D) : Res D :=
  (List.ofFn g).foldl (fun m r => do .ok (stdMax (← m) (← r))) (.ok m)

/-- ode.hpp:91-95 -/
def tolerance (P : Problem n) (q : Param) : Res D := do
  let m ← maxOver (lit 1) fun i => .ok (Interval.norm (P.init i))
  .ok (Rop.mul m q.epsilon)

/-- the loop in ode.hpp:148-164 -/
def radiusLoop (P : Problem n) (x : Fin n → Ser) : ℕ → D → ℕ → Res D
  | 0, radius, _ => .ok radius
  | j + 1, radius, nRad => do
    let m ← maxOver (lit 0) fun i => do .ok (Interval.norm (← Psa.at' (x i) (j + 1)))
    if Rop.eq m (lit 0) then radiusLoop P x j radius nRad
    else
      let radius := stdMax radius (P.pw m (Rop.div (lit 1) (lit (j + 1))))
      if nRad + 1 = 2 then .ok radius else radiusLoop P x j radius (nRad + 1)

/-- the first step size, ode.hpp:126-167 (without `autostep` the variable is not used) -/
def radius0 (P : Problem n) (q : Param) (x : Fin n → Ser) : Res D :=
  if q.autostep then do
    let r ← radiusLoop P x q.order (lit 0) 0
    let tol ← tolerance P q
    .ok (Rop.div (P.pw tol (Rop.div (lit 1) (lit q.order))) r)
  else .ok (lit 0)

/-- end of the step, step size, return value: ode.hpp:175-187 -/
def chooseEnd (P : Problem n) (q : Param) (radius : D) : Interval D × D × ℤ :=
  if q.autostep then
    let end2 : Interval D := Interval.point (Interval.mid (Interval.addS P.start radius))
    if Rop.le P.stop.inf end2.inf then (P.stop, Interval.mid (Interval.sub P.stop P.start), 2)
    else (end2, radius, 1)
  else (P.stop, radius, 2)

/-- what happens at the end of a pass of the main loop -/
inductive Next (n : ℕ) where
  /-- next pass -/
  | again (radius : D) (restart : ℕ) (resized : Bool)
  /-- `break` -/
  | done (ret : ℤ) (w : Fin n → Ser) (deltat end2 : Interval D) (t : Ser)

/-- the inclusion test, ode.hpp:259-268 -/
def included (q : Param) (w z : Fin n → Ser) : Res Bool :=
  (List.ofFn fun i => do
    let a ← Psa.at' (w i) q.order
    let b ← Psa.at' (z i) q.order
    .ok (Interval.subset a b)).foldl (fun m r => do .ok ((← m) && (← r))) (.ok true)

/-- `max_ratio`, ode.hpp:261-266 -/
def maxRatio (q : Param) (w z : Fin n → Ser) : Res D :=
  maxOver (lit 0) fun i => do
    .ok (Rop.div (Interval.width (← Psa.at' (w i) q.order)) (Interval.width (← Psa.at' (z i) q.order)))

/-- `std::min(a, b)` -/
def stdMin (a b : D) : D := if Rop.lt b a then b else a

/-- ode.hpp:252-286 -/
def verifyStep (P : Problem n) (q : Param) (z : Fin n → Ser) (t : Ser) (deltat end2 : Interval D) (ret : ℤ) (radius : D)
    (restart : ℕ) (resized : Bool) : PM (Interval D) (Next n) := do
  let y ← evalF P z t
  let w ← update P y q.order
  let flag ← lift (included q w z)
  if flag then return .done ret w deltat end2 t
  else if !q.autostep || decide (q.restartMax ≤ restart) then return .done 0 w deltat end2 t
  else do
    let r ← lift (maxRatio q w z)
    let fac := stdMax (stdMin (lit (1 / 2)) (Rop.div (lit (1 / 2)) r)) (lit (1 / 8))
    return .again (Rop.mul radius fac) (restart + 1) resized

/-- replace coefficient `k` -/
def setAt (x : Ser) (k : ℕ) (f : Interval D → Res (Interval D)) : Res Ser := do
  let a ← Psa.at' x k
  .ok (x.set k (← f a))

/-- ode.hpp:221-228 -/
def widen (q : Param) (w x : Fin n → Ser) : PM (Interval D) (Fin n → Ser) := do
  let step ← vec fun i => lift (do
    let a ← Psa.at' (w i) q.order
    let b ← Psa.at' (x i) q.order
    .ok (Interval.norm (Interval.sub a b)))
  let step := makeCandidate step
  vec fun i => lift (setAt (x i) q.order fun b => .ok (Interval.add b (Interval.sMul (step i) ⟨lit (-1), lit 1⟩)))

/-- ode.hpp:232-243; `std::numeric_limits<double>::min()` is `2^-1022` -/
def resizeRadius (P : Problem n) (q : Param) (z : Fin n → Ser) (deltat : Interval D) (radius : D) : Res D := do
  let m ← maxOver (lit (2 ^ (-1022 : ℤ))) fun i => do
    .ok (Rop.sub (Interval.rad (← Psa.eval (z i) deltat)) (Interval.rad (P.init i)))
  let m := Rop.div m (← tolerance P q)
  .ok (Rop.div radius (P.pw m (Rop.div (lit 1) (lit q.order))))

/-- ode.hpp:215-286, after the first evaluation of the right-hand side has succeeded -/
def candidate (P : Problem n) (q : Param) (x y : Fin n → Ser) (t : Ser) (deltat end2 : Interval D) (ret : ℤ) (radius : D)
    (restart : ℕ) (resized : Bool) : PM (Interval D) (Next n) := do
  let w ← update P y q.order
  let z ← widen q w x
  if q.autostep && decide (ret ≠ 2) && !resized then do
    let r ← lift (resizeRadius P q z deltat radius)
    if Rop.le radius r && decide (0 < restart) then verifyStep P q z t deltat end2 ret radius restart true
    else return .again r restart true
  else verifyStep P q z t deltat end2 ret radius restart resized

/-- one pass of the main loop, ode.hpp:175-286; `x` are the Taylor coefficients -/
def attempt (P : Problem n) (q : Param) (x : Fin n → Ser) (radius : D) (restart : ℕ) (resized : Bool) :
    PM (Interval D) (Next n) := do
  let (end2, radius, ret) := chooseEnd P q radius
  let deltat := Interval.sub end2 P.start
  setDomain ⟨lit 0, deltat.sup⟩
  let t ← Psa.setorder (torg P) q.order
  match ← tryDom (evalF P x t) with
  | none =>
    if q.autostep && decide (restart < q.restartMax) then do
      setUse false
      return .again (Rop.mul radius (lit (1 / 2))) (restart + 1) resized
    else lift (.error .domainError)
  | some y => candidate P q x y t deltat end2 ret radius restart resized

/-- the result of the main loop: return value, series, step, end of the step, series of the time -/
structure Out (n : ℕ) where
  ret : ℤ
  w : Fin n → Ser
  deltat : Interval D
  end2 : Interval D
  t : Ser

/-- the main loop, ode.hpp:174-287, at most `fuel` passes -/
def loop (P : Problem n) (q : Param) (x : Fin n → Ser) : ℕ → D → ℕ → Bool → PM (Interval D) (Out n)
  | 0, _, _, _ => lift (.error .outOfFuel)
  | fuel + 1, radius, restart, resized => do
    match ← attempt P q x radius restart resized with
    | .again radius restart resized => loop P q x fuel radius restart resized
    | .done ret w deltat end2 t => return ⟨ret, w, deltat, end2, t⟩

/-- further Picard steps, ode.hpp:290-301 -/
def refine (P : Problem n) (q : Param) (t : Ser) : ℕ → (Fin n → Ser) → PM (Interval D) (Fin n → Ser)
  | 0, w => return w
  | k + 1, z => do
    let y ← evalF P z t
    let w ← update P y q.order
    let w ← vec fun i => lift (do
      let b ← Psa.at' (z i) q.order
      setAt (w i) q.order fun a => .ok (Interval.intersect a b))
    refine P q t k w

/-- what `ode` returns and leaves in its reference arguments; `psa` is written to `*result_psa` -/
structure Result (n : ℕ) where
  ret : ℤ
  init : Fin n → Interval D
  stop : Interval D
  psa : Option (Fin n → Ser)

/-- ode.hpp:289-311 -/
def conclude (P : Problem n) (q : Param) (o : Out n) : PM (Interval D) (Result n) := do
  if o.ret ≠ 0 then
    let w ← refine P q o.t q.iteration o.w
    let result ← vec fun i => lift (Psa.eval (w i) o.deltat)
    return ⟨o.ret, result, if o.ret = 1 then o.end2 else P.stop, some w⟩
  else return ⟨0, P.init, P.stop, none⟩

end Ode

/-- `ode(f, init, start, end, param, &result_psa)`, ode.hpp:47-318.  The mode is saved in a `bool`.  The main loop has
`fuel` passes at most. -/
def ode {n : ℕ} [Scal (Interval D)] (fuel : ℕ) (P : Ode.Problem n) (q : Ode.Param) : PM (Interval D) (Ode.Result n) := do
  let st ← PM.get
  let saveMode : Bool := decide (st.mode ≠ 0)
  PM.setMode 1
  PM.setUse false
  PM.setRec true
  PM.setHist []
  let x ← Ode.coeffs P q.order
  let radius ← PM.lift (Ode.radius0 P q x)
  PM.setMode 2
  let o ← Ode.loop P q x fuel radius 0 false
  let r ← Ode.conclude P q o
  PM.setMode (if saveMode then 1 else 0)
  PM.setUse st.use
  PM.setRec st.record
  return r

/-- `odelong(f, init, start, end, param)`, ode.hpp:320-354, after some steps: `P.init` and `P.start` are `x` and `t`; `ret`
is `ret_val`, `init0` the original argument.  The result holds the return value and the new `init` and `end`. -/
def odelongLoop {n : ℕ} [Scal (Interval D)] (fuel : ℕ) (q : Ode.Param) (init0 : Fin n → Interval D) :
    ℕ → Ode.Problem n → ℤ → PM (Interval D) (Ode.Result n)
  | 0, _, _ => PM.lift (.error .outOfFuel)
  | k + 1, P, ret => do
    let r ← ode fuel P { q with autostep := true }
    if r.ret = 0 then
      return if ret = 1 then ⟨ret, P.init, P.start, none⟩ else ⟨ret, init0, P.stop, none⟩
    else if r.ret = 2 then return ⟨2, r.init, P.stop, none⟩
    else odelongLoop fuel q init0 k { P with init := r.init, start := r.stop } 1

/-- `odelong`, ode.hpp:320-354, with at most `k` steps -/
def odelong {n : ℕ} [Scal (Interval D)] (fuel k : ℕ) (P : Ode.Problem n) (q : Ode.Param) : PM (Interval D) (Ode.Result n) :=
  odelongLoop fuel q P.init k P 0

/-! ## `highderiv` -/

section
variable {S : Type} [Scal S]
open PM

/-- `fact *= i; p.v(i) *= fact`, highderiv.hpp:44-47, for the coefficients from the `i`-th on -/
def HD.scale : ℕ → S → List S → Res (List S)
  | _, _, [] => .ok []
  | i, fact, a :: l => do
    let fact ← Scal.binC .mul fact (lit i)
    let a ← Scal.bin .mul a fact
    let l ← HD.scale (i + 1) fact l
    .ok (a :: l)

/-- highderiv.hpp:42-48 -/
def HD.factors (divfact : Bool) (p : List S) : Res (List S) :=
  if divfact then .ok p
  else match p with
    | [] => .ok []
    | a :: l => do .ok (a :: (← HD.scale 1 Psa.one l))

/-- `highderiv(f, x, n, divfact)`, highderiv.hpp:22-55, of a function `f` on `psa<S>`; the mode is saved in a `bool` -/
def highderivF (f : List S → PM S (List S)) (x : S) (n : ℕ) (divfact : Bool) : PM S (List S) := do
  let st ← get
  let saveMode : Bool := decide (st.mode ≠ 0)
  setMode 1
  setUse false
  setRec false
  let p ← Psa.setorder [x, Psa.one] n
  let p ← f p
  let p ← Psa.setorder p n
  let p ← lift (HD.factors divfact p)
  setMode (if saveMode then 1 else 0)
  setUse st.use
  setRec st.record
  return p

/-- `highderiv` of a template function of one variable -/
def highderiv (e : Expr 1) (c : ℕ → S) (x : S) (n : ℕ) (divfact : Bool) : PM S (List S) :=
  highderivF (fun p => e.evalP c fun _ => p) x n divfact

/-- `HighDeriv(f, n)(x)`, highderiv.hpp:58-65 -/
def highDerivAt (e : Expr 1) (c : ℕ → S) (x : S) (n : ℕ) : PM S S := do
  let v ← highderiv e c x n false
  lift (Psa.at' v n)

/-- `PartialDeriv(f, j, m)(x)`, highderiv.hpp:70-103: all arguments but the `j`-th are constant series -/
def partialDeriv {k : ℕ} (e : Expr k) (c : ℕ → S) (j : Fin k) (m : ℕ) (x : Fin k → S) : PM S S := do
  let v ← highderivF (fun p => e.evalP c fun i => if i = j then p else [x i]) (x j) m false
  lift (Psa.at' v m)

end
end Kv
