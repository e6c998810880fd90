import Verif.Ode.Singular

/-!
# Model of the integrators for singular integrands with automatic step size (/repo/kv/defint-singular.hpp:326-744, 795-837)

`std::pow` is an arbitrary function, `std::log(0.1)` an arbitrary value; both are used for the choice of the step only.  The macros
have their default values (`DEFINT_FAST` 1, `RESTART_MAX` 10, `DEFINT_STEPSIZE_MAG` and `DEFINT_SHOW_STEPSIZE` not defined).
Negative orders are not modelled.
-/

namespace Kv
open Rop (lit)

namespace Defint
open PM Kraw

variable [Scal (Interval D)]

/-- `1./((double)mid(power)+i+1)` in the loop of `defint_power3_autostep`, defint-singular.hpp:366-380: the denominator -/
def powDen (power : Interval D) (i : ℕ) : D := Rop.add (Rop.add (Interval.mid power) (lit i)) (lit 1)

/-- the loop in defint-singular.hpp:366-379 -/
def powRadius (pw : D → D → D) (power : Interval D) (y : Ode.Ser) : ℕ → D → ℕ → Res D
  | 0, radius, _ => .ok radius
  | i + 1, radius, nRad => do
    let q ← Interval.divS (← Psa.at' y (i + 1)) (powDen power (i + 1))
    let m := Interval.mig q
    if Rop.eq m (lit 0) then powRadius pw power y i radius nRad
    else
      let tmp := pw m (Rop.div (lit 1) (powDen power (i + 1)))
      let radius := if Rop.lt radius tmp then tmp else radius
      if nRad + 1 = 2 then .ok radius else powRadius pw power y i radius (nRad + 1)

/-- the step size after the first success, e.g. defint-singular.hpp:437-442; `e` is the exponent -/
def resizeS (pw : D → D → D) (e epsilon radius : D) (restart : ℕ) (z : Interval D) : D :=
  let m := pw (Rop.div (Interval.rad z) epsilon) e
  if 0 < restart then Rop.div radius (stdMax (lit 1) m) else Rop.div radius m

/-- the loop in defint-singular.hpp:388-443, 539-596, 682-732, at most `k` passes: `attempt` is inside of the `try` block, `finish` after
it; the result holds `result`, `flag`, `t1` -/
def singLoop {α : Type} (start stop : Interval D) (attempt : Interval D → PM (Interval D) α) (finish : Interval D → α → Res (Interval D))
    (resize : D → ℕ → Interval D → D) : ℕ → D → ℕ → Bool → PM (Interval D) (Interval D × Bool × Interval D)
  | 0, _, _, _ => lift (.error .outOfFuel)
  | k + 1, radius, restart, resized => do
    let c := choose start stop radius resized
    setDomain (Interval.sHull (lit 0) c.step)
    match ← tryDom (attempt c.step) with
    | none =>
      if restart < 10 then do
        setUse false
        singLoop start stop attempt finish resize k (Rop.mul c.radius (lit (1 / 2))) (restart + 1) c.resized
      else lift (.error .domainError)
    | some y => do
      let z ← lift (finish c.step y)
      if c.resized then return (z, c.flag, c.t1)
      else singLoop start stop attempt finish resize k (resize c.radius restart z) restart true

/-- the static members are saved, and restored after the loop; then the rest is integrated without singularity: defint-singular.hpp:344-348,
449-455.  `first` computes the step size, `rest` is the integrand for the rest. -/
def autoFrame {α : Type} (fuel : ℕ) (rest : Integrand) (start stop : Interval D) (order : ℕ) (epsilon : D)
    (first : PM (Interval D) (D × (Interval D → PM (Interval D) α))) (finish : Interval D → α → Res (Interval D))
    (resize : D → ℕ → Interval D → D) : PM (Interval D) (Interval D) := do
  let st ← get
  setUse false
  setRec false
  let (radius, attempt) ← first
  setMode 2
  setUse true
  let (result, flag, t1) ← singLoop start stop attempt finish resize 12 radius 0 false
  setMode (if st.mode ≠ 0 then 1 else 0)
  setUse st.use
  setRec st.record
  if flag then return result
  else do
    let r ← defintAutostep fuel rest t1 stop order epsilon
    return Interval.add result r

/-- `mode() = 1`, recording without reuse from an empty history, defint-singular.hpp:355-360 -/
def recordMode1 : PM (Interval D) Unit := do
  setMode 1
  setUse false
  setRec true
  setHist []

end Defint

open Defint PM Kraw

variable [Scal (Interval D)]

/-- `defint_power3_autostep(h, f, g, start, end, order, power, multiplicity, epsilon)`, defint-singular.hpp:330-456.  `fuel` bounds the
loops of `pow(interval, interval)` and the steps of `defint_autostep`; `h` has its own interval constants in `rest`. -/
def defintPower3Auto (fuel : ℕ) (rest : Integrand) (f g : Expr 1) (p : ℕ → Interval D) (start stop : Interval D) (order : ℕ)
    (power : Interval D) (mult : ℤ) (epsilon : D) : PM (Interval D) (Interval D) :=
  autoFrame fuel rest start stop order epsilon (do
      let x ← startAt start order
      recordMode1
      let y ← powerTerm f g p x power mult
      let y ← Psa.setorder y order
      let r ← lift (powRadius rest.pw power y order (lit 0) 0)
      return (Rop.div (rest.pw epsilon (Rop.div (lit 1) (powDen power order))) r, fun _ => powerTerm f g p x power mult))
    (fun step y => powerResult fuel step power mult y)
    (resizeS rest.pw (Rop.div (lit 1) (powDen power order)) epsilon)

/-- `defint_power_autostep(f1, f2, ..)`, defint-singular.hpp:458-462 -/
def defintPowerAuto (fuel : ℕ) (rest : Integrand) (f : Expr 1) (p : ℕ → Interval D) (start stop : Interval D) (order : ℕ)
    (power : Interval D) (epsilon : D) : PM (Interval D) (Interval D) :=
  defintPower3Auto fuel rest fnX f p start stop order power 1 epsilon

/-- `defint_power2_autostep(f1, f2, ..)`, defint-singular.hpp:464-468 -/
def defintPower2Auto (fuel : ℕ) (rest : Integrand) (f : Expr 1) (p : ℕ → Interval D) (start stop : Interval D) (order : ℕ)
    (power : Interval D) (mult : ℤ) (epsilon : D) : PM (Interval D) (Interval D) :=
  defintPower3Auto fuel rest f fnOne p start stop order power mult epsilon

/-- `Defint_Reverse` of the integrand for the rest -/
def Defint.Integrand.reverse (P : Defint.Integrand) : Defint.Integrand := ⟨Kv.reverse P.f, P.p, P.pw⟩

/-- `defint_power_autostep_r(f1, f2, ..)`, defint-singular.hpp:799-803 -/
def defintPowerAutoR (fuel : ℕ) (rest : Integrand) (f : Expr 1) (p : ℕ → Interval D) (start stop : Interval D) (order : ℕ)
    (power : Interval D) (epsilon : D) : PM (Interval D) (Interval D) :=
  defintPower3Auto fuel rest.reverse fnX (reverse f) p (Interval.neg stop) (Interval.neg start) order power 1 epsilon

namespace Defint

/-- `m` in the loop of `defint_log3_autostep`, defint-singular.hpp:522-523: `lg` is `std::log(0.1)`; `std::max(m, mig(y(i+1)))` -/
def logM (lg : D) (y y2 : Ode.Ser) (i : ℕ) : Res D := do
  let w := Rop.sub (Rop.mul (lit (i + 1)) lg) (lit 1)
  let q ← Interval.divS (Interval.mulS (← Psa.at' y2 i) w) (lit (i + 1))
  let q ← Interval.divS q (lit (i + 1))
  .ok (stdMax (Interval.mig q) (Interval.mig (← Psa.at' y (i + 1))))

/-- the loop in defint-singular.hpp:515-530 -/
def logRadius (pw : D → D → D) (lg : D) (y y2 : Ode.Ser) : ℕ → D → ℕ → Res D
  | 0, radius, _ => .ok radius
  | i + 1, radius, nRad => do
    let m ← logM lg y y2 (i + 1)
    if Rop.eq m (lit 0) then logRadius pw lg y y2 i radius nRad
    else
      let tmp := pw m (Rop.div (lit 1) (lit (i + 2)))
      let radius := if Rop.lt radius tmp then tmp else radius
      if nRad + 1 = 2 then .ok radius else logRadius pw lg y y2 i radius (nRad + 1)

end Defint

/-- `defint_log3_autostep(h, f, g, start, end, order, multiplicity, epsilon)`, defint-singular.hpp:472-609.  In an attempt `x` is set to
the order `order + multiplicity` from the value before the loop (in the code from the value which the previous attempt left, which
has the same first two elements and zeros). -/
def defintLog3Auto (fuel : ℕ) (rest : Integrand) (lg : D) (f g : Expr 1) (p : ℕ → Interval D) (start stop : Interval D) (order : ℕ)
    (mult : ℤ) (epsilon : D) : PM (Interval D) (Interval D) :=
  autoFrame fuel rest start stop order epsilon (do
      recordMode1
      let x ← startAt start (order + mult)
      let y ← evalE f p x
      let y ← Psa.setorder y (order + mult)
      let y ← logTerm g p x y mult
      let x ← Psa.setorder x order
      let y2 ← evalE g p x
      let y2 ← Psa.cMul (lit mult) y2
      let y2 ← Psa.setorder y2 order
      let r ← lift (logRadius rest.pw lg y y2 order (lit 0) 0)
      return (Rop.div (rest.pw epsilon (Rop.div (lit 1) (lit (order + 1)))) r, fun step => do
        let x ← Psa.setorder x (order + mult)
        let y ← evalE f p x
        let y ← logTerm g p x y mult
        let result ← lift (Psa.eval y step)
        let x ← Psa.setorder x order
        let y ← evalE g p x
        let y ← Psa.cMul (lit mult) y
        return (result, y)))
    (fun step ry => do
      let logx ← Interval.log fuel step
      logSum step logx ry.2 0 step ry.1)
    (resizeS rest.pw (Rop.div (lit 1) (lit (order + 1))) epsilon)

/-- `defint_log_autostep(f1, f2, ..)`, defint-singular.hpp:611-615 -/
def defintLogAuto (fuel : ℕ) (rest : Integrand) (lg : D) (f : Expr 1) (p : ℕ → Interval D) (start stop : Interval D) (order : ℕ)
    (epsilon : D) : PM (Interval D) (Interval D) := defintLog3Auto fuel rest lg fnX f p start stop order 1 epsilon

/-- `defint_log2_autostep(f1, f2, ..)`, defint-singular.hpp:617-621 -/
def defintLog2Auto (fuel : ℕ) (rest : Integrand) (lg : D) (f : Expr 1) (p : ℕ → Interval D) (start stop : Interval D) (order : ℕ)
    (mult : ℤ) (epsilon : D) : PM (Interval D) (Interval D) := defintLog3Auto fuel rest lg f fnOne p start stop order mult epsilon

/-- `defint_singular_autostep(f1, f2, start, end, order, epsilon)`, defint-singular.hpp:624-744; `f1` is in `rest`, `f2` an arbitrary
program on series.  The order is at least 1. -/
def defintSingularAuto (fuel : ℕ) (rest : Integrand) (f : Ode.Ser → PM (Interval D) Ode.Ser) (start stop : Interval D) (order : ℕ)
    (epsilon : D) : PM (Interval D) (Interval D) :=
  autoFrame fuel rest start stop order epsilon (do
      let x ← startAt start ((order : ℤ) - 1)
      recordMode1
      let y ← f x
      let y ← lift (Psa.integrate y)
      let y ← Psa.setorder y order
      let r ← lift (radiusLoop rest y order (lit 0) 0)
      return (Rop.div (rest.pw epsilon (Rop.div (lit 1) (lit order))) r, fun _ => do
        let y ← f x
        lift (Psa.integrate y)))
    (fun step y => Psa.eval y step)
    (resizeS rest.pw (Rop.div (lit 1) (lit order)) epsilon)

end Kv
