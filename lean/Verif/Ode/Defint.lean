import Verif.Ode.Model

/-!
# Model of `defint`, `defint_autostep` (/repo/kv/defint.hpp) and `besselj(int, interval)` (/repo/kv/bessel.hpp)

The base type is `double`; the integrand is a template function of one variable.  `std::pow`, which is used for the choice of
the step only, is an arbitrary function.  The macros have their default values (`DEFINT_FAST` 1, `RESTART_MAX` 10,
`DEFINT_STEPSIZE_MAG` and `DEFINT_SHOW_STEPSIZE` not defined).
-/

namespace Kv
open Rop (lit)

namespace Defint
open PM Kraw

/-- the integrand, the interval constants in it, and `std::pow` -/
structure Integrand where
  f : Expr 1
  p : ℕ → Interval D
  pw : D → D → D

variable [Scal (Interval D)]

/-- `f(x)` -/
def evalF (P : Integrand) (x : Ode.Ser) : PM (Interval D) Ode.Ser := P.f.evalP P.p fun _ => x

/-- `x.v.resize(2); x.v(1) = 1.; x = setorder(x, order)`, defint.hpp:40-43, 105-108.  The first element, which is
default-constructed, is overwritten before it is used. -/
def startSeries (order : ℤ) : PM (Interval D) Ode.Ser := Psa.setorder [Psa.zero, Psa.one] order

/-- one piece, defint.hpp:58-62: `c` is the midpoint -/
def piece (P : Integrand) (x : Ode.Ser) (c r : Interval D) : PM (Interval D) (Interval D) := do
  let y ← evalF P (x.set 0 c)
  lift (do
    let y ← Psa.integrate y
    let a ← Psa.eval y r
    let b ← Psa.eval y (Interval.neg r)
    .ok (Interval.sub a b))

/-- the loop in defint.hpp:57-76, after `i` passes -/
def sumLoop (P : Integrand) (x : Ode.Ser) (start step r : Interval D) : ℕ → PM (Interval D) (Interval D)
  | 0 => return ⟨lit 0, lit 0⟩
  | i + 1 => do
    let result ← sumLoop P x start step r i
    let c := Interval.add (Interval.add start (Interval.sMul (lit i) step)) r
    let z ← piece P x c r
    return Interval.add result z

end Defint

/-- `defint(f, start, end, order, n)`, defint.hpp:28-82; `mode` is saved in a `bool` -/
def defint [Scal (Interval D)] (P : Defint.Integrand) (start stop : Interval D) (order n : ℤ) : PM (Interval D) (Interval D) := do
  let step ← PM.lift (Interval.divS (Interval.sub stop start) (lit n))
  let r := Interval.mulS step (lit (1 / 2))
  let x ← Defint.startSeries order
  let st ← PM.get
  PM.setMode 2
  PM.setUse false
  PM.setRec false
  PM.setDomain (Interval.hull (Interval.neg r) r)
  let result ← Defint.sumLoop P x start step r n.toNat
  PM.setMode (if st.mode ≠ 0 then 1 else 0)
  PM.setUse st.use
  PM.setRec st.record
  return result

namespace Defint
open PM Kraw
variable [Scal (Interval D)]

/-- `tolerance`, defint.hpp:114 -/
def tolerance (result : Interval D) (epsilon : D) : D := Rop.mul (stdMax (lit 1) (Interval.norm result)) epsilon

/-- the loop in defint.hpp:132-143 -/
def radiusLoop (P : Integrand) (y : Ode.Ser) : ℕ → D → ℕ → Res D
  | 0, radius, _ => .ok radius
  | i + 1, radius, nRad => do
    let m := Interval.mig (← Psa.at' y (i + 1))
    if Rop.eq m (lit 0) then radiusLoop P y i radius nRad
    else
      let tmp := P.pw m (Rop.div (lit 1) (lit (i + 1)))
      let radius := if Rop.lt radius tmp then tmp else radius
      if nRad + 1 = 2 then .ok radius else radiusLoop P y i radius (nRad + 1)

/-- the first step size, from the Taylor coefficients of the antiderivative: defint.hpp:116-144 -/
def radius0 (P : Integrand) (order : ℕ) (x : Ode.Ser) (tol : D) : PM (Interval D) D := do
  setMode 1
  setUse false
  setRec true
  setHist []
  let y ← evalF P x
  let y ← lift (Psa.integrate y)
  let y ← Psa.setorder y (order + 1)
  lift (do
    let r ← radiusLoop P y (order + 1) (lit 0) 0
    .ok (Rop.div (P.pw tol (Rop.div (lit 1) (lit (order + 1)))) r))

/-- what is chosen at the beginning of an attempt -/
structure Choice where
  flag : Bool
  t1 : Interval D
  step : Interval D
  radius : D
  resized : Bool

/-- end of the step, defint.hpp:155-172 -/
def choose (t stop : Interval D) (radius : D) (resized : Bool) : Choice :=
  let step := Interval.sub stop t
  if Interval.subset step ⟨Rop.neg radius, radius⟩ then ⟨true, stop, step, Interval.mag step, true⟩
  else
    let t1 := Interval.point (if Rop.lt (lit 0) step.inf then Interval.mid (Interval.addS t radius) else Interval.mid (Interval.subS t radius))
    ⟨false, t1, Interval.sub t1 t, radius, resized⟩

/-- the step size after the first success, defint.hpp:196-201 -/
def resize (P : Integrand) (order : ℕ) (tol radius : D) (restart : ℕ) (z : Interval D) : D :=
  let m := P.pw (Rop.div (Interval.rad z) tol) (Rop.div (lit 1) (lit (order + 1)))
  if 0 < restart then Rop.div radius (stdMax (lit 1) m) else Rop.div radius m

/-- the evaluation in a step: `y = integrate(f(x))`, defint.hpp:177 -/
def evalStep (P : Integrand) (x : Ode.Ser) : PM (Interval D) Ode.Ser := do
  let y ← evalF P x
  lift (Psa.integrate y)

/-- the inner loop, defint.hpp:154-202, at most `k` passes; the result holds `z`, `flag`, `t1` -/
def stepLoop (P : Integrand) (order : ℕ) (x : Ode.Ser) (t stop : Interval D) (tol : D) :
    ℕ → D → ℕ → Bool → PM (Interval D) (Interval D × Bool × Interval D)
  | 0, _, _, _ => lift (.error .outOfFuel)
  | k + 1, radius, restart, resized => do
    let c := choose t stop radius resized
    setDomain (Interval.sHull (lit 0) c.step)
    match ← tryDom (evalStep P x) with
    | none =>
      if restart < 10 then do
        setUse false
        stepLoop P order x t stop tol k (Rop.mul c.radius (lit (1 / 2))) (restart + 1) c.resized
      else lift (.error .domainError)
    | some y => do
      let z ← lift (Psa.eval y c.step)
      if c.resized then return (z, c.flag, c.t1)
      else stepLoop P order x t stop tol k (resize P order tol c.radius restart z) restart true

/-- the outer loop, defint.hpp:113-211, at most `fuel` passes.  12 passes of the inner loop are always enough. -/
def autoLoop (P : Integrand) (order : ℕ) (stop : Interval D) (epsilon : D) :
    ℕ → Ode.Ser → Interval D → Interval D → PM (Interval D) (Interval D)
  | 0, _, _, _ => lift (.error .outOfFuel)
  | fuel + 1, x, t, result => do
    let tol := tolerance result epsilon
    let x := x.set 0 t
    let radius ← radius0 P order x tol
    setMode 2
    setUse true
    let (z, flag, t1) ← stepLoop P order x t stop tol 12 radius 0 false
    let result := Interval.add result z
    if flag then return result else autoLoop P order stop epsilon fuel x t1 result

end Defint

/-- `defint_autostep(f, start, end, order, epsilon)`, defint.hpp:86-218, at most `fuel` steps; `mode` is saved in a `bool`;
negative orders are not modelled -/
def defintAutostep [Scal (Interval D)] (fuel : ℕ) (P : Defint.Integrand) (start stop : Interval D) (order : ℕ) (epsilon : D) :
    PM (Interval D) (Interval D) := do
  let st ← PM.get
  PM.setUse false
  PM.setRec false
  let x ← Defint.startSeries order
  let r ← Defint.autoLoop P order stop epsilon fuel x start ⟨lit 0, lit 0⟩
  PM.setMode (if st.mode ≠ 0 then 1 else 0)
  PM.setUse st.use
  PM.setRec st.record
  return r

/-- the integrand `cos(x * sin(s) - n * s)`, bessel.hpp:25-27: `s` is the variable, `x` the interval constant -/
def besseljF (n : ℤ) : Expr 1 := .un .cos (.bin .sub (.bin .mul (.par 0) (.un .sin (.var 0))) (.cBin .mul (lit n) (.var 0)))

/-- `besselj(int n, interval<double> x)`, bessel.hpp:30-34, with the default `epsilon` (defint.hpp:86); `fuel` bounds the steps of
the integration, `fuelPi` the series of `constants::pi()`, `pw` is `std::pow` -/
def besselj [Scal (Interval D)] (fuel fuelPi : ℕ) (pw : D → D → D) (n : ℤ) (x : Interval D) : PM (Interval D) (Interval D) := do
  let p ← PM.lift (Interval.constPi fuelPi)
  let z ← defintAutostep fuel ⟨besseljF n, fun _ => x, pw⟩ (Interval.point (lit 0)) p 12 (lit (1 / 2 ^ 52))
  PM.lift (Interval.div z p)

end Kv
