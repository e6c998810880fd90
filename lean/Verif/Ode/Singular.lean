import Verif.Ode.Defint

/-!
# Model of the integrators for singular integrands (/repo/kv/defint-singular.hpp)

The base type is `double`; `f`, `g` are template functions of one variable.  The macros have their default values.
-/

namespace Kv
open Rop (lit)

namespace Defint
open PM Kraw

variable [Scal (Interval D)]

/-- `div_tn(x, n)`, defint-singular.hpp:20-35: a negative `n` reads, and `n` larger than the size writes, outside of a vector -/
def divTn (x : Ode.Ser) (n : ℤ) : Res Ode.Ser :=
  if n < 0 ∨ (x.length : ℤ) < n then .error .undefined
  else .ok (x.drop n.toNat ++ List.replicate n.toNat Psa.zero)

/-- `div_reduce(x, y, n)`, defint-singular.hpp:41-64 -/
def divReduce (x y : Ode.Ser) (n : ℤ) : PM (Interval D) Ode.Ser := do
  let nx ← lift (divTn x n)
  let ny ← lift (divTn y n)
  Psa.div nx ny

/-- `f(x)` for a template function with interval constants `p` -/
def evalE (f : Expr 1) (p : ℕ → Interval D) (x : Ode.Ser) : PM (Interval D) Ode.Ser := f.evalP p fun _ => x

/-- `x.v.resize(2); x.v(0) = start; x.v(1) = 1; x = setorder(x, order)`, e.g. defint-singular.hpp:157-160 -/
def startAt (start : Interval D) (order : ℤ) : PM (Interval D) Ode.Ser := Psa.setorder [start, Psa.one] order

/-- `pow(div_tn(f(x), multiplicity), power) * g(x)`, defint-singular.hpp:162 -/
def powerTerm (f g : Expr 1) (p : ℕ → Interval D) (x : Ode.Ser) (power : Interval D) (mult : ℤ) : PM (Interval D) Ode.Ser := do
  let y ← evalE f p x
  let y ← lift (divTn y mult)
  let y ← Psa.pow y [power]
  let z ← evalE g p x
  Psa.mul y z

/-- the loop in defint-singular.hpp:169-173 over the coefficients -/
def powerSum (step : Interval D) : Ode.Ser → Interval D → Interval D → Interval D → Res (Interval D)
  | [], _, _, result => .ok result
  | y :: l, tx, tp, result => do
    let q ← Interval.div (Interval.mul y tx) tp
    powerSum step l (Interval.mul tx step) (Interval.addS tp (lit 1)) (Interval.add result q)

/-- defint-singular.hpp:166-173 -/
def powerResult (fuel : ℕ) (step power : Interval D) (mult : ℤ) (y : Ode.Ser) : Res (Interval D) := do
  let tp := Interval.addS (Interval.mulS power (lit mult)) (lit 1)
  let tx ← Interval.pow fuel step tp
  powerSum step y tx tp ⟨lit 0, lit 0⟩

/-- the static members are saved, set for mode 2 without history, and restored after a normal return, e.g.
defint-singular.hpp:148-155, 175-177; `mode` is saved in a `bool` -/
def inMode2 {α : Type} (step : Interval D) (m : PM (Interval D) α) : PM (Interval D) α := do
  let st ← get
  setMode 2
  setUse false
  setRec false
  setDomain (Interval.sHull (lit 0) step)
  let r ← m
  setMode (if st.mode ≠ 0 then 1 else 0)
  setUse st.use
  setRec st.record
  return r

end Defint

open Defint PM Kraw

variable [Scal (Interval D)]

/-- `defint_power3(f, g, start, end, order, power, multiplicity)`, defint-singular.hpp:138-180; `fuel` bounds the loops of
`pow(interval, interval)` -/
def defintPower3 (fuel : ℕ) (f g : Expr 1) (p : ℕ → Interval D) (start stop : Interval D) (order : ℤ) (power : Interval D) (mult : ℤ) :
    PM (Interval D) (Interval D) :=
  let step := Interval.sub stop start
  inMode2 step do
    let x ← startAt start order
    let y ← powerTerm f g p x power mult
    let y ← Psa.setorder y order
    lift (powerResult fuel step power mult y)

/-- the function `f(x) = x`, defint-singular.hpp:67-71 -/
def fnX : Expr 1 := .var 0
/-- the function `f(x) = 1`, defint-singular.hpp:84-88 -/
def fnOne : Expr 1 := .cst (lit 1)

/-- `Defint_Reverse`, defint-singular.hpp:91-98: `f(-x)`.  In the code `-x` is computed once, here at every occurrence of the
variable. -/
def reverse : Expr 1 → Expr 1
  | .var i => .un .neg (.var i)
  | .par i => .par i
  | .cst k => .cst k
  | .un f a => .un f (reverse a)
  | .bin o a b => .bin o (reverse a) (reverse b)
  | .binC o a k => .binC o (reverse a) k
  | .cBin o k b => .cBin o k (reverse b)
  | .powI a y => .powI (reverse a) y
  | .pow a b => .pow (reverse a) (reverse b)

/-- `defint_power(f, start, end, order, power)`, defint-singular.hpp:185-189 -/
def defintPower (fuel : ℕ) (f : Expr 1) (p : ℕ → Interval D) (start stop : Interval D) (order : ℤ) (power : Interval D) :
    PM (Interval D) (Interval D) := defintPower3 fuel fnX f p start stop order power 1

/-- `defint_power2(f, start, end, order, power, multiplicity)`, defint-singular.hpp:197-201 -/
def defintPower2 (fuel : ℕ) (f : Expr 1) (p : ℕ → Interval D) (start stop : Interval D) (order : ℤ) (power : Interval D) (mult : ℤ) :
    PM (Interval D) (Interval D) := defintPower3 fuel f fnOne p start stop order power mult

/-- `defint_power3_r(..)`, defint-singular.hpp:751-755 -/
def defintPower3R (fuel : ℕ) (f g : Expr 1) (p : ℕ → Interval D) (start stop : Interval D) (order : ℤ) (power : Interval D) (mult : ℤ) :
    PM (Interval D) (Interval D) :=
  defintPower3 fuel (reverse f) (reverse g) p (Interval.neg stop) (Interval.neg start) order power mult

/-- `defint_power_r(..)`, defint-singular.hpp:757-761 -/
def defintPowerR (fuel : ℕ) (f : Expr 1) (p : ℕ → Interval D) (start stop : Interval D) (order : ℤ) (power : Interval D) :
    PM (Interval D) (Interval D) :=
  defintPower3 fuel fnX (reverse f) p (Interval.neg stop) (Interval.neg start) order power 1

/-- `defint_power2_r(..)`, defint-singular.hpp:763-767 -/
def defintPower2R (fuel : ℕ) (f : Expr 1) (p : ℕ → Interval D) (start stop : Interval D) (order : ℤ) (power : Interval D) (mult : ℤ) :
    PM (Interval D) (Interval D) :=
  defintPower3 fuel (reverse f) fnOne p (Interval.neg stop) (Interval.neg start) order power mult

namespace Defint

/-- the loop in defint-singular.hpp:250-253 over the coefficients; `(i+1) * (i+1)` is a product of `int`s -/
def logSum (step logx : Interval D) : Ode.Ser → ℕ → Interval D → Interval D → Res (Interval D)
  | [], _, _, result => .ok result
  | y :: l, i, xn, result => do
    if 2 ^ 31 ≤ (i + 1) * (i + 1) then .error .undefined
    else do
      let w := Interval.subS (Interval.sMul (lit (i + 1)) logx) (lit 1)
      let q ← Interval.divS (Interval.mul (Interval.mul y xn) w) (lit ((i + 1) * (i + 1)))
      logSum step logx l (i + 1) (Interval.mul xn step) (Interval.add result q)

/-- `integrate(log(div_tn(y, multiplicity)) * g(x))`, defint-singular.hpp:241 -/
def logTerm (g : Expr 1) (p : ℕ → Interval D) (x y : Ode.Ser) (mult : ℤ) : PM (Interval D) Ode.Ser := do
  let y ← lift (divTn y mult)
  let y ← Psa.log y
  let z ← evalE g p x
  let y ← Psa.mul y z
  lift (Psa.integrate y)

end Defint

/-- `defint_log3(f, g, start, end, order, multiplicity)`, defint-singular.hpp:210-261; `fuel` bounds the loops of `log(interval)` -/
def defintLog3 (fuel : ℕ) (f g : Expr 1) (p : ℕ → Interval D) (start stop : Interval D) (order mult : ℤ) : PM (Interval D) (Interval D) :=
  let step := Interval.sub stop start
  inMode2 step do
    let x ← startAt start (order + mult)
    let y ← evalE f p x
    let y ← Psa.setorder y (order + mult)
    let y ← logTerm g p x y mult
    let result ← lift (Psa.eval y step)
    let x ← Psa.setorder x order
    let y ← evalE g p x
    let y ← Psa.cMul (lit mult) y
    let y ← Psa.setorder y order
    lift (do
      let logx ← Interval.log fuel step
      logSum step logx y 0 step result)

/-- `defint_log(f, start, end, order)`, defint-singular.hpp:267-271 -/
def defintLog (fuel : ℕ) (f : Expr 1) (p : ℕ → Interval D) (start stop : Interval D) (order : ℤ) : PM (Interval D) (Interval D) :=
  defintLog3 fuel fnX f p start stop order 1

/-- `defint_log2(f, start, end, order, multiplicity)`, defint-singular.hpp:280-284 -/
def defintLog2 (fuel : ℕ) (f : Expr 1) (p : ℕ → Interval D) (start stop : Interval D) (order mult : ℤ) : PM (Interval D) (Interval D) :=
  defintLog3 fuel f fnOne p start stop order mult

/-- `defint_log3_r(..)`, defint-singular.hpp:769-773 -/
def defintLog3R (fuel : ℕ) (f g : Expr 1) (p : ℕ → Interval D) (start stop : Interval D) (order mult : ℤ) : PM (Interval D) (Interval D) :=
  defintLog3 fuel (reverse f) (reverse g) p (Interval.neg stop) (Interval.neg start) order mult

/-- `defint_log_r(..)`, defint-singular.hpp:775-779 -/
def defintLogR (fuel : ℕ) (f : Expr 1) (p : ℕ → Interval D) (start stop : Interval D) (order : ℤ) : PM (Interval D) (Interval D) :=
  defintLog3 fuel fnX (reverse f) p (Interval.neg stop) (Interval.neg start) order 1

/-- `defint_log2_r(..)`, defint-singular.hpp:781-785 -/
def defintLog2R (fuel : ℕ) (f : Expr 1) (p : ℕ → Interval D) (start stop : Interval D) (order mult : ℤ) : PM (Interval D) (Interval D) :=
  defintLog3 fuel (reverse f) fnOne p (Interval.neg stop) (Interval.neg start) order mult

/-- `defint_singular(f, start, end, order)`, defint-singular.hpp:293-324; the integrand is an arbitrary program on series -/
def defintSingular (f : Ode.Ser → PM (Interval D) Ode.Ser) (start stop : Interval D) (order : ℤ) : PM (Interval D) (Interval D) :=
  let step := Interval.sub stop start
  inMode2 step do
    let x ← startAt start order
    let y ← f x
    lift (do
      let y ← Psa.integrate y
      Psa.eval y step)

end Kv
