import Verif.Ode.SingularAuto

/-!
# Model of `gamma` and `lgamma` (/repo/kv/gamma.hpp:14-216)

The base type is `double`.  `std::log(2.)` is an arbitrary number `lg`, `std::pow` an arbitrary function `pw` (used for step sizes
only), `digamma_zero` (gamma.hpp:534-598) an arbitrary program `dz`.  The arguments of a call are evaluated from left to right.
-/

namespace Kv
open Rop (lit)
open PM

/-- parameters: `fuel` bounds the loops of the elementary functions and the steps of the integration, `lg` stands for
`std::log(2.)`, `pw` for `std::pow`, `order` for `GAMMA_ORDER`, `dz` for `digamma_zero`, `m2` for the constant in lines 91 and 156 -/
structure GammaPar where
  fuel : ℕ
  lg : D
  pw : D → D → D
  order : ℕ
  dz : D → PM (Interval D) (Interval D)
  m2 : Interval D

namespace GammaFn

/-- `Gamma::operator()`, gamma.hpp:22-24: `pow(t, (T)x - 1) * exp(-t)`; `x` is the interval constant -/
def f : Expr 1 := .bin .mul (.pow (.var 0) (.binC .sub (.par 0) (lit 1))) (.un .exp (.un .neg (.var 0)))

/-- `Gamma_nopower::operator()`, gamma.hpp:29-31 -/
def g : Expr 1 := .un .exp (.un .neg (.var 0))

/-- `std::numeric_limits<T>::digits * std::log(2.)`, gamma.hpp:44 -/
def th (P : GammaPar) : D := Rop.mul (lit 53) P.lg

/-- conversion of a `double` to `int`: undefined if the integral part is not representable -/
def toInt : D → Res ℤ
  | .fin q _ =>
    let n := if 0 ≤ q then ⌊q⌋ else ⌈q⌉
    if -2 ^ 31 ≤ n ∧ n < 2 ^ 31 then .ok n else .error .undefined
  | _ => .error .undefined

/-- the number of passes of `for (i=0; i>=y; i--)`, gamma.hpp:77, 144, where `y` has an integral value; below `-2^31` the loop runs
into an overflow of `i`, if none of its operations throws (taken as undefined here) -/
def passes : D → Res ℕ
  | .fin q _ => if q < -2 ^ 31 then .error .undefined else .ok (1 - ⌊q⌋).toNat
  | .ninf => .error .undefined
  | _ => .ok 0

/-- `for (i=y-1; i>=1; i--) r *= x - i;`, gamma.hpp:73-75, from `i = k` -/
def mulDown (x : Interval D) : ℕ → Interval D → Interval D
  | 0, r => r
  | k + 1, r => mulDown x k (Interval.mul r (Interval.subS x (lit ((k + 1 : ℕ) : ℚ))))

/-- `for (i=0; i>=y; i--) r /= x - i;`, gamma.hpp:77-79, `k` passes from `i = -j` -/
def divDown (x : Interval D) : ℕ → ℕ → Interval D → Res (Interval D)
  | 0, _, r => .ok r
  | k + 1, j, r => do
    let r ← Interval.div r (Interval.subS x (lit (-(j : ℚ))))
    divDown x k (j + 1) r

/-- `for (i=y-1; i>=1; i--) r += log(x - i);`, gamma.hpp:140-142 -/
def addLog (fuel : ℕ) (x : Interval D) : ℕ → Interval D → Res (Interval D)
  | 0, r => .ok r
  | k + 1, r => do
    let l ← Interval.log fuel (Interval.subS x (lit ((k + 1 : ℕ) : ℚ)))
    addLog fuel x k (Interval.add r l)

/-- `for (i=0; i>=y; i--) r -= log(abs(x - i));`, gamma.hpp:144-146 -/
def subLog (fuel : ℕ) (x : Interval D) : ℕ → ℕ → Interval D → Res (Interval D)
  | 0, _, r => .ok r
  | k + 1, j, r => do
    let l ← Interval.log fuel (Interval.abs (Interval.subS x (lit (-(j : ℚ)))))
    subLog fuel x k (j + 1) (Interval.sub r l)

end GammaFn

open GammaFn

/-- `gamma_r(x)`, gamma.hpp:41-57; the default of `epsilon` in `defint_power_autostep` is `2^-52` -/
def gammaR [Scal (Interval D)] (P : GammaPar) (x : Interval D) : PM (Interval D) (Interval D) := do
  let th := Interval.point (th P)
  let result ← defintPowerAuto P.fuel ⟨f, fun _ => x, P.pw⟩ g (fun _ => x) (Interval.point (lit 0)) th P.order (Interval.subS x (lit 1)) (lit (1 / 2 ^ 52))
  let e ← lift (Interval.exp P.fuel (Interval.neg th))
  return Interval.add result ⟨lit 0, (Interval.mul e (Interval.addS th (lit 1))).sup⟩

/-- `gamma_point(x)`, gamma.hpp:59-83 -/
def gammaPoint [Scal (Interval D)] (P : GammaPar) (x : Interval D) : PM (Interval D) (Interval D) := do
  let y := Rop.floor x.inf
  if Rop.eq y (lit 1) then gammaR P x
  else do
    let r ← gammaR P (Interval.subS x (Rop.sub y (lit 1)))
    if Rop.lt (lit 1) y then do
      let i ← lift (toInt (Rop.sub y (lit 1)))
      return mulDown x i.toNat r
    else lift (do
      let k ← passes y
      divDown x k 0 r)

/-- the end of `gamma` and `lgamma`, gamma.hpp:98-103, 117-122, 163-168, 209-214: hull of the values at the ends and, if it is in `x`, at the
zero of the derivative; `point` is `gamma_point` or `lgamma_point` -/
def gammaHull (point : Interval D → PM (Interval D) (Interval D)) (x m : Interval D) : PM (Interval D) (Interval D) := do
  let a ← point (Interval.point x.inf)
  let b ← point (Interval.point x.sup)
  let tmp := Interval.hull a b
  if Interval.overlap x m then do
    let c ← point m
    return Interval.hull tmp c
  else return tmp

/-- `gamma(x)`, gamma.hpp:87-123 -/
def gamma [Scal (Interval D)] (P : GammaPar) (x : Interval D) : PM (Interval D) (Interval D) := do
  if Rop.lt (lit 0) x.inf then do
    let m ← P.dz x.inf
    gammaHull (gammaPoint P) x (if Interval.zeroIn m then P.m2 else m)
  else if !Rop.eq (Rop.floor x.inf) (Rop.floor x.sup) then return Interval.whole
  else if Rop.eq (Rop.floor x.inf) x.inf then return Interval.whole
  else do
    let m ← P.dz x.inf
    if Interval.zeroIn m then gammaPoint P x
    else gammaHull (gammaPoint P) x m

/-- `lgamma_point(x)`, gamma.hpp:125-150 -/
def lgammaPoint [Scal (Interval D)] (P : GammaPar) (x : Interval D) : PM (Interval D) (Interval D) := do
  let y := Rop.floor x.inf
  if Rop.eq y (lit 1) then do
    let r ← gammaR P x
    lift (Interval.log P.fuel r)
  else do
    let r ← gammaR P (Interval.subS x (Rop.sub y (lit 1)))
    let r ← lift (Interval.log P.fuel r)
    if Rop.lt (lit 1) y then lift (do
      let i ← toInt (Rop.sub y (lit 1))
      addLog P.fuel x i.toNat r)
    else lift (do
      let k ← passes y
      subLog P.fuel x k 0 r)

/-- the branch of `lgamma` for an interval with a pole inside, gamma.hpp:171-199: the value of `tmp` from lines 176-179 is overwritten in line 184 -/
def lgammaPole [Scal (Interval D)] (P : GammaPar) (x : Interval D) : PM (Interval D) (Interval D) := do
  let m ← P.dz x.inf
  if Interval.zeroIn m then return Interval.whole
  else do
    let _ ← gammaHull (lgammaPoint P) x m
    let m ← P.dz (Interval.addS x (lit 1)).inf
    if Interval.zeroIn m then return Interval.whole
    else do
      let tmp ← gammaHull (lgammaPoint P) x m
      let tmp ← (if Rop.lt (lit 0) x.sup then do
          let m ← P.dz (lit (3 / 2))
          let m := if Interval.zeroIn m then P.m2 else m
          if Interval.overlap x m then do
            let c ← lgammaPoint P m
            return Interval.hull tmp c
          else return tmp
        else return tmp : PM (Interval D) (Interval D))
      return ⟨tmp.inf, Rop.inf⟩

/-- `lgamma(x)`, gamma.hpp:152-215 -/
def lgamma [Scal (Interval D)] (P : GammaPar) (x : Interval D) : PM (Interval D) (Interval D) := do
  if Rop.lt (lit 0) x.inf then do
    let m ← P.dz x.inf
    gammaHull (lgammaPoint P) x (if Interval.zeroIn m then P.m2 else m)
  else if !Rop.eq (Rop.floor x.inf) (Rop.floor x.sup) then lgammaPole P x
  else if Rop.eq (Rop.floor x.inf) x.inf then return ⟨Rop.maxv, Rop.inf⟩
  else do
    let m ← P.dz x.inf
    if Interval.zeroIn m then lgammaPoint P x
    else gammaHull (lgammaPoint P) x m

end Kv
