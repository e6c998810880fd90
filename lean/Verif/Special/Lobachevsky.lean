import Verif.Special.Gamma

/-!
# Model of `lobachevsky` (/repo/kv/lobachevsky.hpp)

The base type is `double`.  `defint_log2_autostep(Lobachevsky(), Lobachevsky_nolog(), 0, x, order)`, the integral of `log(2 sin u)` from 0 to `x`, is an arbitrary program `dl` of `x`.
-/

namespace Kv
open Rop (lit)
open PM Kv.Interval

namespace Loba

/-- `lobachevsky_origin(x)`, lobachevsky.hpp:35-46 -/
def origin (dl : Interval D → PM (Interval D) (Interval D)) (x : Interval D) : PM (Interval D) (Interval D) := do
  if eqIS x (lit 0) then return Interval.point (lit 0)
  else do
    let r ← dl x
    return neg r

/-- `lobachevsky_point(x)`, lobachevsky.hpp:48-64, with at most the given number of recursive calls; `pi` is the constant; the arguments of `hull` are evaluated from left to right -/
def point (dl : Interval D → PM (Interval D) (Interval D)) (pi : Interval D) : ℕ → Interval D → PM (Interval D) (Interval D)
  | 0, _ => lift (.error .outOfFuel)
  | f + 1, x => do
    if Rop.le (mulS pi half).sup x.inf then point dl pi f (sub x pi)
    else if zeroIn x then do
      let a ← origin dl ⟨lit 0, Rop.neg x.inf⟩
      let b ← origin dl ⟨lit 0, x.sup⟩
      return hull (neg a) b
    else if Rop.lt (lit 0) x.inf then origin dl x
    else do
      let a ← origin dl (neg x)
      return neg a

/-- the `if`s at the end of `lobachevsky`, lobachevsky.hpp:90-101 -/
def extrema (pi16 m x2 r : Interval D) : Interval D :=
  let r := if subset (neg pi16) x2 then hull r (neg m) else r
  let r := if subset pi16 x2 then hull r m else r
  let r := if subset (mulS pi16 (lit 5)) x2 then hull r (neg m) else r
  if subset (mulS pi16 (lit 7)) x2 then hull r m else r

end Loba

/-- `lobachevsky(x)`, lobachevsky.hpp:66-104; the loop in lines 79-82 is the argument reduction of `tan` -/
def lobachevsky (dl : Interval D → PM (Interval D) (Interval D)) (fuel : ℕ) (x : Interval D) : PM (Interval D) (Interval D) := do
  let pi ← lift (constPi fuel)
  let pi16 ← lift (divS pi (lit 6))
  let m ← Loba.point dl pi fuel pi16
  let x2 ← lift (reduce (mulS pi half).sup pi fuel x)
  if Rop.le pi.sup (subS (Interval.point x2.sup) x2.inf).inf then return ⟨Rop.neg m.sup, m.sup⟩
  else do
    let a ← Loba.point dl pi fuel (Interval.point x2.inf)
    let b ← Loba.point dl pi fuel (Interval.point x2.sup)
    return Loba.extrema pi16 m x2 (hull a b)

end Kv
