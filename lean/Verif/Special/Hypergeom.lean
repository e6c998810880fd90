import Verif.Special.Geoseries

/-!
# Model of `hypergeom` (/repo/kv/hypergeom.hpp, the overload by the power series)
-/

namespace Kv
open Rop (lit)
open Kv.Interval (add sAdd addS sub subS mul div sDiv point mag width)

namespace Hypergeom

/-- `std::min(a, b)` -/
def smin (a b : D) : D := if Rop.lt b a then b else a

/-- The variables of the loop, hypergeom.hpp:94-95. -/
structure St where
  result : Interval D
  tr : Interval D
  ta : Interval D
  tb : Interval D
  tc : Interval D
  td : Interval D

/-- hypergeom.hpp:97-102 -/
def start (a b c : Interval D) : St := ⟨point (lit 1), point (lit 1), a, b, c, point (lit 1)⟩

/-- The factor `1 + (t - offset) * tmp` of hypergeom.hpp:113-114. -/
def factor (t : Interval D) (offset : D) (tmp : Interval D) : Interval D := sAdd (lit 1) (mul (subS t offset) tmp)

/-- hypergeom.hpp:112-114, for `offset > 0` -/
def ratioOf (s : St) (z : Interval D) (offset : D) : Res (Interval D) := do
  let tmp ← sDiv (lit 1) ⟨offset, Rop.inf⟩
  let r ← div (mul (mul z (factor s.ta offset tmp)) (factor s.tb offset tmp)) (factor s.tc offset tmp)
  div r (factor s.td offset tmp)

/-- hypergeom.hpp:115-121: the final result, if the residual is small enough; `eps` is `2^-52` (`std::numeric_limits<double>::epsilon()`). -/
def close (s : St) (ratio : Interval D) : Res (Option (Interval D)) :=
  if Rop.lt (mag ratio) (lit 1) then do
    let g ← geoseries ratio
    let residual := mul s.tr g
    if Rop.lt (width residual) (Rop.mul (mag s.result) (lit (1 / 2 ^ 52))) then return some (add s.result residual) else return none
  else return none

/-- hypergeom.hpp:105-109 -/
def term (s : St) (z : Interval D) : Res St := do
  let q ← div (mul (mul s.tr s.ta) s.tb) s.tc
  let q ← div q s.td
  return { s with tr := mul q z }

/-- hypergeom.hpp:123-127 -/
def next (s : St) : St :=
  ⟨add s.result s.tr, s.tr, addS s.ta (lit 1), addS s.tb (lit 1), addS s.tc (lit 1), addS s.td (lit 1)⟩

/-- hypergeom.hpp:110-122 -/
def tryClose (s : St) (z : Interval D) : Res (Option (Interval D)) :=
  let offset := smin (smin (smin s.ta.inf s.tb.inf) s.tc.inf) s.td.inf
  if Rop.lt (lit 0) offset then do close s (← ratioOf s z offset) else return none

/-- The `while (true)` loop, hypergeom.hpp:104-128; it has no limit of its own: `outOfFuel` says that `fuel` rounds did not end it. -/
def loop (z : Interval D) : ℕ → St → Res (Interval D)
  | 0, _ => .error .outOfFuel
  | fuel + 1, s => do
    let s ← term s z
    match ← tryClose s z with
    | some r => return r
    | none => loop z fuel (next s)

end Hypergeom

/-- `hypergeom(a, b, c, z)`, hypergeom.hpp:92-131 -/
def hypergeom (fuel : ℕ) (a b c z : Interval D) : Res (Interval D) := Hypergeom.loop z fuel (Hypergeom.start a b c)

end Kv
