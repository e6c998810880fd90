import Verif.Rop

/-!
# Model of `interval<T>` (/repo/kv/interval.hpp): arithmetic, set operations, comparisons

The template is modelled over an arbitrary base type with the interface `Rop`.  Scalar operands
(`class C` convertible to `T`) are modelled as values of `T`; the string overloads convert first
and then call the interval version (interval.hpp:178-181 etc.).  The calls `rop<T>::begin()` and
`rop<T>::end()` change only the rounding-mode register; they are modelled in
`Verif/Double/Mode.lean`.
-/

namespace Kv

/-- Abnormal outcomes.  `domainError` is `std::domain_error`; `undefined` is C++ undefined
behaviour (never a normal result); `outOfFuel` marks a loop that did not end within the given
number of rounds (the C++ loop would go on). -/
inductive Err
  | domainError
  | undefined
  | outOfFuel
  deriving DecidableEq, Repr

/-- Result of a C++ function that may throw. -/
abbrev Res (α : Type) := Except Err α

/-- `class interval` (interval.hpp:105-107). -/
structure Interval (T : Type) where
  inf : T
  sup : T
  deriving DecidableEq

namespace Interval
variable {T : Type} [Rop T]
open Rop

/-- The literal `0.` -/
abbrev O : T := lit 0

/-- `interval(const C& x)` (interval.hpp:118-121). -/
def point (x : T) : Interval T := ⟨x, x⟩

/-- interval.hpp:157-166 -/
def add (x y : Interval T) : Interval T := ⟨addDown x.inf y.inf, addUp x.sup y.sup⟩

/-- interval.hpp:168-176 and 202-210 (`+=`) -/
def addS (x : Interval T) (y : T) : Interval T := ⟨addDown x.inf y, addUp x.sup y⟩

/-- interval.hpp:182-191 -/
def sAdd (x : T) (y : Interval T) : Interval T := ⟨addDown x y.inf, addUp x y.sup⟩

/-- interval.hpp:217-226 -/
def sub (x y : Interval T) : Interval T := ⟨subDown x.inf y.sup, subUp x.sup y.inf⟩

/-- interval.hpp:228-237 and 263-271 (`-=`) -/
def subS (x : Interval T) (y : T) : Interval T := ⟨subDown x.inf y, subUp x.sup y⟩

/-- interval.hpp:243-252 -/
def sSub (x : T) (y : Interval T) : Interval T := ⟨subDown x y.sup, subUp x y.inf⟩

/-- interval.hpp:278-285 -/
def neg (x : Interval T) : Interval T := ⟨Rop.neg x.sup, Rop.neg x.inf⟩

/-- interval.hpp:287-351 -/
def mul (x y : Interval T) : Interval T :=
  if le O x.inf then
    if eq x.sup O then ⟨O, O⟩
    else if le O y.inf then
      if eq y.sup O then ⟨O, O⟩
      else ⟨mulDown x.inf y.inf, mulUp x.sup y.sup⟩
    else if le y.sup O then ⟨mulDown x.sup y.inf, mulUp x.inf y.sup⟩
    else ⟨mulDown x.sup y.inf, mulUp x.sup y.sup⟩
  else if le x.sup O then
    if le O y.inf then
      if eq y.sup O then ⟨O, O⟩
      else ⟨mulDown x.inf y.sup, mulUp x.sup y.inf⟩
    else if le y.sup O then ⟨mulDown x.sup y.sup, mulUp x.inf y.inf⟩
    else ⟨mulDown x.inf y.sup, mulUp x.inf y.inf⟩
  else
    if le O y.inf then
      if eq y.sup O then ⟨O, O⟩
      else ⟨mulDown x.inf y.sup, mulUp x.sup y.sup⟩
    else if le y.sup O then ⟨mulDown x.sup y.inf, mulUp x.inf y.inf⟩
    else
      let r1 := mulDown x.inf y.sup
      let t1 := mulDown x.sup y.inf
      let r1 := if lt t1 r1 then t1 else r1
      let r2 := mulUp x.inf y.inf
      let t2 := mulUp x.sup y.sup
      let r2 := if lt r2 t2 then t2 else r2
      ⟨r1, r2⟩

/-- interval.hpp:353-371 -/
def mulS (x : Interval T) (y : T) : Interval T :=
  if lt O y then ⟨mulDown x.inf y, mulUp x.sup y⟩
  else if lt y O then ⟨mulDown x.sup y, mulUp x.inf y⟩
  else ⟨O, O⟩

/-- interval.hpp:377-395 -/
def sMul (x : T) (y : Interval T) : Interval T :=
  if lt O x then ⟨mulDown x y.inf, mulUp x y.sup⟩
  else if lt x O then ⟨mulDown x y.sup, mulUp x y.inf⟩
  else ⟨O, O⟩

/-- interval.hpp:416-449 -/
def div (x y : Interval T) : Res (Interval T) :=
  if lt O y.inf then
    if le O x.inf then .ok ⟨divDown x.inf y.sup, divUp x.sup y.inf⟩
    else if le x.sup O then .ok ⟨divDown x.inf y.inf, divUp x.sup y.sup⟩
    else .ok ⟨divDown x.inf y.inf, divUp x.sup y.inf⟩
  else if lt y.sup O then
    if le O x.inf then .ok ⟨divDown x.sup y.sup, divUp x.inf y.inf⟩
    else if le x.sup O then .ok ⟨divDown x.sup y.inf, divUp x.inf y.sup⟩
    else .ok ⟨divDown x.sup y.sup, divUp x.inf y.sup⟩
  else .error .domainError

/-- interval.hpp:451-468 -/
def divS (x : Interval T) (y : T) : Res (Interval T) :=
  if lt O y then .ok ⟨divDown x.inf y, divUp x.sup y⟩
  else if lt y O then .ok ⟨divDown x.sup y, divUp x.inf y⟩
  else .error .domainError

/-- interval.hpp:474-493 -/
def sDiv (x : T) (y : Interval T) : Res (Interval T) :=
  if lt O y.inf || lt y.sup O then
    if le O x then .ok ⟨divDown x y.sup, divUp x y.inf⟩
    else .ok ⟨divDown x y.inf, divUp x y.sup⟩
  else .error .domainError

/-- interval.hpp:523-536 -/
def sqrt (x : Interval T) : Res (Interval T) :=
  if lt x.inf O then .error .domainError
  else .ok ⟨sqrtDown x.inf, sqrtUp x.sup⟩

/-- interval.hpp:556-559 -/
def whole : Interval T := ⟨Rop.neg Rop.inf, Rop.inf⟩

/-- interval.hpp:560-563, `hull(scalar, scalar)` -/
def hullSS (x y : T) : Interval T := if lt x y then ⟨x, y⟩ else ⟨y, x⟩

/-- interval.hpp:566-573 -/
def hull (x y : Interval T) : Interval T :=
  ⟨if lt y.inf x.inf then y.inf else x.inf, if lt x.sup y.sup then y.sup else x.sup⟩

/-- interval.hpp:575-582 -/
def hullS (x : Interval T) (y : T) : Interval T :=
  ⟨if lt y x.inf then y else x.inf, if lt x.sup y then y else x.sup⟩

/-- interval.hpp:584-591 -/
def sHull (x : T) (y : Interval T) : Interval T :=
  ⟨if lt y.inf x then y.inf else x, if lt x y.sup then y.sup else x⟩

/-- interval.hpp:594-602 -/
def width (x : Interval T) : T := subUp x.sup x.inf

/-- interval.hpp:604-612 -/
def rad (x : Interval T) : T := mulUp (subUp x.sup x.inf) (lit (1 / 2))

/-- interval.hpp:615-622 -/
def mid (x : Interval T) : T :=
  if lt (lit 1) (Rop.abs x.inf) && lt (lit 1) (Rop.abs x.sup) then
    Rop.add (Rop.mul x.inf (lit (1 / 2))) (Rop.mul x.sup (lit (1 / 2)))
  else Rop.mul (Rop.add x.inf x.sup) (lit (1 / 2))

/-- interval.hpp:628-636: the pair `(m, r)` -/
def midrad (x : Interval T) : T × T :=
  let m := mid x
  let r := subUp x.sup m
  let tmp := subUp m x.inf
  (m, if lt r tmp then tmp else r)

/-- interval.hpp:638-644; `mag` (646-648) is the same function -/
def norm (x : Interval T) : T :=
  if le O x.inf then x.sup
  else if le x.sup O then Rop.neg x.inf
  else
    let tmp := Rop.neg x.inf
    if lt tmp x.sup then x.sup else tmp

/-- interval.hpp:646-648 -/
def mag (x : Interval T) : T := norm x

/-- interval.hpp:692-694 -/
def mem (a : T) (x : Interval T) : Bool := le x.inf a && le a x.sup

/-- interval.hpp:696-698 -/
def zeroIn (x : Interval T) : Bool := le x.inf O && le O x.sup

/-- interval.hpp:650-654 -/
def mig (x : Interval T) : T :=
  if zeroIn x then O
  else if lt O x.inf then x.inf
  else Rop.neg x.sup

/-- interval.hpp:656-662 -/
def abs (x : Interval T) : Interval T :=
  if le O x.inf then x
  else if le x.sup O then neg x
  else
    let tmp := Rop.neg x.inf
    ⟨O, if lt tmp x.sup then x.sup else tmp⟩

/-- interval.hpp:664-671 -/
def max (x y : Interval T) : Interval T :=
  ⟨if lt x.inf y.inf then y.inf else x.inf, if lt x.sup y.sup then y.sup else x.sup⟩

/-- interval.hpp:673-680 -/
def min (x y : Interval T) : Interval T :=
  ⟨if lt y.inf x.inf then y.inf else x.inf, if lt y.sup x.sup then y.sup else x.sup⟩

/-- interval.hpp:682-685 -/
def floor (x : Interval T) : Interval T := ⟨Rop.floor x.inf, Rop.floor x.sup⟩

/-- interval.hpp:687-690 -/
def ceil (x : Interval T) : Interval T := ⟨Rop.ceil x.inf, Rop.ceil x.sup⟩

/-- interval.hpp:700-702 -/
def subset (x y : Interval T) : Bool := le y.inf x.inf && le x.sup y.sup

/-- interval.hpp:704-706 -/
def properSubset (x y : Interval T) : Bool :=
  subset x y && (lt y.inf x.inf || lt x.sup y.sup)

/-- interval.hpp:717-724 -/
def intersect (x y : Interval T) : Interval T :=
  ⟨if lt x.inf y.inf then y.inf else x.inf, if lt y.sup x.sup then y.sup else x.sup⟩

/-- interval.hpp:708-715 -/
def overlap (x y : Interval T) : Bool :=
  le (if lt x.inf y.inf then y.inf else x.inf) (if lt y.sup x.sup then y.sup else x.sup)

/-- interval.hpp:727-729 -/
def ltI (x y : Interval T) : Bool := lt x.sup y.inf
/-- interval.hpp:748-750 -/
def leI (x y : Interval T) : Bool := le x.sup y.inf
/-- interval.hpp:769-771 -/
def gtI (x y : Interval T) : Bool := lt y.sup x.inf
/-- interval.hpp:790-792 -/
def geI (x y : Interval T) : Bool := le y.sup x.inf
/-- interval.hpp:811-813 -/
def eqI (x y : Interval T) : Bool := eq x.inf x.sup && eq x.sup y.inf && eq y.inf y.sup
/-- interval.hpp:834-836 -/
def neI (x y : Interval T) : Bool := !overlap x y

/-- interval.hpp:731-733 `X < scalar` -/
def ltIS (x : Interval T) (y : T) : Bool := lt x.sup y
/-- interval.hpp:739-741 `scalar < X` -/
def ltSI (x : T) (y : Interval T) : Bool := lt x y.inf
/-- interval.hpp:752-754 -/
def leIS (x : Interval T) (y : T) : Bool := le x.sup y
/-- interval.hpp:760-762 -/
def leSI (x : T) (y : Interval T) : Bool := le x y.inf
/-- interval.hpp:773-775 -/
def gtIS (x : Interval T) (y : T) : Bool := lt y x.inf
/-- interval.hpp:781-783 -/
def gtSI (x : T) (y : Interval T) : Bool := lt y.sup x
/-- interval.hpp:794-796 -/
def geIS (x : Interval T) (y : T) : Bool := le y x.inf
/-- interval.hpp:802-804 -/
def geSI (x : T) (y : Interval T) : Bool := le y.sup x
/-- interval.hpp:815-817 -/
def eqIS (x : Interval T) (y : T) : Bool := eq x.inf x.sup && eq x.sup y
/-- interval.hpp:824-826 -/
def eqSI (x : T) (y : Interval T) : Bool := eq y.inf y.sup && eq y.sup x
/-- interval.hpp:838-840 -/
def neIS (x : Interval T) (y : T) : Bool := !overlap x (point y)
/-- interval.hpp:846-848 -/
def neSI (x : T) (y : Interval T) : Bool := !overlap (point x) y

/-- interval.hpp:855-917: result and the flag `parted` -/
def divisionPart1 (x y : Interval T) : Res (Interval T × Bool) :=
  if lt O y.inf || lt y.sup O then (div x y).map (·, false)
  else if eq y.inf O && eq y.sup O then .error .domainError
  else if lt y.inf O && eq y.sup O then
    if eq x.inf O && eq x.sup O then .ok (⟨O, O⟩, false)
    else if le O x.inf then .ok (⟨Rop.neg Rop.inf, divUp x.inf y.inf⟩, false)
    else if le x.sup O then .ok (⟨divDown x.sup y.inf, Rop.inf⟩, false)
    else .ok (⟨Rop.neg Rop.inf, Rop.inf⟩, false)
  else if eq y.inf O && lt O y.sup then
    if eq x.inf O && eq x.sup O then .ok (⟨O, O⟩, false)
    else if le O x.inf then .ok (⟨divDown x.inf y.sup, Rop.inf⟩, false)
    else if le x.sup O then .ok (⟨Rop.neg Rop.inf, divUp x.sup y.sup⟩, false)
    else .ok (⟨Rop.neg Rop.inf, Rop.inf⟩, false)
  else
    if eq x.inf O && eq x.sup O then .ok (⟨O, O⟩, false)
    else if lt O x.inf then .ok (⟨Rop.neg Rop.inf, divUp x.inf y.inf⟩, true)
    else if lt x.sup O then .ok (⟨Rop.neg Rop.inf, divUp x.sup y.sup⟩, true)
    else .ok (⟨Rop.neg Rop.inf, Rop.inf⟩, false)

/-- interval.hpp:919-977 (the argument `parted` is not used by the code) -/
def divisionPart2 (x y : Interval T) : Res (Interval T) :=
  if lt O y.inf || lt y.sup O then div x y
  else if eq y.inf O && eq y.sup O then .error .domainError
  else if lt y.inf O && eq y.sup O then
    if eq x.inf O && eq x.sup O then .ok ⟨O, O⟩
    else if le O x.inf then .ok ⟨Rop.neg Rop.inf, divUp x.inf y.inf⟩
    else if le x.sup O then .ok ⟨divDown x.sup y.inf, Rop.inf⟩
    else .ok ⟨Rop.neg Rop.inf, Rop.inf⟩
  else if eq y.inf O && lt O y.sup then
    if eq x.inf O && eq x.sup O then .ok ⟨O, O⟩
    else if le O x.inf then .ok ⟨divDown x.inf y.sup, Rop.inf⟩
    else if le x.sup O then .ok ⟨Rop.neg Rop.inf, divUp x.sup y.sup⟩
    else .ok ⟨Rop.neg Rop.inf, Rop.inf⟩
  else
    if eq x.inf O && eq x.sup O then .ok ⟨O, O⟩
    else if lt O x.inf then .ok ⟨divDown x.inf y.sup, Rop.inf⟩
    else if lt x.sup O then .ok ⟨divDown x.sup y.inf, Rop.inf⟩
    else .ok ⟨Rop.neg Rop.inf, Rop.inf⟩

/-- Loop of interval.hpp:979-994 `pow_point`: state `(r, xp, y)`, `y ≥ 0`.  (The C++ loop also
squares `xp` once more after the last multiplication; that value is not used.) -/
def powLoop (r xp : Interval T) (y : ℕ) : Interval T :=
  if h : y = 0 then r
  else powLoop (if y % 2 ≠ 0 then mul r xp else r) (mul xp xp) (y / 2)
termination_by y
decreasing_by omega

/-- interval.hpp:979-994, for `y ≥ 0` -/
def powPoint (x : T) (y : ℕ) : Interval T := powLoop (point (lit 1)) (point x) y

/-- interval.hpp:996-1015.  `int` is modelled as `ℤ` restricted to 32 bits; `-y` for
`y = INT_MIN` is undefined behaviour. -/
def powInt (x : Interval T) (y : ℤ) : Res (Interval T) :=
  if y = 0 then .ok (point (lit 1))
  else if y = -2147483648 then .error .undefined
  else
    let a : ℕ := y.natAbs
    let r :=
      if a % 2 == 0 && mem O x then sHull O (powPoint (mag x) a)
      else hull (powPoint x.inf a) (powPoint x.sup a)
    if y < 0 then sDiv (lit 1) r else .ok r

end Interval
end Kv
