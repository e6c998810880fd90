import Verif.Double.DD
import Verif.Interval.Basic

/-!
# Operators of `dd` with a number of a built-in type

/repo/kv/dd.hpp, the overloads `operator+(const dd&, const C&)`, `operator+(const C&, const dd&)`, … for arithmetic types `C`
(`acceptable_n<C, dd>`, dd.hpp:45-47).  All operations are rounded to nearest.
-/

namespace Kv
open Fl Emu

/-- an argument of a built-in arithmetic type, after the integral promotions.  `float` is included in `dbl`; `long double`, in which
the divisions and comparisons would be evaluated with more digits, is not modelled. -/
inductive Num
  /-- `double` -/
  | dbl (d : Dbl)
  /-- a signed integer type with `w` bits -/
  | int (w : ℕ) (i : ℤ)
  /-- an unsigned integer type with `w` bits -/
  | uns (w : ℕ) (n : ℕ)

namespace Num

/-- the value is one of the type -/
def Valid : Num → Prop
  | dbl _ => True
  | int w i => 0 < w ∧ -2 ^ (w - 1) ≤ i ∧ i < 2 ^ (w - 1)
  | uns w n => n < 2 ^ w

/-- conversion to `double` -/
def toD : Num → Dbl
  | dbl d => d
  | int _ i => lit i
  | uns _ n => lit n

/-- the value of `-y`, converted to `double`.  The negative of the smallest signed integer is undefined; an unsigned integer is
negated modulo `2^w`. -/
def negD : Num → Res Dbl
  | dbl d => .ok (Fl.neg d)
  | int w i => if i = -2 ^ (w - 1) then .error .undefined else .ok (lit ((-i : ℤ) : ℚ))
  | uns w n => .ok (lit (((2 ^ w - n) % 2 ^ w : ℕ) : ℚ))

end Num

namespace DD
open Emu

/-- `dd(y)`, dd.hpp:135-138 -/
def ofNum (y : Num) : DD := ⟨y.toD, lit 0⟩

/-- the common end of the operators, for example dd.hpp:184-189 -/
def finishN (z1 z2 : Dbl) : DD :=
  let (z3, z4) := twosum z1 z2
  if isInf z3 then ⟨z3, lit 0⟩ else ⟨z3, z4⟩

/-- `x + y`, dd.hpp:176-190 -/
def addC (x : DD) (y : Num) : DD :=
  let (z1, z2) := twosum x.a1 y.toD
  if isInf z1 then ⟨z1, lit 0⟩ else finishN z1 (pl z2 x.a2)

/-- `x + y`, dd.hpp:196-210 -/
def cAdd (x : Num) (y : DD) : DD :=
  let (z1, z2) := twosum x.toD y.a1
  if isInf z1 then ⟨z1, lit 0⟩ else finishN z1 (pl z2 y.a2)

/-- `x - y`, dd.hpp:247-261; `-y` is computed in the type of `y` -/
def subC (x : DD) (y : Num) : Res DD := do
  let ny ← y.negD
  let (z1, z2) := twosum x.a1 ny
  .ok (if isInf z1 then ⟨z1, lit 0⟩ else finishN z1 (pl z2 x.a2))

/-- `x - y`, dd.hpp:267-281 -/
def cSub (x : Num) (y : DD) : DD :=
  let (z1, z2) := twosum x.toD (Fl.neg y.a1)
  if isInf z1 then ⟨z1, lit 0⟩ else finishN z1 (mi z2 y.a2)

/-- `x * y`, dd.hpp:333-347 -/
def mulC (fma : Bool) (x : DD) (y : Num) : DD :=
  let (z1, z2) := twoproduct fma x.a1 y.toD
  if isInf z1 then ⟨z1, lit 0⟩ else finishN z1 (pl z2 (ti x.a2 y.toD))

/-- `x * y`, dd.hpp:353-367 -/
def cMul (fma : Bool) (x : Num) (y : DD) : DD :=
  let (z1, z2) := twoproduct fma x.toD y.a1
  if isInf z1 then ⟨z1, lit 0⟩ else finishN z1 (pl z2 (ti x.toD y.a2))

/-- `x / y`, dd.hpp:416-440 -/
def divC (fma : Bool) (x : DD) (y : Num) : DD :=
  let z1 := dv x.a1 y.toD
  if isInf z1 then ⟨z1, lit 0⟩
  else if isInf y.toD then ⟨z1, lit 0⟩
  else
    let h := lit (1 / 2)
    let (z3, z4) := twoproduct fma (Fl.neg z1) y.toD
    finishN z1 (
      if isInf z3 then
        let (z3, z4) := twoproduct fma (Fl.neg z1) (ti y.toD h)
        dv (pl (pl (pl z3 (ti x.a1 h)) (ti x.a2 h)) z4) (ti y.toD h)
      else dv (pl (pl (pl z3 x.a1) x.a2) z4) y.toD)

/-- `x / y`, dd.hpp:446-469.  If the product overflows, it is not computed again with `y.a1 * 0.5` (line 459). -/
def cDiv (fma : Bool) (x : Num) (y : DD) : DD :=
  let z1 := dv x.toD y.a1
  if isInf z1 then ⟨z1, lit 0⟩
  else if isInf y.a1 then ⟨z1, lit 0⟩
  else
    let h := lit (1 / 2)
    let (z3, z4) := twoproduct fma (Fl.neg z1) y.a1
    finishN z1 (
      if isInf z3 then dv (pl (mi (pl z3 (ti x.toD h)) (ti z1 (ti y.a2 h))) z4) (ti y.a1 h)
      else dv (pl (mi (pl z3 x.toD) (ti z1 y.a2)) z4) y.a1)

/-- `x < y`, dd.hpp:562-566 -/
def ltC (x : DD) (y : Num) : Bool :=
  if Fl.lt x.a1 y.toD then true else if Fl.lt y.toD x.a1 then false else Fl.lt x.a2 (lit 0)
/-- `x < y`, dd.hpp:572-576 -/
def cLt (x : Num) (y : DD) : Bool :=
  if Fl.lt x.toD y.a1 then true else if Fl.lt y.a1 x.toD then false else Fl.lt (lit 0) y.a2
/-- `x <= y`, dd.hpp:588-592 -/
def leC (x : DD) (y : Num) : Bool :=
  if Fl.lt x.a1 y.toD then true else if Fl.lt y.toD x.a1 then false else Fl.le x.a2 (lit 0)
/-- `x <= y`, dd.hpp:598-602 -/
def cLe (x : Num) (y : DD) : Bool :=
  if Fl.lt x.toD y.a1 then true else if Fl.lt y.a1 x.toD then false else Fl.le (lit 0) y.a2
/-- `x > y`, dd.hpp:614-618; `a > b` of doubles is `b < a` -/
def gtC (x : DD) (y : Num) : Bool :=
  if Fl.lt y.toD x.a1 then true else if Fl.lt x.a1 y.toD then false else Fl.lt (lit 0) x.a2
/-- `x > y`, dd.hpp:624-628 -/
def cGt (x : Num) (y : DD) : Bool :=
  if Fl.lt y.a1 x.toD then true else if Fl.lt x.toD y.a1 then false else Fl.lt y.a2 (lit 0)
/-- `x >= y`, dd.hpp:640-644 -/
def geC (x : DD) (y : Num) : Bool :=
  if Fl.lt y.toD x.a1 then true else if Fl.lt x.a1 y.toD then false else Fl.le (lit 0) x.a2
/-- `x >= y`, dd.hpp:650-654 -/
def cGe (x : Num) (y : DD) : Bool :=
  if Fl.lt y.a1 x.toD then true else if Fl.lt x.toD y.a1 then false else Fl.le y.a2 (lit 0)
/-- `x == y`, dd.hpp:663-665 -/
def eqC (x : DD) (y : Num) : Bool := Fl.eq x.a1 y.toD && Fl.eq x.a2 (lit 0)
/-- `x == y`, dd.hpp:666-668 -/
def cEq (x : Num) (y : DD) : Bool := Fl.eq x.toD y.a1 && Fl.eq (lit 0) y.a2

end DD
end Kv
