import Verif.Double.Emu
import Verif.Rop

/-!
# `dd` (double-double) and `rop<dd>` with hardware rounding

/repo/kv/dd.hpp and /repo/kv/rdd-hwround.hpp.  A `dd` is an unevaluated sum `a1 + a2` of two doubles.
The changes of the hardware rounding mode inside the functions are modelled by giving each operation
its mode; `fma` is the compile-time switch `KV_USE_TPFMA`.  `DD_NEW_SQRT` has its default value 1.
The scalar overloads of the operators, conversion from strings and output are not modelled here.
-/

namespace Kv
open Fl

/-- /repo/kv/dd.hpp:53-57 -/
structure DD where
  a1 : Fl binary64
  a2 : Fl binary64
deriving DecidableEq

namespace DD
open Emu

/-- `std::numeric_limits<dd>::max()`, dd.hpp:1291-1295 -/
def maxD : DD := ⟨maxF, ti maxF (two (-54))⟩

/-- `-x`, dd.hpp:302-309 -/
def neg (x : DD) : DD := ⟨Fl.neg x.a1, Fl.neg x.a2⟩

/-- `x < y`, dd.hpp:556-560 -/
def lt (x y : DD) : Bool :=
  if Fl.lt x.a1 y.a1 then true
  else if Fl.lt y.a1 x.a1 then false
  else Fl.lt x.a2 y.a2

/-- `x <= y`, dd.hpp:582-586 -/
def le (x y : DD) : Bool :=
  if Fl.lt x.a1 y.a1 then true
  else if Fl.lt y.a1 x.a1 then false
  else Fl.le x.a2 y.a2

/-- `x == y`, dd.hpp:660-662 -/
def eq (x y : DD) : Bool := Fl.eq x.a1 y.a1 && Fl.eq x.a2 y.a2

/-- `floor`, dd.hpp:680-690 -/
def floor (x : DD) : DD :=
  let z1 := Fl.floor x.a1
  if !(Fl.eq z1 x.a1) then ⟨z1, lit 0⟩
  else
    let z2 := Fl.floor x.a2
    let (z3, z4) := twosum z1 z2
    ⟨z3, z4⟩

/-- `ceil`, dd.hpp:692-702 -/
def ceil (x : DD) : DD :=
  let z1 := Fl.ceil x.a1
  if !(Fl.eq z1 x.a1) then ⟨z1, lit 0⟩
  else
    let z2 := Fl.ceil x.a2
    let (z3, z4) := twosum z1 z2
    ⟨z3, z4⟩

/-- `x + y` of `dd` (mode nearest), dd.hpp:160-174 -/
def add (x y : DD) : DD :=
  let (z1, z2) := twosum x.a1 y.a1
  if isInf z1 then ⟨z1, lit 0⟩
  else
    let z2 := pl z2 (pl x.a2 y.a2)
    let (z3, z4) := twosum z1 z2
    if isInf z3 then ⟨z3, lit 0⟩ else ⟨z3, z4⟩

/-- `x - y` of `dd` (mode nearest), dd.hpp:231-245 -/
def sub (x y : DD) : DD :=
  let (z1, z2) := twosum x.a1 (Fl.neg y.a1)
  if isInf z1 then ⟨z1, lit 0⟩
  else
    let z2 := pl z2 (mi x.a2 y.a2)
    let (z3, z4) := twosum z1 z2
    if isInf z3 then ⟨z3, lit 0⟩ else ⟨z3, z4⟩

/-- `x * y` of `dd` (mode nearest, `DD_FASTMULT` 0), dd.hpp:311-331 -/
def mul (fma : Bool) (x y : DD) : DD :=
  let (z1, z2) := twoproduct fma x.a1 y.a1
  if isInf z1 then ⟨z1, lit 0⟩
  else
    let z2 := pl z2 (pl (pl (ti x.a1 y.a2) (ti x.a2 y.a1)) (ti x.a2 y.a2))
    let (z3, z4) := twosum z1 z2
    if isInf z3 then ⟨z3, lit 0⟩ else ⟨z3, z4⟩

/-- `abs`, dd.hpp:548-554 -/
def abs (x : DD) : DD := if Fl.le (lit 0) x.a1 then x else ⟨Fl.neg x.a1, Fl.neg x.a2⟩

/-- `x / y` of `dd` (mode nearest), dd.hpp:389-414 -/
def div (fma : Bool) (x y : DD) : DD :=
  let z1 := dv x.a1 y.a1
  if isInf z1 then ⟨z1, lit 0⟩
  else if isInf y.a1 then ⟨z1, lit 0⟩
  else
    let h := lit (1 / 2)
    let (z3, z4) := twoproduct fma (Fl.neg z1) y.a1
    let z2 :=
      if isInf z3 then
        let (z3, z4) := twoproduct fma (Fl.neg z1) (ti y.a1 h)
        dv (pl (pl (mi (pl z3 (ti x.a1 h)) (ti z1 (ti y.a2 h))) (ti x.a2 h)) z4) (ti y.a1 h)
      else dv (pl (pl (mi (pl z3 x.a1) (ti z1 y.a2)) x.a2) z4) y.a1
    let (z3, z4) := twosum z1 z2
    if isInf z3 then ⟨z3, lit 0⟩ else ⟨z3, z4⟩

/-- the last part of `twoproduct_up`/`twoproduct_down`, evaluated in mode `md`;
rdd-hwround.hpp:64-73, 116-125 -/
def dekkerR (md : RMode) (x na nb : Dbl) : Dbl :=
  let (a1, a2) := split na
  let (b1, b2) := split nb
  if Fl.lt (two 1023) (Fl.abs x) then
    Fl.add md (Fl.add md (Fl.add md
      (Fl.mul md (Fl.sub md (Fl.mul md (Fl.mul md a1 (lit (1 / 2))) b1) (Fl.mul md x (lit (1 / 2)))) (lit 2))
      (Fl.mul md a2 b1)) (Fl.mul md a1 b2)) (Fl.mul md a2 b2)
  else
    Fl.add md (Fl.add md (Fl.add md (Fl.sub md (Fl.mul md a1 b1) x) (Fl.mul md a2 b1)) (Fl.mul md a1 b2))
      (Fl.mul md a2 b2)

/-- `fma(a, b, c)` in mode `md` -/
def fmaR (md : RMode) : Dbl → Dbl → Dbl → Dbl
  | fin a _, fin b _, fin c _ => Fl.round md (a * b + c)
  | fin _ _, fin _ _, c => c
  | a, b, c => Fl.add md (Fl.mul md a b) c

/-- `twoproduct_up` (`md = up`, rdd-hwround.hpp:26-75) and `twoproduct_down` (`md = down`,
rdd-hwround.hpp:78-127), which differ in the mode only -/
def twoproductR (md : RMode) (fma : Bool) (a b : Dbl) : Dbl × Dbl :=
  let x := ti a b
  if fma then (x, fmaR md a b (Fl.neg x))
  else if Fl.lt (two 996) (Fl.abs a) then (x, dekkerR md x (ti a (two (-28))) (ti b (two 28)))
  else if Fl.lt (two 996) (Fl.abs b) then (x, dekkerR md x (ti a (two 28)) (ti b (two (-28))))
  else (x, dekkerR md x a b)

/-- the common end of the `_up` functions, e.g. rdd-hwround.hpp:153-162 -/
def finishUp (z1 z2 : Dbl) : DD :=
  let (z3, z4) := twosum z1 z2
  if Fl.eq z3 pinf then ⟨z3, lit 0⟩
  else if Fl.eq z3 ninf then ⟨Fl.neg maxD.a1, Fl.neg maxD.a2⟩
  else ⟨z3, z4⟩

/-- the common end of the `_down` functions, e.g. rdd-hwround.hpp:188-197 -/
def finishDown (z1 z2 : Dbl) : DD :=
  let (z3, z4) := twosum z1 z2
  if Fl.eq z3 ninf then ⟨z3, lit 0⟩
  else if Fl.eq z3 pinf then ⟨maxD.a1, maxD.a2⟩
  else ⟨z3, z4⟩

/-- rdd-hwround.hpp:130-163 -/
def addUp (x y : DD) : DD :=
  if isInf x.a1 || isInf y.a1 then ⟨pl x.a1 y.a1, lit 0⟩
  else
    let (z1, z2) := twosum x.a1 y.a1
    if Fl.eq z1 pinf then ⟨z1, lit 0⟩
    else
      let (z1, z2) := if Fl.eq z1 ninf then (Fl.neg maxD.a1, Fl.neg maxD.a2) else (z1, z2)
      finishUp z1 (Fl.add .up z2 (Fl.add .up x.a2 y.a2))

/-- rdd-hwround.hpp:165-198 -/
def addDown (x y : DD) : DD :=
  if isInf x.a1 || isInf y.a1 then ⟨pl x.a1 y.a1, lit 0⟩
  else
    let (z1, z2) := twosum x.a1 y.a1
    if Fl.eq z1 ninf then ⟨z1, lit 0⟩
    else
      let (z1, z2) := if Fl.eq z1 pinf then (maxD.a1, maxD.a2) else (z1, z2)
      finishDown z1 (Fl.add .down z2 (Fl.add .down x.a2 y.a2))

/-- rdd-hwround.hpp:200-233 -/
def subUp (x y : DD) : DD :=
  if isInf x.a1 || isInf y.a1 then ⟨mi x.a1 y.a1, lit 0⟩
  else
    let (z1, z2) := twosum x.a1 (Fl.neg y.a1)
    if Fl.eq z1 pinf then ⟨z1, lit 0⟩
    else
      let (z1, z2) := if Fl.eq z1 ninf then (Fl.neg maxD.a1, Fl.neg maxD.a2) else (z1, z2)
      finishUp z1 (Fl.add .up z2 (Fl.sub .up x.a2 y.a2))

/-- rdd-hwround.hpp:235-268 -/
def subDown (x y : DD) : DD :=
  if isInf x.a1 || isInf y.a1 then ⟨mi x.a1 y.a1, lit 0⟩
  else
    let (z1, z2) := twosum x.a1 (Fl.neg y.a1)
    if Fl.eq z1 ninf then ⟨z1, lit 0⟩
    else
      let (z1, z2) := if Fl.eq z1 pinf then (maxD.a1, maxD.a2) else (z1, z2)
      finishDown z1 (Fl.add .down z2 (Fl.sub .down x.a2 y.a2))

/-- rdd-hwround.hpp:270-303 -/
def mulUp (fma : Bool) (x y : DD) : DD :=
  if isInf x.a1 || isInf y.a1 then ⟨ti x.a1 y.a1, lit 0⟩
  else
    let (z1, z2) := twoproductR .up fma x.a1 y.a1
    if Fl.eq z1 pinf then ⟨z1, lit 0⟩
    else
      let (z1, z2) := if Fl.eq z1 ninf then (Fl.neg maxD.a1, Fl.neg maxD.a2) else (z1, z2)
      finishUp z1 (Fl.add .up z2
        (Fl.add .up (Fl.add .up (Fl.mul .up x.a1 y.a2) (Fl.mul .up x.a2 y.a1)) (Fl.mul .up x.a2 y.a2)))

/-- rdd-hwround.hpp:305-338 -/
def mulDown (fma : Bool) (x y : DD) : DD :=
  if isInf x.a1 || isInf y.a1 then ⟨ti x.a1 y.a1, lit 0⟩
  else
    let (z1, z2) := twoproductR .down fma x.a1 y.a1
    if Fl.eq z1 ninf then ⟨z1, lit 0⟩
    else
      let (z1, z2) := if Fl.eq z1 pinf then (maxD.a1, maxD.a2) else (z1, z2)
      finishDown z1 (Fl.add .down z2
        (Fl.add .down (Fl.add .down (Fl.mul .down x.a1 y.a2) (Fl.mul .down x.a2 y.a1)) (Fl.mul .down x.a2 y.a2)))

/-- `(((v3 + v5) + (-v1) * v8) + v6) + v4` in mode `md` (rdd-hwround.hpp:365, 379, 397, 410 and the
same lines of `div_down`) -/
def divNum (md : RMode) (z1 z3 z4 x1 x2 y2 : Dbl) : Dbl :=
  Fl.add md (Fl.add md (Fl.add md (Fl.add md z3 x1) (Fl.mul md (Fl.neg z1) y2)) x2) z4

/-- rdd-hwround.hpp:340-434.  In the branch for a negative divisor the numerator is rounded down
and the quotient up. -/
def divUp (fma : Bool) (x y : DD) : DD :=
  if isInf x.a1 || isInf y.a1 then ⟨dv x.a1 y.a1, lit 0⟩
  else
    let z1 := dv x.a1 y.a1
    if Fl.eq z1 pinf then ⟨z1, lit 0⟩
    else
      let z1 := if Fl.eq z1 ninf then Fl.neg maxD.a1 else z1
      let h := lit (1 / 2)
      let z2 :=
        if Fl.le (lit 0) y.a1 then
          let (z3, z4) := twoproductR .up fma (Fl.neg z1) y.a1
          if isInf z3 then
            let (z3, z4) := twoproductR .up fma (Fl.neg z1) (ti y.a1 h)
            let v7 := Fl.mul .up y.a1 h
            let v8 := Fl.mul .up y.a2 h
            let v2 := divNum .up z1 z3 z4 (Fl.mul .up x.a1 h) (Fl.mul .up x.a2 h) v8
            let tmp := if Fl.lt (lit 0) v2 then Fl.add .down v7 v8 else Fl.add .up v7 v8
            Fl.div .up v2 tmp
          else
            let v2 := divNum .up z1 z3 z4 x.a1 x.a2 y.a2
            let tmp := if Fl.lt (lit 0) v2 then Fl.add .down y.a1 y.a2 else Fl.add .up y.a1 y.a2
            Fl.div .up v2 tmp
        else
          let (z3, z4) := twoproductR .down fma (Fl.neg z1) y.a1
          if isInf z3 then
            let (z3, z4) := twoproductR .down fma (Fl.neg z1) (ti y.a1 h)
            let v7 := Fl.mul .down y.a1 h
            let v8 := Fl.mul .down y.a2 h
            let v2 := divNum .down z1 z3 z4 (Fl.mul .down x.a1 h) (Fl.mul .down x.a2 h) v8
            let tmp := if Fl.lt (lit 0) v2 then Fl.add .down v7 v8 else Fl.add .up v7 v8
            Fl.div .up v2 tmp
          else
            let v2 := divNum .down z1 z3 z4 x.a1 x.a2 y.a2
            let tmp := if Fl.lt (lit 0) v2 then Fl.add .down y.a1 y.a2 else Fl.add .up y.a1 y.a2
            Fl.div .up v2 tmp
      finishUp z1 z2

/-- rdd-hwround.hpp:436-530 -/
def divDown (fma : Bool) (x y : DD) : DD :=
  if isInf x.a1 || isInf y.a1 then ⟨dv x.a1 y.a1, lit 0⟩
  else
    let z1 := dv x.a1 y.a1
    if Fl.eq z1 ninf then ⟨z1, lit 0⟩
    else
      let z1 := if Fl.eq z1 pinf then maxD.a1 else z1
      let h := lit (1 / 2)
      let z2 :=
        if Fl.le (lit 0) y.a1 then
          let (z3, z4) := twoproductR .down fma (Fl.neg z1) y.a1
          if isInf z3 then
            let (z3, z4) := twoproductR .down fma (Fl.neg z1) (ti y.a1 h)
            let v7 := Fl.mul .down y.a1 h
            let v8 := Fl.mul .down y.a2 h
            let v2 := divNum .down z1 z3 z4 (Fl.mul .down x.a1 h) (Fl.mul .down x.a2 h) v8
            let tmp := if Fl.lt (lit 0) v2 then Fl.add .up v7 v8 else Fl.add .down v7 v8
            Fl.div .down v2 tmp
          else
            let v2 := divNum .down z1 z3 z4 x.a1 x.a2 y.a2
            let tmp := if Fl.lt (lit 0) v2 then Fl.add .up y.a1 y.a2 else Fl.add .down y.a1 y.a2
            Fl.div .down v2 tmp
        else
          let (z3, z4) := twoproductR .up fma (Fl.neg z1) y.a1
          if isInf z3 then
            let (z3, z4) := twoproductR .up fma (Fl.neg z1) (ti y.a1 h)
            let v7 := Fl.mul .up y.a1 h
            let v8 := Fl.mul .up y.a2 h
            let v2 := divNum .up z1 z3 z4 (Fl.mul .up x.a1 h) (Fl.mul .up x.a2 h) v8
            let tmp := if Fl.lt (lit 0) v2 then Fl.add .up v7 v8 else Fl.add .down v7 v8
            Fl.div .down v2 tmp
          else
            let v2 := divNum .up z1 z3 z4 x.a1 x.a2 y.a2
            let tmp := if Fl.lt (lit 0) v2 then Fl.add .up y.a1 y.a2 else Fl.add .down y.a1 y.a2
            Fl.div .down v2 tmp
      finishDown z1 z2

/-- rdd-hwround.hpp:532-571 -/
def sqrtUp (fma : Bool) (x : DD) : DD :=
  if Fl.eq x.a1 (lit 0) && Fl.eq x.a2 (lit 0) then ⟨lit 0, lit 0⟩
  else if Fl.eq x.a1 pinf then ⟨x.a1, lit 0⟩
  else
    let z1 := Fl.sqrt .near x.a1
    let (z3, z4) := twoproductR .up fma (Fl.neg z1) z1
    let v2 := Fl.add .up (Fl.add .up (Fl.add .up z3 x.a1) x.a2) z4
    let q := lit (1 / 4)
    let tmp :=
      if Fl.lt (lit 0) v2 then Fl.add .down (Fl.sqrt .down (Fl.add .down x.a1 x.a2)) z1
      else if Fl.eq x.a1 maxF then
        Fl.add .up (Fl.mul .up (Fl.sqrt .up (Fl.add .up (Fl.mul .up x.a1 q) (Fl.mul .up x.a2 q))) (lit 2)) z1
      else Fl.add .up (Fl.sqrt .up (Fl.add .up x.a1 x.a2)) z1
    let z2 := Fl.div .up v2 tmp
    let (z3, z4) := twosum z1 z2
    ⟨z3, z4⟩

/-- rdd-hwround.hpp:573-612 -/
def sqrtDown (fma : Bool) (x : DD) : DD :=
  if Fl.eq x.a1 (lit 0) && Fl.eq x.a2 (lit 0) then ⟨lit 0, lit 0⟩
  else if Fl.eq x.a1 pinf then ⟨x.a1, lit 0⟩
  else
    let z1 := Fl.sqrt .near x.a1
    let (z3, z4) := twoproductR .down fma (Fl.neg z1) z1
    let v2 := Fl.add .down (Fl.add .down (Fl.add .down z3 x.a1) x.a2) z4
    let q := lit (1 / 4)
    let tmp :=
      if Fl.lt (lit 0) v2 then
        if Fl.eq x.a1 maxF then
          Fl.add .up (Fl.mul .up (Fl.sqrt .up (Fl.add .up (Fl.mul .up x.a1 q) (Fl.mul .up x.a2 q))) (lit 2)) z1
        else Fl.add .up (Fl.sqrt .up (Fl.add .up x.a1 x.a2)) z1
      else Fl.add .down (Fl.sqrt .down (Fl.add .down x.a1 x.a2)) z1
    let z2 := Fl.div .down v2 tmp
    let (z3, z4) := twosum z1 z2
    ⟨z3, z4⟩

/-- The interface `Rop` of `dd` with hardware rounding; `numeric_limits<dd>` dd.hpp:1278-1307. -/
@[reducible] def ropDD (fma : Bool) : Rop DD where
  addUp := addUp
  addDown := addDown
  subUp := subUp
  subDown := subDown
  mulUp := mulUp fma
  mulDown := mulDown fma
  divUp := divUp fma
  divDown := divDown fma
  sqrtUp := sqrtUp fma
  sqrtDown := sqrtDown fma
  neg := neg
  abs := abs
  add := add
  sub := sub
  mul := mul fma
  div := div fma
  floor := floor
  ceil := ceil
  lt := lt
  le := le
  eq := eq
  lit := fun q => ⟨Fl.lit q, Fl.lit 0⟩
  inf := ⟨pinf, Fl.lit 0⟩
  maxv := maxD
  denormMin := ⟨two (-1074), Fl.lit 0⟩
  eps := ⟨two (-105), Fl.lit 0⟩

end DD
end Kv
