import Verif.Double.DD

/-!
# `rop<dd>` without hardware rounding

/repo/kv/rdd-nohwround.hpp (`KV_NOHWROUND`).  The directed operations on `double` are the emulated ones
of /repo/kv/rdouble-nohwround.hpp (model `Emu`); the products by 0.5, 0.25 and 2 are rounded to nearest.
`fma` is the compile-time switch `KV_USE_TPFMA`, which here affects the emulated operations only
(`twoproduct_up`, `twoproduct_down` always use the splitting).  `DD_NEW_SQRT` has its default value 1.
Input and output of strings (rdd-nohwround.hpp:521-567) are not modelled here.
-/

namespace Kv
open Fl

namespace DDN
open Emu DD

/-- the last part of `twoproduct_up`, rdd-nohwround.hpp:40-46 -/
def dekkerUp (fma : Bool) (x na nb : Dbl) : Dbl :=
  let (a1, a2) := split na
  let (b1, b2) := split nb
  if Fl.lt (two 1023) (Fl.abs x) then
    Emu.addUp (Emu.addUp (Emu.addUp
      (ti (Emu.subUp (Emu.mulUp fma (ti a1 (lit (1 / 2))) b1) (ti x (lit (1 / 2)))) (lit 2))
      (Emu.mulUp fma a2 b1)) (Emu.mulUp fma a1 b2)) (Emu.mulUp fma a2 b2)
  else
    Emu.addUp (Emu.addUp (Emu.addUp (Emu.subUp (Emu.mulUp fma a1 b1) x) (Emu.mulUp fma a2 b1)) (Emu.mulUp fma a1 b2)) (Emu.mulUp fma a2 b2)

/-- the last part of `twoproduct_down`, rdd-nohwround.hpp:70-76 -/
def dekkerDown (fma : Bool) (x na nb : Dbl) : Dbl :=
  let (a1, a2) := split na
  let (b1, b2) := split nb
  if Fl.lt (two 1023) (Fl.abs x) then
    Emu.addDown (Emu.addDown (Emu.addDown
      (ti (Emu.subDown (Emu.mulDown fma (ti a1 (lit (1 / 2))) b1) (ti x (lit (1 / 2)))) (lit 2))
      (Emu.mulDown fma a2 b1)) (Emu.mulDown fma a1 b2)) (Emu.mulDown fma a2 b2)
  else
    Emu.addDown (Emu.addDown (Emu.addDown (Emu.subDown (Emu.mulDown fma a1 b1) x) (Emu.mulDown fma a2 b1)) (Emu.mulDown fma a1 b2)) (Emu.mulDown fma a2 b2)

/-- `twoproduct_up`, rdd-nohwround.hpp:19-47 -/
def twoproductUp (fma : Bool) (a b : Dbl) : Dbl × Dbl :=
  let x := ti a b
  if Fl.lt (two 996) (Fl.abs a) then (x, dekkerUp fma x (ti a (two (-28))) (ti b (two 28)))
  else if Fl.lt (two 996) (Fl.abs b) then (x, dekkerUp fma x (ti a (two 28)) (ti b (two (-28))))
  else (x, dekkerUp fma x a b)

/-- `twoproduct_down`, rdd-nohwround.hpp:49-77 -/
def twoproductDown (fma : Bool) (a b : Dbl) : Dbl × Dbl :=
  let x := ti a b
  if Fl.lt (two 996) (Fl.abs a) then (x, dekkerDown fma x (ti a (two (-28))) (ti b (two 28)))
  else if Fl.lt (two 996) (Fl.abs b) then (x, dekkerDown fma x (ti a (two 28)) (ti b (two (-28))))
  else (x, dekkerDown fma x a b)

/-- rdd-nohwround.hpp:79-108 -/
def addUp (x y : DD) : DD :=
  if isInf x.a1 || isInf y.a1 then ⟨pl x.a1 y.a1, lit 0⟩
  else
    let (z1, z2) := twosum x.a1 y.a1
    if Fl.eq z1 pinf then ⟨z1, lit 0⟩
    else
      let (z1, z2) := if Fl.eq z1 ninf then (Fl.neg maxD.a1, Fl.neg maxD.a2) else (z1, z2)
      finishUp z1 (Emu.addUp z2 (Emu.addUp x.a2 y.a2))

/-- rdd-nohwround.hpp:110-138 -/
def addDown (x y : DD) : DD :=
  if isInf x.a1 || isInf y.a1 then ⟨pl x.a1 y.a1, lit 0⟩
  else
    let (z1, z2) := twosum x.a1 y.a1
    if Fl.eq z1 ninf then ⟨z1, lit 0⟩
    else
      let (z1, z2) := if Fl.eq z1 pinf then (maxD.a1, maxD.a2) else (z1, z2)
      finishDown z1 (Emu.addDown z2 (Emu.addDown x.a2 y.a2))

/-- rdd-nohwround.hpp:140-169 -/
def subUp (x y : DD) : DD :=
  if isInf x.a1 || isInf y.a1 then ⟨mi x.a1 y.a1, lit 0⟩
  else
    let (z1, z2) := twosum x.a1 (Fl.neg y.a1)
    if Fl.eq z1 pinf then ⟨z1, lit 0⟩
    else
      let (z1, z2) := if Fl.eq z1 ninf then (Fl.neg maxD.a1, Fl.neg maxD.a2) else (z1, z2)
      finishUp z1 (Emu.addUp z2 (Emu.subUp x.a2 y.a2))

/-- rdd-nohwround.hpp:171-199 -/
def subDown (x y : DD) : DD :=
  if isInf x.a1 || isInf y.a1 then ⟨mi x.a1 y.a1, lit 0⟩
  else
    let (z1, z2) := twosum x.a1 (Fl.neg y.a1)
    if Fl.eq z1 ninf then ⟨z1, lit 0⟩
    else
      let (z1, z2) := if Fl.eq z1 pinf then (maxD.a1, maxD.a2) else (z1, z2)
      finishDown z1 (Emu.addDown z2 (Emu.subDown x.a2 y.a2))

/-- rdd-nohwround.hpp:201-230 -/
def mulUp (fma : Bool) (x y : DD) : DD :=
  if isInf x.a1 || isInf y.a1 then ⟨ti x.a1 y.a1, lit 0⟩
  else
    let (z1, z2) := twoproductUp fma x.a1 y.a1
    if Fl.eq z1 pinf then ⟨z1, lit 0⟩
    else
      let (z1, z2) := if Fl.eq z1 ninf then (Fl.neg maxD.a1, Fl.neg maxD.a2) else (z1, z2)
      finishUp z1 (Emu.addUp z2
        (Emu.addUp (Emu.addUp (Emu.mulUp fma x.a1 y.a2) (Emu.mulUp fma x.a2 y.a1)) (Emu.mulUp fma x.a2 y.a2)))

/-- rdd-nohwround.hpp:232-261 -/
def mulDown (fma : Bool) (x y : DD) : DD :=
  if isInf x.a1 || isInf y.a1 then ⟨ti x.a1 y.a1, lit 0⟩
  else
    let (z1, z2) := twoproductDown fma x.a1 y.a1
    if Fl.eq z1 ninf then ⟨z1, lit 0⟩
    else
      let (z1, z2) := if Fl.eq z1 pinf then (maxD.a1, maxD.a2) else (z1, z2)
      finishDown z1 (Emu.addDown z2
        (Emu.addDown (Emu.addDown (Emu.mulDown fma x.a1 y.a2) (Emu.mulDown fma x.a2 y.a1)) (Emu.mulDown fma x.a2 y.a2)))

/-- the numerator of the second component, rdd-nohwround.hpp:285, 294, 382, 391 -/
def numUp (fma : Bool) (z1 z3 z4 x1 x2 y2 : Dbl) : Dbl :=
  Emu.addUp (Emu.addUp (Emu.addUp (Emu.addUp z3 x1) (Emu.mulUp fma (Fl.neg z1) y2)) x2) z4

/-- the numerator of the second component, rdd-nohwround.hpp:307, 316, 360, 369 -/
def numDown (fma : Bool) (z1 z3 z4 x1 x2 y2 : Dbl) : Dbl :=
  Emu.addDown (Emu.addDown (Emu.addDown (Emu.addDown z3 x1) (Emu.mulDown fma (Fl.neg z1) y2)) x2) z4

/-- rdd-nohwround.hpp:263-336 -/
def divUp (fma : Bool) (x y : DD) : DD :=
  if isInf x.a1 || isInf y.a1 then ⟨dv x.a1 y.a1, lit 0⟩
  else
    let z1 := dv x.a1 y.a1
    if Fl.eq z1 pinf then ⟨z1, lit 0⟩
    else
      let z1 := if Fl.eq z1 ninf then Fl.neg maxD.a1 else z1
      let h := lit (1 / 2)
      let z2 :=
        if Fl.le (lit 0) y.a1 then
          let (z3, z4) := twoproductUp fma (Fl.neg z1) y.a1
          if isInf z3 then
            let (z3, z4) := twoproductUp fma (Fl.neg z1) (ti y.a1 h)
            let v2 := numUp fma z1 z3 z4 (ti x.a1 h) (ti x.a2 h) (ti y.a2 h)
            let tmp := if Fl.lt (lit 0) v2 then Emu.addDown (ti y.a1 h) (ti y.a2 h)
              else Emu.addUp (ti y.a1 h) (ti y.a2 h)
            Emu.divUp fma v2 tmp
          else
            let v2 := numUp fma z1 z3 z4 x.a1 x.a2 y.a2
            let tmp := if Fl.lt (lit 0) v2 then Emu.addDown y.a1 y.a2 else Emu.addUp y.a1 y.a2
            Emu.divUp fma v2 tmp
        else
          let (z3, z4) := twoproductDown fma (Fl.neg z1) y.a1
          if isInf z3 then
            let (z3, z4) := twoproductDown fma (Fl.neg z1) (ti y.a1 h)
            let v2 := numDown fma z1 z3 z4 (ti x.a1 h) (ti x.a2 h) (ti y.a2 h)
            let tmp := if Fl.lt (lit 0) v2 then Emu.addDown (ti y.a1 h) (ti y.a2 h)
              else Emu.addUp (ti y.a1 h) (ti y.a2 h)
            Emu.divUp fma v2 tmp
          else
            let v2 := numDown fma z1 z3 z4 x.a1 x.a2 y.a2
            let tmp := if Fl.lt (lit 0) v2 then Emu.addDown y.a1 y.a2 else Emu.addUp y.a1 y.a2
            Emu.divUp fma v2 tmp
      finishUp z1 z2

/-- rdd-nohwround.hpp:338-411 -/
def divDown (fma : Bool) (x y : DD) : DD :=
  if isInf x.a1 || isInf y.a1 then ⟨dv x.a1 y.a1, lit 0⟩
  else
    let z1 := dv x.a1 y.a1
    if Fl.eq z1 ninf then ⟨z1, lit 0⟩
    else
      let z1 := if Fl.eq z1 pinf then maxD.a1 else z1
      let h := lit (1 / 2)
      let z2 :=
        if Fl.le (lit 0) y.a1 then
          let (z3, z4) := twoproductDown fma (Fl.neg z1) y.a1
          if isInf z3 then
            let (z3, z4) := twoproductDown fma (Fl.neg z1) (ti y.a1 h)
            let v2 := numDown fma z1 z3 z4 (ti x.a1 h) (ti x.a2 h) (ti y.a2 h)
            let tmp := if Fl.lt (lit 0) v2 then Emu.addUp (ti y.a1 h) (ti y.a2 h)
              else Emu.addDown (ti y.a1 h) (ti y.a2 h)
            Emu.divDown fma v2 tmp
          else
            let v2 := numDown fma z1 z3 z4 x.a1 x.a2 y.a2
            let tmp := if Fl.lt (lit 0) v2 then Emu.addUp y.a1 y.a2 else Emu.addDown y.a1 y.a2
            Emu.divDown fma v2 tmp
        else
          let (z3, z4) := twoproductUp fma (Fl.neg z1) y.a1
          if isInf z3 then
            let (z3, z4) := twoproductUp fma (Fl.neg z1) (ti y.a1 h)
            let v2 := numUp fma z1 z3 z4 (ti x.a1 h) (ti x.a2 h) (ti y.a2 h)
            let tmp := if Fl.lt (lit 0) v2 then Emu.addUp (ti y.a1 h) (ti y.a2 h)
              else Emu.addDown (ti y.a1 h) (ti y.a2 h)
            Emu.divDown fma v2 tmp
          else
            let v2 := numUp fma z1 z3 z4 x.a1 x.a2 y.a2
            let tmp := if Fl.lt (lit 0) v2 then Emu.addUp y.a1 y.a2 else Emu.addDown y.a1 y.a2
            Emu.divDown fma v2 tmp
      finishDown z1 z2

/-- rdd-nohwround.hpp:414-446 -/
def sqrtUp (fma : Bool) (x : DD) : DD :=
  if Fl.eq x.a1 (lit 0) && Fl.eq x.a2 (lit 0) then ⟨lit 0, lit 0⟩
  else if Fl.eq x.a1 pinf then ⟨x.a1, lit 0⟩
  else
    let z1 := Fl.sqrt .near x.a1
    let (z3, z4) := twoproductUp fma (Fl.neg z1) z1
    let v2 := Emu.addUp (Emu.addUp (Emu.addUp z3 x.a1) x.a2) z4
    let q := lit (1 / 4)
    let tmp :=
      if Fl.lt (lit 0) v2 then
        Emu.addDown (Emu.sqrtDown fma (Emu.addDown x.a1 x.a2)) z1
      else
        if Fl.eq x.a1 maxF then
          Emu.addUp (ti (Emu.sqrtUp fma (Emu.addUp (ti x.a1 q) (Emu.mulUp fma x.a2 q))) (lit 2)) z1
        else Emu.addUp (Emu.sqrtUp fma (Emu.addUp x.a1 x.a2)) z1
    let z2 := Emu.divUp fma v2 tmp
    let (z3, z4) := twosum z1 z2
    ⟨z3, z4⟩

/-- rdd-nohwround.hpp:448-480 -/
def sqrtDown (fma : Bool) (x : DD) : DD :=
  if Fl.eq x.a1 (lit 0) && Fl.eq x.a2 (lit 0) then ⟨lit 0, lit 0⟩
  else if Fl.eq x.a1 pinf then ⟨x.a1, lit 0⟩
  else
    let z1 := Fl.sqrt .near x.a1
    let (z3, z4) := twoproductDown fma (Fl.neg z1) z1
    let v2 := Emu.addDown (Emu.addDown (Emu.addDown z3 x.a1) x.a2) z4
    let q := lit (1 / 4)
    let tmp :=
      if Fl.lt (lit 0) v2 then
        if Fl.eq x.a1 maxF then
          Emu.addUp (ti (Emu.sqrtUp fma (Emu.addUp (ti x.a1 q) (Emu.mulUp fma x.a2 q))) (lit 2)) z1
        else Emu.addUp (Emu.sqrtUp fma (Emu.addUp x.a1 x.a2)) z1
      else
        Emu.addDown (Emu.sqrtDown fma (Emu.addDown x.a1 x.a2)) z1
    let z2 := Emu.divDown fma v2 tmp
    let (z3, z4) := twosum z1 z2
    ⟨z3, z4⟩

/-- The interface `Rop` of `dd` without hardware rounding; the operations in round-to-nearest are those of
dd.hpp, as in `DD.ropDD`. -/
@[reducible] def ropDDN (fma : Bool) : Rop DD where
  addUp := addUp
  addDown := addDown
  subUp := subUp
  subDown := subDown
  mulUp := mulUp fma
  mulDown := mulDown fma
  divUp := divUp fma
  divDown := divDown fma
  sqrtUp := sqrtUp fma
  sqrtDown := sqrtDown fma
  neg := DD.neg
  abs := DD.abs
  add := DD.add
  sub := DD.sub
  mul := DD.mul fma
  div := DD.div fma
  floor := DD.floor
  ceil := DD.ceil
  lt := DD.lt
  le := DD.le
  eq := DD.eq
  lit := fun q => ⟨Fl.lit q, Fl.lit 0⟩
  inf := ⟨pinf, Fl.lit 0⟩
  maxv := maxD
  denormMin := ⟨two (-1074), Fl.lit 0⟩
  eps := ⟨two (-105), Fl.lit 0⟩

end DDN
end Kv
