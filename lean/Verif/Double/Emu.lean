import Verif.Double.Hw

/-!
# `rop<double>` without hardware rounding

/repo/kv/rdouble-nohwround.hpp: directed rounding emulated with operations rounded to nearest.
All operations below are in mode nearest.  `fma` is the compile-time switch `KV_USE_TPFMA`.

Signed zeros are not distinguished (see `Verif/Float/Format.lean`).
-/

namespace Kv

/-- C++ `double` with `rop<double>` of /repo/kv/rdouble-nohwround.hpp; the parameter tells
whether the library was compiled with `KV_USE_TPFMA`. -/
def Emu (_fma : Bool) : Type := Fl binary64

namespace Emu
open Fl

/-- `double` -/
abbrev Dbl := Fl binary64

/-- `a + b`, `a - b`, `a * b`, `a / b` of `double` in mode nearest -/
def pl (a b : Dbl) : Dbl := add .near a b
/-- see `pl` -/
def mi (a b : Dbl) : Dbl := sub .near a b
/-- see `pl` -/
def ti (a b : Dbl) : Dbl := mul .near a b
/-- see `pl` -/
def dv (a b : Dbl) : Dbl := div .near a b

/-- `std::ldexp(1., k)` -/
def two (k : ℤ) : Dbl := lit (2 ^ k)

/-- `fma(a, b, c)` of <cmath> in mode nearest -/
def fma3 : Dbl → Dbl → Dbl → Dbl
  | fin a _, fin b _, fin c _ => round .near (a * b + c)
  | fin _ _, fin _ _, c => c
  | a, b, c => pl (ti a b) c

/-- rdouble-nohwround.hpp:35-46 (also /repo/kv/dd.hpp:66-77) -/
def twosum (a b : Dbl) : Dbl × Dbl :=
  let x := pl a b
  if lt (Fl.abs b) (Fl.abs a) then
    let tmp := mi x a
    (x, mi b tmp)
  else
    let tmp := mi x b
    (x, mi a tmp)

/-- rdouble-nohwround.hpp:28-33 (also /repo/kv/dd.hpp:59-64) -/
def fasttwosum (a b : Dbl) : Dbl × Dbl :=
  let x := pl a b
  let tmp := mi x a
  (x, mi b tmp)

/-- rdouble-nohwround.hpp:48-55 -/
def split (a : Dbl) : Dbl × Dbl :=
  let sigma := pl (two 27) (lit 1)
  let tmp := ti a sigma
  let x := mi tmp (mi tmp a)
  (x, mi a x)

/-- rdouble-nohwround.hpp:63-95, after the scaling of the operands -/
def dekker (x na nb : Dbl) : Dbl :=
  let (a1, a2) := split na
  let (b1, b2) := split nb
  if lt (two 1023) (Fl.abs x) then
    pl (pl (pl (ti (mi (ti (ti a1 (lit (1 / 2))) b1) (ti x (lit (1 / 2)))) (lit 2)) (ti a2 b1)) (ti a1 b2))
      (ti a2 b2)
  else
    pl (pl (pl (mi (ti a1 b1) x) (ti a2 b1)) (ti a1 b2)) (ti a2 b2)

/-- rdouble-nohwround.hpp:57-96 -/
def twoproduct (fma : Bool) (a b : Dbl) : Dbl × Dbl :=
  let x := ti a b
  if fma then (x, fma3 a b (neg x))
  else if lt (two 996) (Fl.abs a) then (x, dekker x (ti a (two (-28))) (ti b (two 28)))
  else if lt (two 996) (Fl.abs b) then (x, dekker x (ti a (two 28)) (ti b (two (-28))))
  else (x, dekker x a b)

/-- `c1` of rdouble-nohwround.hpp:103 -/
def succC : Dbl := pl (two (-53)) (two (-105))

/-- rdouble-nohwround.hpp:100-116 -/
def succ (x : Dbl) : Dbl :=
  let a := Fl.abs x
  if le (two (-969)) a then pl x (ti a succC)
  else if lt a (two (-1021)) then pl x (two (-1074))
  else
    let c := ti (two 53) x
    let e := ti succC (Fl.abs c)
    ti (pl c e) (two (-53))

/-- rdouble-nohwround.hpp:118-134 -/
def pred (x : Dbl) : Dbl :=
  let a := Fl.abs x
  if le (two (-969)) a then mi x (ti a succC)
  else if lt a (two (-1021)) then mi x (two (-1074))
  else
    let c := ti (two 53) x
    let e := ti succC (Fl.abs c)
    ti (mi c e) (two (-53))

/-- rdouble-nohwround.hpp:137-156 -/
def addUp (x y : Dbl) : Dbl :=
  let (r, r2) := twosum x y
  if eq r pinf then r
  else if eq r ninf then
    if eq x ninf || eq y ninf then r else neg maxF
  else if lt (lit 0) r2 then succ r
  else r

/-- rdouble-nohwround.hpp:158-177 -/
def addDown (x y : Dbl) : Dbl :=
  let (r, r2) := twosum x y
  if eq r pinf then
    if eq x pinf || eq y pinf then r else maxF
  else if eq r ninf then r
  else if lt r2 (lit 0) then pred r
  else r

/-- rdouble-nohwround.hpp:179-198 -/
def subUp (x y : Dbl) : Dbl :=
  let (r, r2) := twosum x (neg y)
  if eq r pinf then r
  else if eq r ninf then
    if eq x ninf || eq y pinf then r else neg maxF
  else if lt (lit 0) r2 then succ r
  else r

/-- rdouble-nohwround.hpp:200-219 -/
def subDown (x y : Dbl) : Dbl :=
  let (r, r2) := twosum x (neg y)
  if eq r pinf then
    if eq x pinf || eq y ninf then r else maxF
  else if eq r ninf then r
  else if lt r2 (lit 0) then pred r
  else r

/-- `std::fabs(x) == infinity()` -/
def isInf (x : Dbl) : Bool := eq (Fl.abs x) pinf

/-- rdouble-nohwround.hpp:221-252 -/
def mulUp (fma : Bool) (x y : Dbl) : Dbl :=
  let (r, r2) := twoproduct fma x y
  if eq r pinf then r
  else if eq r ninf then
    if isInf x || isInf y then r else neg maxF
  else if le (two (-969)) (Fl.abs r) then
    if lt (lit 0) r2 then succ r else r
  else
    let (s, s2) := twoproduct fma (ti x (two 537)) (ti y (two 537))
    let t := ti (ti r (two 537)) (two 537)
    if lt t s || (eq t s && lt (lit 0) s2) then succ r else r

/-- rdouble-nohwround.hpp:254-285 -/
def mulDown (fma : Bool) (x y : Dbl) : Dbl :=
  let (r, r2) := twoproduct fma x y
  if eq r pinf then
    if isInf x || isInf y then r else maxF
  else if eq r ninf then r
  else if le (two (-969)) (Fl.abs r) then
    if lt r2 (lit 0) then pred r else r
  else
    let (s, s2) := twoproduct fma (ti x (two 537)) (ti y (two 537))
    let t := ti (ti r (two 537)) (two 537)
    if lt s t || (eq t s && lt s2 (lit 0)) then pred r else r

/-- The operands which the division passes to `/` directly, rdouble-nohwround.hpp:295, 340 -/
def divSpecial (x y : Dbl) : Bool :=
  eq x (lit 0) || eq y (lit 0) || isInf x || isInf y || isNaN x || isNaN y

/-- rdouble-nohwround.hpp:299-315, 344-360: sign normalisation, then scaling of small operands;
`none` stands for the branch that returns a constant. -/
def divScale (x y : Dbl) : Dbl × Option Dbl :=
  let xn := if lt y (lit 0) then neg x else x
  let yn := if lt y (lit 0) then neg y else y
  if lt (Fl.abs xn) (two (-969)) then
    if lt (Fl.abs yn) (two 918) then (ti xn (two 105), some (ti yn (two 105)))
    else (xn, none)
  else (xn, some yn)

/-- rdouble-nohwround.hpp:287-330 -/
def divUp (fma : Bool) (x y : Dbl) : Dbl :=
  if divSpecial x y then dv x y
  else
    match divScale x y with
    | (xn, none) => if lt xn (lit 0) then lit 0 else two (-1074)
    | (xn, some yn) =>
      let d := dv xn yn
      if eq d pinf then d
      else if eq d ninf then neg maxF
      else
        let (r, r2) := twoproduct fma d yn
        if lt r xn || (eq r xn && lt r2 (lit 0)) then succ d else d

/-- rdouble-nohwround.hpp:332-375 -/
def divDown (fma : Bool) (x y : Dbl) : Dbl :=
  if divSpecial x y then dv x y
  else
    match divScale x y with
    | (xn, none) => if lt xn (lit 0) then neg (two (-1074)) else lit 0
    | (xn, some yn) =>
      let d := dv xn yn
      if eq d pinf then maxF
      else if eq d ninf then d
      else
        let (r, r2) := twoproduct fma d yn
        if lt xn r || (eq r xn && lt (lit 0) r2) then pred d else d

/-- rdouble-nohwround.hpp:377-401 -/
def sqrtUp (fma : Bool) (x : Dbl) : Dbl :=
  let d := sqrt .near x
  if lt x (two (-969)) then
    let x2 := ti x (two 106)
    let d2 := ti d (two 53)
    let (r, r2) := twoproduct fma d2 d2
    if lt r x2 || (eq r x2 && lt r2 (lit 0)) then succ d else d
  else
    let (r, r2) := twoproduct fma d d
    if lt r x || (eq r x && lt r2 (lit 0)) then succ d else d

/-- rdouble-nohwround.hpp:403-427 -/
def sqrtDown (fma : Bool) (x : Dbl) : Dbl :=
  let d := sqrt .near x
  if lt x (two (-969)) then
    let x2 := ti x (two 106)
    let d2 := ti d (two 53)
    let (r, r2) := twoproduct fma d2 d2
    if lt x2 r || (eq r x2 && lt (lit 0) r2) then pred d else d
  else
    let (r, r2) := twoproduct fma d d
    if lt x r || (eq r x && lt (lit 0) r2) then pred d else d

end Emu

/-- The interface `Rop` of double with emulated rounding (rdouble-nohwround.hpp:26-478). -/
instance instRopEmu (fma : Bool) : Rop (Emu fma) where
  addUp := Emu.addUp
  addDown := Emu.addDown
  subUp := Emu.subUp
  subDown := Emu.subDown
  mulUp := Emu.mulUp fma
  mulDown := Emu.mulDown fma
  divUp := Emu.divUp fma
  divDown := Emu.divDown fma
  sqrtUp := Emu.sqrtUp fma
  sqrtDown := Emu.sqrtDown fma
  neg := Fl.neg
  abs := Fl.abs
  add := Fl.add .near
  sub := Fl.sub .near
  mul := Fl.mul .near
  div := Fl.div .near
  floor := Fl.floor
  ceil := Fl.ceil
  lt := Fl.lt
  le := Fl.le
  eq := Fl.eq
  lit := Fl.lit
  inf := Fl.pinf
  maxv := Fl.maxF
  denormMin := Fl.lit binary64.minQ
  eps := Fl.lit (2 ^ (1 - binary64.p : ℤ))

end Kv
