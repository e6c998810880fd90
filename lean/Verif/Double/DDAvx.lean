import Verif.Double.DDSqrt

/-!
# `rop<dd>` with AVX-512 instructions (rdd-avx512.hpp)

The intrinsics with an embedded rounding mode are the operations of `Fl` in that mode; the fused
multiply-add intrinsics are `DD.fmaR`.  All other arithmetic is rounded to nearest.
`std::numeric_limits<dd>::max` is `DD.maxD`, as in Verif/Double/DD.lean.
-/

set_option exponentiation.threshold 3000

namespace Kv
namespace DDAvx
open DD Fl Format Emu

local notation "B" => binary64

/-- `twoproduct_up`, `twoproduct_down`: rdd-avx512.hpp:22-40.  `_mm_fmsub_round_sd(a, b, x)` is
`a * b - x`. -/
def twoproduct (md : RMode) (a b : Dbl) : Dbl × Dbl :=
  let x := ti a b
  (x, fmaR md a b (Fl.neg x))

/-- the last two statements of every function, for example rdd-avx512.hpp:60-62 -/
def finish (z1 z2 : Dbl) : DD :=
  let (z3, z4) := twosum z1 z2
  ⟨z3, z4⟩

/-- rdd-avx512.hpp:42-63 -/
def addUp (x y : DD) : DD :=
  let (z1, z2) := twosum x.a1 y.a1
  if Fl.eq z1 pinf then ⟨z1, lit 0⟩
  else if Fl.eq z1 ninf then neg maxD
  else finish z1 (Fl.add .up z2 (Fl.add .up x.a2 y.a2))

/-- rdd-avx512.hpp:65-86.  The two overflow branches are those of `add_up`. -/
def addDown (x y : DD) : DD :=
  let (z1, z2) := twosum x.a1 y.a1
  if Fl.eq z1 pinf then ⟨z1, lit 0⟩
  else if Fl.eq z1 ninf then neg maxD
  else finish z1 (Fl.add .down z2 (Fl.add .down x.a2 y.a2))

/-- rdd-avx512.hpp:88-109 -/
def subUp (x y : DD) : DD :=
  let (z1, z2) := twosum x.a1 (Fl.neg y.a1)
  if Fl.eq z1 pinf then ⟨z1, lit 0⟩
  else if Fl.eq z1 ninf then neg maxD
  else finish z1 (Fl.add .up z2 (Fl.sub .up x.a2 y.a2))

/-- rdd-avx512.hpp:111-132.  The two overflow branches are those of `sub_up`. -/
def subDown (x y : DD) : DD :=
  let (z1, z2) := twosum x.a1 (Fl.neg y.a1)
  if Fl.eq z1 pinf then ⟨z1, lit 0⟩
  else if Fl.eq z1 ninf then neg maxD
  else finish z1 (Fl.add .down z2 (Fl.sub .down x.a2 y.a2))

/-- rdd-avx512.hpp:134-163 -/
def mulUp (x y : DD) : DD :=
  let (z1, z2) := twoproduct .up x.a1 y.a1
  if Fl.eq z1 pinf then ⟨z1, lit 0⟩
  else if Fl.eq z1 ninf then neg maxD
  else finish z1 (fmaR .up x.a2 y.a2 (fmaR .up x.a2 y.a1 (fmaR .up x.a1 y.a2 z2)))

/-- rdd-avx512.hpp:165-194 -/
def mulDown (x y : DD) : DD :=
  let (z1, z2) := twoproduct .down x.a1 y.a1
  if Fl.eq z1 pinf then maxD
  else if Fl.eq z1 ninf then ⟨z1, lit 0⟩
  else finish z1 (fmaR .down x.a2 y.a2 (fmaR .down x.a2 y.a1 (fmaR .down x.a1 y.a2 z2)))

/-- `z2 = (((z3 + x.a1) + (-z1) * y.a2) + x.a2) + z4` (rdd-avx512.hpp:225-229 and the same lines of
the other branches).  `_mm_fnmadd_round_sd(a, b, c)` is `-(a * b) + c`. -/
def divNum (md : RMode) (z1 z3 z4 x1 x2 y2 : Dbl) : Dbl :=
  Fl.add md (Fl.add md (fmaR md (Fl.neg z1) y2 (Fl.add md z3 x1)) x2) z4

/-- rdd-avx512.hpp:196-318.  In the branch for a negative divisor the numerator is rounded down
and the quotient up. -/
def divUp (x y : DD) : DD :=
  let z1 := dv x.a1 y.a1
  if Fl.eq z1 pinf then ⟨z1, lit 0⟩
  else if Fl.eq z1 ninf then neg maxD
  else if isInf y.a1 then ⟨z1, lit 0⟩
  else
    let h := lit (1 / 2)
    let z2 :=
      if Fl.le (lit 0) y.a1 then
        let (z3, z4) := twoproduct .up (Fl.neg z1) y.a1
        if isInf z3 then
          let (z3, z4) := twoproduct .up (Fl.neg z1) (ti y.a1 h)
          let v2 := divNum .up z1 z3 z4 (ti x.a1 h) (ti x.a2 h) (ti y.a2 h)
          let tmp := if Fl.lt (lit 0) v2 then Fl.add .down (ti y.a1 h) (ti y.a2 h) else Fl.add .up (ti y.a1 h) (ti y.a2 h)
          Fl.div .up v2 tmp
        else
          let v2 := divNum .up z1 z3 z4 x.a1 x.a2 y.a2
          let tmp := if Fl.lt (lit 0) v2 then Fl.add .down y.a1 y.a2 else Fl.add .up y.a1 y.a2
          Fl.div .up v2 tmp
      else
        let (z3, z4) := twoproduct .down (Fl.neg z1) y.a1
        if isInf z3 then
          let (z3, z4) := twoproduct .down (Fl.neg z1) (ti y.a1 h)
          let v2 := divNum .down z1 z3 z4 (ti x.a1 h) (ti x.a2 h) (ti y.a2 h)
          let tmp := if Fl.lt (lit 0) v2 then Fl.add .down (ti y.a1 h) (ti y.a2 h) else Fl.add .up (ti y.a1 h) (ti y.a2 h)
          Fl.div .up v2 tmp
        else
          let v2 := divNum .down z1 z3 z4 x.a1 x.a2 y.a2
          let tmp := if Fl.lt (lit 0) v2 then Fl.add .down y.a1 y.a2 else Fl.add .up y.a1 y.a2
          Fl.div .up v2 tmp
    finish z1 z2

/-- rdd-avx512.hpp:320-442.  The two overflow branches are those of `div_up`. -/
def divDown (x y : DD) : DD :=
  let z1 := dv x.a1 y.a1
  if Fl.eq z1 pinf then ⟨z1, lit 0⟩
  else if Fl.eq z1 ninf then neg maxD
  else if isInf y.a1 then ⟨z1, lit 0⟩
  else
    let h := lit (1 / 2)
    let z2 :=
      if Fl.le (lit 0) y.a1 then
        let (z3, z4) := twoproduct .down (Fl.neg z1) y.a1
        if isInf z3 then
          let (z3, z4) := twoproduct .down (Fl.neg z1) (ti y.a1 h)
          let v2 := divNum .down z1 z3 z4 (ti x.a1 h) (ti x.a2 h) (ti y.a2 h)
          let tmp := if Fl.lt (lit 0) v2 then Fl.add .up (ti y.a1 h) (ti y.a2 h) else Fl.add .down (ti y.a1 h) (ti y.a2 h)
          Fl.div .down v2 tmp
        else
          let v2 := divNum .down z1 z3 z4 x.a1 x.a2 y.a2
          let tmp := if Fl.lt (lit 0) v2 then Fl.add .up y.a1 y.a2 else Fl.add .down y.a1 y.a2
          Fl.div .down v2 tmp
      else
        let (z3, z4) := twoproduct .up (Fl.neg z1) y.a1
        if isInf z3 then
          let (z3, z4) := twoproduct .up (Fl.neg z1) (ti y.a1 h)
          let v2 := divNum .up z1 z3 z4 (ti x.a1 h) (ti x.a2 h) (ti y.a2 h)
          let tmp := if Fl.lt (lit 0) v2 then Fl.add .up (ti y.a1 h) (ti y.a2 h) else Fl.add .down (ti y.a1 h) (ti y.a2 h)
          Fl.div .down v2 tmp
        else
          let v2 := divNum .up z1 z3 z4 x.a1 x.a2 y.a2
          let tmp := if Fl.lt (lit 0) v2 then Fl.add .up y.a1 y.a2 else Fl.add .down y.a1 y.a2
          Fl.div .down v2 tmp
    finish z1 z2

/-- rdd-avx512.hpp:445-499 (`DD_NEW_SQRT == 1`, the default) -/
def sqrtUp (x : DD) : DD :=
  if Fl.eq x.a1 (lit 0) && Fl.eq x.a2 (lit 0) then ⟨lit 0, lit 0⟩
  else if Fl.eq x.a1 pinf then ⟨x.a1, lit 0⟩
  else
    let z1 := Fl.sqrt .near x.a1
    let (z3, z4) := twoproduct .up (Fl.neg z1) z1
    let v2 := Fl.add .up (Fl.add .up (Fl.add .up z3 x.a1) x.a2) z4
    let q := lit (1 / 4)
    let tmp :=
      if Fl.lt (lit 0) v2 then Fl.add .down (Fl.sqrt .down (Fl.add .down x.a1 x.a2)) z1
      else if Fl.eq x.a1 maxF then
        Fl.add .up (Fl.mul .up (Fl.sqrt .up (Fl.add .up (Fl.mul .up x.a1 q) (Fl.mul .up x.a2 q))) (lit 2)) z1
      else Fl.add .up (Fl.sqrt .up (Fl.add .up x.a1 x.a2)) z1
    finish z1 (Fl.div .up v2 tmp)

/-- rdd-avx512.hpp:501-555 (`DD_NEW_SQRT == 1`, the default) -/
def sqrtDown (x : DD) : DD :=
  if Fl.eq x.a1 (lit 0) && Fl.eq x.a2 (lit 0) then ⟨lit 0, lit 0⟩
  else if Fl.eq x.a1 pinf then ⟨x.a1, lit 0⟩
  else
    let z1 := Fl.sqrt .near x.a1
    let (z3, z4) := twoproduct .down (Fl.neg z1) z1
    let v2 := Fl.add .down (Fl.add .down (Fl.add .down z3 x.a1) x.a2) z4
    let q := lit (1 / 4)
    let tmp :=
      if Fl.lt (lit 0) v2 then
        if Fl.eq x.a1 maxF then
          Fl.add .up (Fl.mul .up (Fl.sqrt .up (Fl.add .up (Fl.mul .up x.a1 q) (Fl.mul .up x.a2 q))) (lit 2)) z1
        else Fl.add .up (Fl.sqrt .up (Fl.add .up x.a1 x.a2)) z1
      else Fl.add .down (Fl.sqrt .down (Fl.add .down x.a1 x.a2)) z1
    finish z1 (Fl.div .down v2 tmp)

end DDAvx
end Kv
