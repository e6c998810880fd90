import Verif.Double.DD

/-!
# Conversion of intervals between base types

/repo/kv/interval-conv.hpp and the parts of /repo/kv/interval-converter.hpp for `double`, `dd` and
`mpfr<N>`.  A number of type `mpfr<N>` is a datum `Fl F` of a format `F` with precision `N` (any
exponent range); the functions `mpfr_set`, `mpfr_set_d`, `mpfr_get_d`, `mpfr_add_d`, `mpfr_sub_d` of
the MPFR library are modelled as correctly rounded.  The conversions of `_Float64x` and `ddx`
(interval-converter.hpp:146-410, compiled for GCC before 13 only) are not modelled.
-/

namespace Kv
open Fl

namespace Conv
open Emu DD

/-- the argument `rnd` of the functions -/
inductive Dir
  | down | near | up
  deriving DecidableEq

/-- `rnd == 1`, `rnd == -1`, otherwise; e.g. interval-conv.hpp:22-28 -/
def Dir.mode : Dir → RMode
  | .down => .down
  | .near => .near
  | .up => .up

/-- correctly rounded conversion from format `F` to format `G` (`mpfr_set`, `mpfr_set_d`,
`mpfr_get_d`) -/
def cvt {F : Format} (G : Format) (md : RMode) : Fl F → Fl G
  | nan => nan
  | pinf => pinf
  | ninf => ninf
  | fin q _ => Fl.round md q

/-- `mpfr_add_d(z, x, y, md)`: exact sum of numbers of different formats, rounded to the format of
the first -/
def addMix {F G : Format} (md : RMode) : Fl F → Fl G → Fl F
  | nan, _ => nan
  | _, nan => nan
  | fin a _, fin b _ => Fl.round md (a + b)
  | pinf, ninf => nan
  | ninf, pinf => nan
  | pinf, _ => pinf
  | ninf, _ => ninf
  | _, pinf => pinf
  | _, ninf => ninf

/-- `mpfr_sub_d(z, x, y, md)` -/
def subMix {F G : Format} (md : RMode) (x : Fl F) (y : Fl G) : Fl F := addMix md x (Fl.neg y)

/-- `mpfrtodouble`, interval-conv.hpp:17-31; `rounded_converter`, interval-converter.hpp:43-57 -/
def mpfrtodouble {F : Format} (x : Fl F) (rnd : Dir) : Dbl := cvt binary64 rnd.mode x

/-- `ddtompfr`, interval-conv.hpp:33-49; `rounded_converter`, interval-converter.hpp:105-121 -/
def ddtompfr (F : Format) (x : DD) (rnd : Dir) : Fl F :=
  addMix rnd.mode (cvt F rnd.mode x.a1) x.a2

/-- `mpfrtodd`, interval-conv.hpp:51-77; `rounded_converter`, interval-converter.hpp:59-85 -/
def mpfrtodd {F : Format} (x : Fl F) (rnd : Dir) : DD :=
  let dtmp1 := mpfrtodouble x .near
  let mtmp := subMix rnd.mode x dtmp1
  let dtmp2 := mpfrtodouble mtmp rnd
  let (y1, y2) := twosum dtmp1 dtmp2
  ⟨y1, y2⟩

/-- `mpfrtompfr`, interval-conv.hpp:79-93; `rounded_converter`, interval-converter.hpp:126-140 -/
def mpfrtompfr {F : Format} (G : Format) (x : Fl F) (rnd : Dir) : Fl G := cvt G rnd.mode x

/-- `ddtodouble`, interval-conv.hpp:95-108; `rounded_converter`, interval-converter.hpp:19-32.
`rop<double>::add_up` and `add_down` are the addition in that mode. -/
def ddtodouble (x : DD) (rnd : Dir) : Dbl :=
  match rnd with
  | .up => Fl.add .up x.a1 x.a2
  | .down => Fl.add .down x.a1 x.a2
  | .near => Fl.add .near x.a1 x.a2

/-- `dd::operator=(double)`, dd.hpp:149-153; `rounded_converter`, interval-converter.hpp:36-39 -/
def doubletodd (x : Dbl) : DD := ⟨x, lit 0⟩

/-- `rounded_converter` from `double` to `mpfr<N>`, interval-converter.hpp:89-103 -/
def doubletompfr (F : Format) (x : Dbl) (rnd : Dir) : Fl F := cvt F rnd.mode x

/-- an interval with endpoints of any type -/
structure Ivl (α : Type) where
  lower : α
  upper : α

/-- `iddtoidouble`, interval-conv.hpp:110-114 -/
def iddtoidouble (x : Ivl DD) : Ivl Dbl := ⟨ddtodouble x.lower .down, ddtodouble x.upper .up⟩

/-- `idoubletoidd`, interval-conv.hpp:116-120 -/
def idoubletoidd (x : Ivl Dbl) : Ivl DD := ⟨doubletodd x.lower, doubletodd x.upper⟩

/-- `impfrtoidouble`, interval-conv.hpp:122-127 -/
def impfrtoidouble {F : Format} (x : Ivl (Fl F)) : Ivl Dbl :=
  ⟨mpfrtodouble x.lower .down, mpfrtodouble x.upper .up⟩

/-- `idoubletoimpfr`, interval-conv.hpp:129-134: the assignments are `mpfr::operator=`
(mpfr.hpp:64-67), which rounds to nearest -/
def idoubletoimpfr (F : Format) (x : Ivl Dbl) : Ivl (Fl F) :=
  ⟨cvt F .near x.lower, cvt F .near x.upper⟩

/-- `impfrtoidd`, interval-conv.hpp:136-141 -/
def impfrtoidd {F : Format} (x : Ivl (Fl F)) : Ivl DD :=
  ⟨mpfrtodd x.lower .down, mpfrtodd x.upper .up⟩

/-- `iddtoimpfr`, interval-conv.hpp:143-148 -/
def iddtoimpfr (F : Format) (x : Ivl DD) : Ivl (Fl F) :=
  ⟨ddtompfr F x.lower .down, ddtompfr F x.upper .up⟩

/-- `impfrtoimpfr`, interval-conv.hpp:150-155 -/
def impfrtoimpfr {F : Format} (G : Format) (x : Ivl (Fl F)) : Ivl (Fl G) :=
  ⟨mpfrtompfr G x.lower .down, mpfrtompfr G x.upper .up⟩

/-- `interval_converter` (called by `operator=` of interval.hpp:152-155), interval-converter.hpp:417-422,
for `double` to `mpfr<N>`.  For the other pairs of types it is the function above. -/
def conv_double_mpfr (F : Format) (x : Ivl Dbl) : Ivl (Fl F) :=
  ⟨doubletompfr F x.lower .down, doubletompfr F x.upper .up⟩

end Conv
end Kv
