import Verif.Autodif.Model

/-!
# Model of `affine<double>` (/repo/kv/affine.hpp), affine arithmetic

An affine form is its vector of coefficients `a` (`a(0)` is the centre, `a(i)` belongs to the noise symbol `i`) and the
accumulated error `er`.  The static member `maxnum()` (the number of the newest noise symbol) is the state of the monad
`AM`; an exception leaves the state as it is at the `throw`.  Reading or writing outside a vector is `Err.undefined`.

Simplifications: base type `double`; the preprocessor variables have their default values `AFFINE_SIMPLE = 1` and
`AFFINE_MULT = 0` (affine.hpp:20-45), `EP_REDUCE_REVERSE` is not defined; `maxnum()` is a natural number (it is an `int`
starting with 0, overflow is not modelled) and, being thread-private, belongs to one thread; string arguments are converted
to intervals first; `std::exp` and `std::log` of `double` are arbitrary functions (fields of `Libm`), `std::sqrt` is the
correctly rounded one.
-/

namespace Kv
open Rop (lit addUp addDown subUp subDown mulUp mulDown divUp divDown)

/-- `class affine` (affine.hpp:84-89) -/
structure Form where
  a : List D
  er : D
  deriving DecidableEq

/-- the functions of the C library used to choose slopes, without any assumption on their accuracy -/
structure Libm where
  exp : D → D
  log : D → D

/-- a computation with affine forms; the state is `maxnum()` (affine.hpp:93-99) -/
def AM (α : Type) : Type := ℕ → Res α × ℕ

namespace AM
variable {α β : Type}

instance : Monad AM where
  pure a := fun m => (.ok a, m)
  bind x k := fun m => match x m with
    | (.ok a, m') => k a m'
    | (.error e, m') => (.error e, m')

/-- a computation that does not touch `maxnum()` -/
def lift (r : Res α) : AM α := fun m => (r, m)
/-- `maxnum()++`; the new value -/
def next : AM ℕ := fun m => (.ok (m + 1), m + 1)
/-- read `maxnum()` -/
def get : AM ℕ := fun m => (.ok m, m)
/-- `maxnum() = n` -/
def set (n : ℕ) : AM Unit := fun _ => (.ok (), n)

end AM

namespace Affine
open AM

/-- `x.a(i)`, zero beyond the end; this is `get_coef` (affine.hpp:192-195).  Accesses to the member `a` itself are modelled
with this function only where the index is inside the vector. -/
def c (x : Form) (i : ℕ) : D := x.a.getD i (lit 0)

/-- `x.a.size()` -/
def size (x : Form) : ℕ := x.a.length

/-- `e = f(i) + e`, rounded upwards, for `i = 0, ..., n-1` -/
def sumUp (n : ℕ) (e : D) (f : ℕ → D) : D := (List.range n).foldl (fun e i => addUp e (f i)) e

/-- a vector of `n` numbers -/
def vec (n : ℕ) (f : ℕ → D) : List D := (List.range n).map f

/-- `rad`, affine.hpp:101-118 -/
def rad (x : Form) : D :=
  addUp (sumUp (size x - 1) (lit 0) fun i => Rop.abs (c x (i + 1))) x.er

/-- `to_interval`, affine.hpp:120-129 -/
def toInterval (x : Form) : Res (Interval D) :=
  if size x = 0 then .error .undefined
  else
    let t1 := rad x
    .ok ⟨subDown (c x 0) t1, addUp (c x 0) t1⟩

/-- `affine(const C& x)` for a number, affine.hpp:135-141 and 162-170 -/
def ofScalar (k : D) : Form := ⟨[k], lit 0⟩

/-- `affine(const C& x)` for an interval, affine.hpp:143-160 and 172-190 -/
def ofInterval (I : Interval D) : AM Form := do
  let m ← next
  let a0 := mulUp (addUp I.sup I.inf) (lit (1 / 2))
  let am := subUp a0 I.inf
  return ⟨vec (m + 1) fun i => if i = 0 then a0 else if i = m then am else lit 0, lit 0⟩

/-- `get_mid`, affine.hpp:197-199 -/
def getMid (x : Form) : Res D := if size x = 0 then .error .undefined else .ok (c x 0)

/-- `get_err`, affine.hpp:201-207 -/
def getErr (x : Form) : D := x.er

/-- `x + y`, affine.hpp:209-272 -/
def add (x y : Form) : Form :=
  let xs := size x
  let ys := size y
  if xs > ys then
    ⟨vec xs fun i => if i < ys then addDown (c x i) (c y i) else c x i,
      addUp (addUp x.er y.er)
        (sumUp ys (lit 0) fun i => subUp (addUp (c x i) (c y i)) (addDown (c x i) (c y i)))⟩
  else
    ⟨vec ys fun i => if i < xs then addDown (c x i) (c y i) else c y i,
      addUp (addUp x.er y.er)
        (sumUp xs (lit 0) fun i => subUp (addUp (c x i) (c y i)) (addDown (c x i) (c y i)))⟩

/-- `append(x, y)`, affine.hpp:278-306: sums rounded to nearest -/
def append (x y : Form) : Form :=
  let xs := size x
  let ys := size y
  if xs > ys then
    ⟨vec xs fun i => if i < ys then Rop.add (c x i) (c y i) else c x i, Rop.add x.er y.er⟩
  else
    ⟨vec ys fun i => if i < xs then Rop.add (c x i) (c y i) else c y i, Rop.add x.er y.er⟩

/-- `x + k`, affine.hpp:309-344 (`r.a(0)` does not exist if `x` is empty) -/
def addC (x : Form) (k : D) : Res Form :=
  if size x = 0 then .error .undefined
  else
    let r0 := addDown (c x 0) k
    let err := subUp (addUp (c x 0) k) r0
    .ok ⟨vec (size x) fun i => if i = 0 then r0 else c x i, addUp x.er err⟩

/-- `k + y`, affine.hpp:346-381 -/
def cAdd (k : D) (y : Form) : Res Form :=
  if size y = 0 then .error .undefined
  else
    let r0 := addDown k (c y 0)
    let err := subUp (addUp k (c y 0)) r0
    .ok ⟨vec (size y) fun i => if i = 0 then r0 else c y i, addUp y.er err⟩

/-- `x - y`, affine.hpp:406-469 -/
def sub (x y : Form) : Form :=
  let xs := size x
  let ys := size y
  if xs > ys then
    ⟨vec xs fun i => if i < ys then subDown (c x i) (c y i) else c x i,
      addUp (addUp x.er y.er)
        (sumUp ys (lit 0) fun i => subUp (subUp (c x i) (c y i)) (subDown (c x i) (c y i)))⟩
  else
    ⟨vec ys fun i => if i < xs then subDown (c x i) (c y i) else Rop.neg (c y i),
      addUp (addUp x.er y.er)
        (sumUp xs (lit 0) fun i => subUp (subUp (c x i) (c y i)) (subDown (c x i) (c y i)))⟩

/-- `x - k`, affine.hpp:471-506 -/
def subC (x : Form) (k : D) : Res Form :=
  if size x = 0 then .error .undefined
  else
    let r0 := subDown (c x 0) k
    let err := subUp (subUp (c x 0) k) r0
    .ok ⟨vec (size x) fun i => if i = 0 then r0 else c x i, addUp x.er err⟩

/-- `k - y`, affine.hpp:508-543 -/
def cSub (k : D) (y : Form) : Res Form :=
  if size y = 0 then .error .undefined
  else
    let r0 := subDown k (c y 0)
    let err := subUp (subUp k (c y 0)) r0
    .ok ⟨vec (size y) fun i => if i = 0 then r0 else Rop.neg (c y i), addUp y.er err⟩

/-- `-x`, affine.hpp:568-576 -/
def neg (x : Form) : Form := ⟨x.a.map Rop.neg, x.er⟩

/-- `x * k`, affine.hpp:578-614 -/
def mulC (x : Form) (k : D) : Form :=
  let err := sumUp (size x) (lit 0) fun i => subUp (mulUp (c x i) k) (mulDown (c x i) k)
  ⟨vec (size x) fun i => mulDown (c x i) k, addUp (mulUp x.er (Rop.abs k)) err⟩

/-- `k * y`, affine.hpp:616-652 -/
def cMul (k : D) (y : Form) : Form :=
  let err := sumUp (size y) (lit 0) fun i => subUp (mulUp k (c y i)) (mulDown k (c y i))
  ⟨vec (size y) fun i => mulDown k (c y i), addUp (mulUp y.er (Rop.abs k)) err⟩

/-- `x * y`, affine.hpp:760-861.  The new noise symbol `m` gets all errors, `er` becomes 0.  Writing `r.a(i)` beyond
`maxnum()` is undefined. -/
def mul (x y : Form) : AM Form := do
  let m ← next
  let xs := size x
  let ys := size y
  if xs = 0 ∨ ys = 0 ∨ m + 1 < xs ∨ m + 1 < ys then lift (.error .undefined)
  else
    let r0 := mulDown (c x 0) (c y 0)
    let err := subUp (mulUp (c x 0) (c y 0)) r0
    let lo (i : ℕ) : D :=
      if xs > ys then
        if i < ys then addDown (mulDown (c y 0) (c x i)) (mulDown (c x 0) (c y i)) else mulDown (c y 0) (c x i)
      else
        if i < xs then addDown (mulDown (c y 0) (c x i)) (mulDown (c x 0) (c y i)) else mulDown (c x 0) (c y i)
    let hi (i : ℕ) : D :=
      if xs > ys then
        if i < ys then addUp (mulUp (c y 0) (c x i)) (mulUp (c x 0) (c y i)) else mulUp (c y 0) (c x i)
      else
        if i < xs then addUp (mulUp (c y 0) (c x i)) (mulUp (c x 0) (c y i)) else mulUp (c x 0) (c y i)
    let n := max xs ys
    let err := sumUp (n - 1) err fun i => subUp (hi (i + 1)) (lo (i + 1))
    let err := addUp err (mulUp (rad x) (rad y))
    let err := addUp err (addUp (mulUp (Rop.abs (c y 0)) x.er) (mulUp (Rop.abs (c x 0)) y.er))
    return ⟨vec (m + 1) fun i => if i = m then err else if i = 0 then r0 else if i < n then lo i else lit 0, lit 0⟩

/-- The common last part of `inv`, `sqrt`, `square`, `exp`, `log` and `abs` (affine.hpp:914-946, 1053-1085, 1117-1149,
1182-1214, 1251-1283, 1319-1351): `a * x + b` with `b` the centre of `range`. -/
def linear (m : ℕ) (x : Form) (a : D) (range : Interval D) : Res Form :=
  if size x = 0 ∨ m + 1 < size x then .error .undefined
  else
    let b := mulUp (addUp range.sup range.inf) (lit (1 / 2))
    let err := subUp b range.inf
    let err := sumUp (size x - 1) err fun i => subUp (mulUp (c x (i + 1)) a) (mulDown (c x (i + 1)) a)
    let l := addDown (mulDown (c x 0) a) b
    let u := addUp (mulUp (c x 0) a) b
    let r0 := mulUp (addUp l u) (lit (1 / 2))
    let err := addUp err (subUp r0 l)
    let err := addUp err (mulUp (Rop.abs a) x.er)
    .ok ⟨vec (m + 1) fun i => if i = m then err else if i = 0 then r0 else if i < size x then mulDown (c x i) a
      else lit 0, lit 0⟩

/-- slope and range of `inv`, affine.hpp:895-912 -/
def invRange (I : Interval D) : Res (D × Interval D) :=
  let l := I.inf
  let u := I.sup
  if Rop.lt l (lit 0) && Rop.lt (lit 0) u then .error .domainError
  else do
    let a := Rop.div (lit (-1)) (Rop.mul l u)
    let s ← Interval.sqrt (Interval.neg (Interval.point a))
    let range := if Rop.lt (lit 0) u then Interval.sMul (lit 2) s else Interval.sMul (lit (-2)) s
    let q ← Interval.sDiv (lit 1) (Interval.point l)
    let range := Interval.hull range (Interval.sub q (Interval.sMul a (Interval.point l)))
    let q ← Interval.sDiv (lit 1) (Interval.point u)
    let range := Interval.hull range (Interval.sub q (Interval.sMul a (Interval.point u)))
    return (a, range)

/-- a function given by its slope and range: `maxnum()++`, `to_interval`, slope and range, common last part -/
def unary (f : Interval D → Res (D × Interval D)) (x : Form) : AM Form := do
  let m ← next
  let I ← lift (toInterval x)
  let p ← lift (f I)
  lift (linear m x p.1 p.2)

/-- `inv`, affine.hpp:879-947 -/
def inv (x : Form) : AM Form := unary invRange x

/-- `x / y`, affine.hpp:949-951 -/
def div (x y : Form) : AM Form := do
  let r ← inv y
  mul x r

/-- `k / y`, affine.hpp:953-955 -/
def cDiv (k : D) (y : Form) : AM Form := do
  let r ← inv y
  return cMul k r

/-- `x / k`, affine.hpp:957-994 -/
def divC (x : Form) (k : D) : Form :=
  let err := sumUp (size x) (lit 0) fun i => subUp (divUp (c x i) k) (divDown (c x i) k)
  ⟨vec (size x) fun i => divDown (c x i) k, addUp err (divUp x.er (Rop.abs k))⟩

/-- slope and range of `sqrt`, affine.hpp:1036-1051 -/
def sqrtRange (I : Interval D) : Res (D × Interval D) :=
  let l := I.inf
  let u := I.sup
  if Rop.lt l (lit 0) then .error .domainError
  else do
    let a : D := Rop.div (lit 1) (Rop.add (Fl.sqrt .near l : Fl binary64) (Fl.sqrt .near u : Fl binary64))
    let range ← Interval.sDiv (lit 1) (Interval.sMul (lit 4) (Interval.point a))
    let s ← Interval.sqrt (Interval.point l)
    let range := Interval.hull range (Interval.sub s (Interval.sMul a (Interval.point l)))
    let s ← Interval.sqrt (Interval.point u)
    let range := Interval.hull range (Interval.sub s (Interval.sMul a (Interval.point u)))
    return (a, range)

/-- `sqrt`, affine.hpp:1020-1086 -/
def sqrt (x : Form) : AM Form := unary sqrtRange x

/-- slope and range of `square`, affine.hpp:1104-1115 -/
def squareRange (I : Interval D) : Res (D × Interval D) :=
  let l := I.inf
  let u := I.sup
  let a := Rop.add l u
  let t := Interval.point a
  let range := Interval.mulS (Interval.mul (Interval.neg t) t) (lit (1 / 4))
  let t := Interval.point l
  let range := Interval.hull range (Interval.mul t (Interval.subS t a))
  let t := Interval.point u
  let range := Interval.hull range (Interval.mul t (Interval.subS t a))
  .ok (a, range)

/-- `square`, affine.hpp:1088-1150 -/
def square (x : Form) : AM Form := unary squareRange x

/-- slope and range of `exp`, affine.hpp:1168-1180 -/
def expRange (L : Libm) (fuel : ℕ) (I : Interval D) : Res (D × Interval D) := do
  let l := I.inf
  let u := I.sup
  let a := if Rop.eq u l then L.exp u else Rop.div (Rop.sub (L.exp u) (L.exp l)) (Rop.sub u l)
  let g ← Interval.log fuel (Interval.point a)
  let range := Interval.mul (Interval.point a) (Interval.sSub (lit 1) g)
  let e ← Interval.exp fuel (Interval.point l)
  let range := Interval.hull range (Interval.sub e (Interval.sMul a (Interval.point l)))
  let e ← Interval.exp fuel (Interval.point u)
  let range := Interval.hull range (Interval.sub e (Interval.sMul a (Interval.point u)))
  return (a, range)

/-- `exp`, affine.hpp:1152-1215 -/
def exp (L : Libm) (fuel : ℕ) (x : Form) : AM Form := unary (expRange L fuel) x

/-- slope and range of `log`, affine.hpp:1233-1249 -/
def logRange (L : Libm) (fuel : ℕ) (I : Interval D) : Res (D × Interval D) :=
  let l := I.inf
  let u := I.sup
  if Rop.le l (lit 0) then .error .domainError
  else do
    let a := if Rop.eq u l then Rop.div (lit 1) u else Rop.div (Rop.sub (L.log u) (L.log l)) (Rop.sub u l)
    let q ← Interval.sDiv (lit 1) (Interval.point a)
    let g ← Interval.log fuel q
    let range := Interval.subS g (lit 1)
    let e ← Interval.log fuel (Interval.point l)
    let range := Interval.hull range (Interval.sub e (Interval.sMul a (Interval.point l)))
    let e ← Interval.log fuel (Interval.point u)
    let range := Interval.hull range (Interval.sub e (Interval.sMul a (Interval.point u)))
    return (a, range)

/-- `log`, affine.hpp:1217-1284 -/
def log (L : Libm) (fuel : ℕ) (x : Form) : AM Form := unary (logRange L fuel) x

/-- `abs`, affine.hpp:1286-1352.  The arguments of the two `hull`s are computed in `double`, rounded to nearest. -/
def abs (x : Form) : AM Form := do
  let I ← lift (toInterval x)
  let l := I.inf
  let u := I.sup
  if Rop.le (lit 0) l then return x
  else if Rop.le u (lit 0) then return neg x
  else
    let m ← next
    let a := Rop.div (Rop.add u l) (Rop.sub u l)
    let range := Interval.point (lit 0)
    let range := Interval.hullS range (Rop.sub u (Rop.mul a u))
    let range := Interval.hullS range (Rop.sub (Rop.neg l) (Rop.mul a l))
    lift (linear m x a range)

/-- loop of `pow(x, int)`, affine.hpp:1366-1372; `xp` is squared in the last round, too -/
def powLoop (r xp : Form) (n : ℕ) : AM Form :=
  if n = 0 then pure r
  else do
    let r ← if n % 2 ≠ 0 then mul r xp else pure r
    let xp ← mul xp xp
    powLoop r xp (n / 2)
termination_by n
decreasing_by omega

/-- `pow(x, int)`, affine.hpp:1355-1379; `-y` is undefined for the least `int` -/
def powI (x : Form) (y : ℤ) : AM Form :=
  if y = 0 then pure (ofScalar (lit 1))
  else if y = -2147483648 then lift (.error .undefined)
  else do
    let r ← powLoop (ofScalar (lit 1)) x y.natAbs
    if y < 0 then cDiv (lit 1) r else pure r

/-- `pow(x, y)`, affine.hpp:1381-1383 -/
def pow (L : Libm) (fuel : ℕ) (x y : Form) : AM Form := do
  let g ← log L fuel x
  let p ← mul y g
  exp L fuel p

/-- the scheme of the functions affine.hpp:1402-1615: `f0` is applied to the centre, `df` to the whole range -/
def lazyFn (f0 df : Interval D → Res (Interval D)) (x : Form) : AM Form := do
  if size x = 0 then lift (.error .undefined)
  else
    let tmp : Form := ⟨x.a.set 0 (lit 0), x.er⟩
    let r ← lift (f0 (Interval.point (c x 0)))
    let I ← lift (toInterval x)
    let r2 ← lift (df I)
    let m := Interval.mid r2
    let J ← lift (toInterval tmp)
    let r := Interval.add r (Interval.mul (Interval.subS r2 m) J)
    let s ← ofInterval r
    return add s (cMul m tmp)

/-- derivative used by `tan`, affine.hpp:1448 -/
def dTan (fuel : ℕ) (I : Interval D) : Res (Interval D) := do Interval.powInt (← Interval.cos fuel I) (-2)
/-- `1. / sqrt(1. - pow(I, 2))` with numerator `k`, affine.hpp:1466, 1484 -/
def dAsin (k : D) (I : Interval D) : Res (Interval D) := do
  let p ← Interval.powInt I 2
  let s ← Interval.sqrt (Interval.sSub (lit 1) p)
  Interval.sDiv k s
/-- the slope of `atan` used by the code, affine.hpp:1502: `1. / sqrt(1. + pow(I, 2))` -/
def dAtan (I : Interval D) : Res (Interval D) := do
  let p ← Interval.powInt I 2
  let s ← Interval.sqrt (Interval.sAdd (lit 1) p)
  Interval.sDiv (lit 1) s
/-- affine.hpp:1556 -/
def dTanh (fuel : ℕ) (I : Interval D) : Res (Interval D) := do Interval.powInt (← Interval.cosh fuel I) (-2)
/-- affine.hpp:1574 -/
def dAsinh (I : Interval D) : Res (Interval D) := do
  let p ← Interval.powInt I 2
  let s ← Interval.sqrt (Interval.addS p (lit 1))
  Interval.sDiv (lit 1) s
/-- affine.hpp:1592 -/
def dAcosh (I : Interval D) : Res (Interval D) := do
  let p ← Interval.powInt I 2
  let s ← Interval.sqrt (Interval.subS p (lit 1))
  Interval.sDiv (lit 1) s
/-- affine.hpp:1610 -/
def dAtanh (I : Interval D) : Res (Interval D) := do
  let p ← Interval.powInt I 2
  Interval.sDiv (lit 1) (Interval.sSub (lit 1) p)

/-- unary minus and the elementary functions (sin 1402, cos 1420, tan 1438, asin 1456, acos 1474, atan 1492, sinh 1510,
cosh 1528, tanh 1546, asinh 1564, acosh 1582, atanh 1600) -/
def un (L : Libm) (fuel : ℕ) : Un → Form → AM Form
  | .neg, x => pure (neg x)
  | .exp, x => exp L fuel x
  | .log, x => log L fuel x
  | .sqrt, x => sqrt x
  | .sin, x => lazyFn (Interval.sin fuel) (Interval.cos fuel) x
  | .cos, x => lazyFn (Interval.cos fuel) (fun I => do return Interval.neg (← Interval.sin fuel I)) x
  | .tan, x => lazyFn (Interval.tan fuel) (dTan fuel) x
  | .asin, x => lazyFn (Interval.asin fuel) (dAsin (lit 1)) x
  | .acos, x => lazyFn (Interval.acos fuel) (dAsin (lit (-1))) x
  | .atan, x => lazyFn (Interval.atan fuel) dAtan x
  | .sinh, x => lazyFn (Interval.sinh fuel) (Interval.cosh fuel) x
  | .cosh, x => lazyFn (Interval.cosh fuel) (Interval.sinh fuel) x
  | .tanh, x => lazyFn (Interval.tanh fuel) (dTanh fuel) x
  | .asinh, x => lazyFn (Interval.asinh fuel) dAsinh x
  | .acosh, x => lazyFn (Interval.acosh fuel) dAcosh x
  | .atanh, x => lazyFn (Interval.atanh fuel) dAtanh x

/-- the four operators -/
def bin : Bin → Form → Form → AM Form
  | .add, x, y => pure (add x y)
  | .sub, x, y => pure (sub x y)
  | .mul, x, y => mul x y
  | .div, x, y => div x y

/-- the four operators with a number on the right -/
def binC : Bin → Form → D → AM Form
  | .add, x, k => lift (addC x k)
  | .sub, x, k => lift (subC x k)
  | .mul, x, k => pure (mulC x k)
  | .div, x, k => pure (divC x k)

/-- the four operators with a number on the left -/
def cBin : Bin → D → Form → AM Form
  | .add, k, y => lift (cAdd k y)
  | .sub, k, y => lift (cSub k y)
  | .mul, k, y => pure (cMul k y)
  | .div, k, y => cDiv k y

/-- a template function instantiated with `affine<double>`: variables `x`, constants `p`.  Operands of an operator are
evaluated from left to right (this fixes only the numbering of the noise symbols). -/
def eval (L : Libm) (fuel : ℕ) {n : ℕ} (p : ℕ → Form) (x : Fin n → Form) : Expr n → AM Form
  | .var i => pure (x i)
  | .par i => pure (p i)
  | .cst k => pure (ofScalar k)
  | .un f a => do un L fuel f (← eval L fuel p x a)
  | .bin o a b => do
    let u ← eval L fuel p x a
    let v ← eval L fuel p x b
    bin o u v
  | .binC o a k => do binC o (← eval L fuel p x a) k
  | .cBin o k b => do cBin o k (← eval L fuel p x b)
  | .powI a y => do powI (← eval L fuel p x a) y
  | .pow a b => do
    let u ← eval L fuel p x a
    let v ← eval L fuel p x b
    pow L fuel u v

/-- `split(x, n, y, z)`, affine.hpp:1632-1650 -/
def split (x : Form) (n : ℕ) : Res (Form × Form) :=
  let s := size x
  if s ≤ n then .error .undefined
  else .ok (⟨vec s fun i => if i ≤ n then c x i else lit 0, lit 0⟩,
    ⟨vec s fun i => if i ≤ n then lit 0 else c x i, x.er⟩)

/-- `resize()`, affine.hpp:1652-1662 -/
def resize (x : Form) : AM Form := do
  let m ← get
  if size x < m + 1 then lift (.error .undefined)
  else return ⟨vec (m + 1) fun i => c x i, x.er⟩

/-- `calc_score`, affine.hpp:1695-1719, of the column `v` -/
def score : List D → Res D
  | [] => .error .undefined
  | [v0] => .ok (Rop.abs v0)
  | v0 :: v1 :: t =>
    let m1 := Rop.abs v0
    let m2 := Rop.abs v1
    let (m1, m2) := if Rop.lt m1 m2 then (m2, m1) else (m1, m2)
    let (m1, m2) := t.foldl (fun (p : D × D) v =>
      let tmp := Rop.abs v
      if Rop.lt p.1 tmp then (tmp, p.1) else if Rop.lt p.2 tmp then (p.1, tmp) else p) (m1, m2)
    if Rop.eq m1 (lit 0) then .ok (lit 0) else .ok (Rop.div (Rop.mul m1 m2) (Rop.add m1 m2))

/-- the scores of the noise symbols `1, ..., m` -/
def scores (x : List Form) : ℕ → Res (List D)
  | 0 => .ok []
  | m + 1 => do
    let l ← scores x m
    let s ← score (x.map fun f => c f (m + 1))
    .ok (l ++ [s])

/-- `epsilon_reduce(x, n, n_limit)`, affine.hpp:1733-1802, for `n, n_limit ≥ 0` (for a negative `n` the vector is returned
unchanged).  `sort` stands for `std::partial_sort`: from the scores of the symbols `1, ..., m` (and the number of the
ones to keep) it makes a list of the numbers `0, ..., m-1`. -/
def epsReduce (sort : List D → ℕ → List ℕ) (x : List Form) (n nLimit : ℕ) : AM (List Form) := do
  let s := x.length
  let m ← get
  let nLimit := if nLimit < n then n else nLimit
  if m ≤ nLimit then return x
  else if n < s then return x
  else
    let sc ← lift (scores x m)
    let pa := sort sc (n - s)
    if x.any (fun f => size f = 0) then lift (.error .undefined)
    else
      set n
      return (List.range s).map fun i =>
        let f := x.getD i ⟨[], lit 0⟩
        let col (j : ℕ) : D := c f (pa.getD j 0 + 1)
        let tmp := addUp (sumUp (m - (n - s)) (lit 0) fun j => Rop.abs (col (n - s + j))) f.er
        ⟨vec (n + 1) fun j => if j = 0 then c f 0 else if j ≤ n - s then col (j - 1)
          else if j = n - s + i + 1 then tmp else lit 0, lit 0⟩

/-- `epsilon_reduce2(x, n)`, affine.hpp:1808-1836, for `n ≥ 0`.  `resize(..., true)` of a ublas vector fills new places
with zeros. -/
def epsReduce2 (x : List Form) (n : ℕ) : AM (List Form) := do
  let s := x.length
  set (n + s)
  return (List.range s).map fun i =>
    let f := x.getD i ⟨[], lit 0⟩
    let tmp := addUp (sumUp (size f - (n + 1)) (lit 0) fun j => Rop.abs (c f (n + 1 + j))) f.er
    ⟨vec (n + 1 + i + 1) fun j => if j = n + 1 + i then tmp else if j ≤ n then c f j else lit 0, lit 0⟩

/-- the conversion of a vector of intervals into a vector of affine forms: one constructor call for each component -/
def ofBox : List (Interval D) → AM (List Form)
  | [] => pure []
  | I :: t => do
    let f ← ofInterval I
    let l ← ofBox t
    return f :: l

/-- a template function with numbers `k` as constants, called with the affine forms of a box, and the interval of the result
(the use of affine arithmetic for range bounding) -/
def evalBox (L : Libm) (fuel : ℕ) {n : ℕ} (k : ℕ → D) (I : List (Interval D)) (e : Expr n) : AM (Interval D) := do
  let x ← ofBox I
  let r ← eval L fuel (fun i => ofScalar (k i)) (fun i => x.getD i.val ⟨[], lit 0⟩) e
  lift (toInterval r)

end Affine
end Kv
