import Verif.Interval.Elem
import Verif.Double.Elem

/-!
# Model of `autodif<T>` (/repo/kv/autodif.hpp)

A user function of the library is a template: the same text is instantiated with `interval<T>`,
`autodif<interval<T>>`, ....  It is modelled as an expression (`Expr`), evaluated in any type with the
interface `Scal` (the overload set used by `autodif.hpp`).  `interval<double>` is one such type and
`autodif<S>` is one for every such `S`, so nested automatic differentiation is covered by the model.

Scalar constants (`class C` of the mixed overloads) are doubles; interval constants are parameters.
-/

namespace Kv

/-- the four arithmetic operators -/
inductive Bin
  | add | sub | mul | div
  deriving DecidableEq, Repr

/-- unary minus and the elementary functions overloaded in autodif.hpp -/
inductive Un
  | neg | exp | log | sqrt | sin | cos | tan | asin | acos | atan | sinh | cosh | tanh | asinh | acosh | atanh
  deriving DecidableEq, Repr

/-- The overloads a template function can call. -/
class Scal (S : Type) where
  /-- `a + b`, ... -/
  bin : Bin → S → S → Res S
  /-- `a + c`, ... with a double `c` -/
  binC : Bin → S → D → Res S
  /-- `c + a`, ... with a double `c` -/
  cBin : Bin → D → S → Res S
  /-- `-a`, `exp(a)`, ... -/
  un : Un → S → Res S
  /-- `pow(a, int)` -/
  powI : S → ℤ → Res S
  /-- `pow(a, b)` -/
  pow : S → S → Res S
  /-- `S(c)`, conversion of a double -/
  ofC : D → S

/-- a template function of `n` variables -/
inductive Expr (n : ℕ)
  | var (i : Fin n)
  /-- an interval constant, looked up in the list of parameters -/
  | par (i : ℕ)
  | cst (k : D)
  | un (f : Un) (a : Expr n)
  | bin (o : Bin) (a b : Expr n)
  | binC (o : Bin) (a : Expr n) (k : D)
  | cBin (o : Bin) (k : D) (b : Expr n)
  | powI (a : Expr n) (y : ℤ)
  | pow (a b : Expr n)

/-- instantiation of the template function with the type `S`: variables `x`, interval constants `p` -/
def Expr.eval {S : Type} [Scal S] {n : ℕ} (p : ℕ → S) (x : Fin n → S) : Expr n → Res S
  | .var i => .ok (x i)
  | .par i => .ok (p i)
  | .cst k => .ok (Scal.ofC k)
  | .un f a => do Scal.un f (← a.eval p x)
  | .bin o a b => do
    let u ← a.eval p x
    let v ← b.eval p x
    Scal.bin o u v
  | .binC o a k => do Scal.binC o (← a.eval p x) k
  | .cBin o k b => do Scal.cBin o k (← b.eval p x)
  | .powI a y => do Scal.powI (← a.eval p x) y
  | .pow a b => do
    let u ← a.eval p x
    let v ← b.eval p x
    Scal.pow u v

open Rop (lit)

/-- the overloads of `interval<double>`; `fuel` bounds the loops of the elementary functions -/
@[reducible] def scalI (fuel : ℕ) : Scal (Interval D) where
  bin
    | .add, a, b => .ok (Interval.add a b)
    | .sub, a, b => .ok (Interval.sub a b)
    | .mul, a, b => .ok (Interval.mul a b)
    | .div, a, b => Interval.div a b
  binC
    | .add, a, k => .ok (Interval.addS a k)
    | .sub, a, k => .ok (Interval.subS a k)
    | .mul, a, k => .ok (Interval.mulS a k)
    | .div, a, k => Interval.divS a k
  cBin
    | .add, k, b => .ok (Interval.sAdd k b)
    | .sub, k, b => .ok (Interval.sSub k b)
    | .mul, k, b => .ok (Interval.sMul k b)
    | .div, k, b => Interval.sDiv k b
  un
    | .neg, a => .ok (Interval.neg a)
    | .exp, a => Interval.exp fuel a
    | .log, a => Interval.log fuel a
    | .sqrt, a => Interval.sqrt a
    | .sin, a => Interval.sin fuel a
    | .cos, a => Interval.cos fuel a
    | .tan, a => Interval.tan fuel a
    | .asin, a => Interval.asin fuel a
    | .acos, a => Interval.acos fuel a
    | .atan, a => Interval.atan fuel a
    | .sinh, a => Interval.sinh fuel a
    | .cosh, a => Interval.cosh fuel a
    | .tanh, a => Interval.tanh fuel a
    | .asinh, a => Interval.asinh fuel a
    | .acosh, a => Interval.acosh fuel a
    | .atanh, a => Interval.atanh fuel a
  powI := Interval.powInt
  pow := Interval.pow fuel
  ofC := Interval.point

/-- `class autodif` (autodif.hpp:34-38): value and gradient; an empty gradient marks a constant -/
structure Autodif (S : Type) where
  v : S
  d : List S
  deriving DecidableEq

namespace Autodif
variable {S : Type} [Scal S]

/-- elementwise sum/difference of two ublas vectors; different sizes are undefined behaviour -/
def vec2 (f : S → S → Res S) : List S → List S → Res (List S)
  | [], [] => .ok []
  | a :: s, b :: t => do
    let c ← f a b
    let r ← vec2 f s t
    .ok (c :: r)
  | _, _ => .error .undefined

/-- elementwise application of a scalar operation to a ublas vector -/
def vec1 (f : S → Res S) : List S → Res (List S)
  | [] => .ok []
  | a :: s => do
    let c ← f a
    let r ← vec1 f s
    .ok (c :: r)

/-- `operator+`, autodif.hpp:59-73 -/
def add (a b : Autodif S) : Res (Autodif S) := do
  let v ← Scal.bin .add a.v b.v
  if a.d.length = 0 then .ok ⟨v, b.d⟩
  else if b.d.length = 0 then .ok ⟨v, a.d⟩
  else .ok ⟨v, ← vec2 (Scal.bin .add) a.d b.d⟩

/-- `operator-`, autodif.hpp:104-118 -/
def sub (a b : Autodif S) : Res (Autodif S) := do
  let v ← Scal.bin .sub a.v b.v
  if a.d.length = 0 then .ok ⟨v, ← vec1 (Scal.un .neg) b.d⟩
  else if b.d.length = 0 then .ok ⟨v, a.d⟩
  else .ok ⟨v, ← vec2 (Scal.bin .sub) a.d b.d⟩

/-- `operator*`, autodif.hpp:157-171; ublas evaluates the sum of the two scaled vectors per element -/
def mul (a b : Autodif S) : Res (Autodif S) := do
  let v ← Scal.bin .mul a.v b.v
  if a.d.length = 0 then .ok ⟨v, ← vec1 (Scal.bin .mul a.v) b.d⟩
  else if b.d.length = 0 then .ok ⟨v, ← vec1 (Scal.bin .mul b.v) a.d⟩
  else
    let f := fun x y => do
      let s ← Scal.bin .mul b.v x
      let t ← Scal.bin .mul a.v y
      Scal.bin .add s t
    .ok ⟨v, ← vec2 f a.d b.d⟩

/-- `-a.v/(b.v*b.v)` (autodif.hpp:210, 214) -/
def quot (av bv : S) : Res S := do
  let n ← Scal.un .neg av
  let q ← Scal.bin .mul bv bv
  Scal.bin .div n q

/-- `operator/`, autodif.hpp:204-218 -/
def div (a b : Autodif S) : Res (Autodif S) := do
  let v ← Scal.bin .div a.v b.v
  if a.d.length = 0 then
    let q ← quot a.v b.v
    .ok ⟨v, ← vec1 (fun y => Scal.bin .mul y q) b.d⟩
  else if b.d.length = 0 then .ok ⟨v, ← vec1 (fun x => Scal.bin .div x b.v) a.d⟩
  else
    let q ← quot a.v b.v
    let f := fun x y => do
      let s ← Scal.bin .div x b.v
      let t ← Scal.bin .mul y q
      Scal.bin .add s t
    .ok ⟨v, ← vec2 f a.d b.d⟩

/-- mixed operators `autodif op C`: autodif.hpp:75-82, 120-127, 173-181, 220-228 -/
def opC (o : Bin) (a : Autodif S) (k : D) : Res (Autodif S) := do
  let v ← Scal.binC o a.v k
  match o with
  | .add => .ok ⟨v, a.d⟩
  | .sub => .ok ⟨v, a.d⟩
  | .mul => .ok ⟨v, ← vec1 (Scal.bin .mul (Scal.ofC k)) a.d⟩
  | .div => .ok ⟨v, ← vec1 (fun x => Scal.bin .div x (Scal.ofC k)) a.d⟩

/-- mixed operators `C op autodif`: autodif.hpp:84-91, 129-136, 183-191, 230-237 -/
def cOp (o : Bin) (k : D) (b : Autodif S) : Res (Autodif S) := do
  let v ← Scal.cBin o k b.v
  match o with
  | .add => .ok ⟨v, b.d⟩
  | .sub => .ok ⟨v, ← vec1 (Scal.un .neg) b.d⟩
  | .mul => .ok ⟨v, ← vec1 (Scal.bin .mul (Scal.ofC k)) b.d⟩
  | .div => do
    let q ← Scal.bin .mul b.v b.v
    let q ← Scal.cBin .div (Rop.neg k) q
    .ok ⟨v, ← vec1 (fun y => Scal.bin .mul y q) b.d⟩

/-- `s * x.d` -/
def scale (s : S) (d : List S) : Res (List S) := vec1 (Scal.bin .mul s) d

/-- the factor of `x.d` in the derivative of an elementary function with value `r` at `x`.
autodif.hpp: `exp` 282-291, `sin` 313-322, `cos` 324-333, `tan` 335-347, `asin` 349-358, `acos` 360-369,
`atan` 371-379, `sinh` 381-390, `cosh` 392-401, `tanh` 403-415, `asinh` 417-426, `acosh` 428-437,
`atanh` 439-447 -/
def slope (f : Un) (x r : S) : Res S :=
  match f with
  | .exp => .ok r
  | .sin => Scal.un .cos x
  | .cos => do Scal.un .neg (← Scal.un .sin x)
  | .tan => do
    let c ← Scal.un .cos x
    Scal.cBin .div (lit 1) (← Scal.bin .mul c c)
  | .asin => do
    let q ← Scal.cBin .sub (lit 1) (← Scal.bin .mul x x)
    Scal.cBin .div (lit 1) (← Scal.un .sqrt q)
  | .acos => do
    let q ← Scal.cBin .sub (lit 1) (← Scal.bin .mul x x)
    Scal.cBin .div (lit (-1)) (← Scal.un .sqrt q)
  | .atan => do
    let q ← Scal.cBin .add (lit 1) (← Scal.bin .mul x x)
    Scal.cBin .div (lit 1) q
  | .sinh => Scal.un .cosh x
  | .cosh => Scal.un .sinh x
  | .tanh => do
    let c ← Scal.un .cosh x
    Scal.cBin .div (lit 1) (← Scal.bin .mul c c)
  | .asinh => do
    let q ← Scal.binC .add (← Scal.bin .mul x x) (lit 1)
    Scal.cBin .div (lit 1) (← Scal.un .sqrt q)
  | .acosh => do
    let q ← Scal.binC .sub (← Scal.bin .mul x x) (lit 1)
    Scal.cBin .div (lit 1) (← Scal.un .sqrt q)
  | .atanh => do
    let q ← Scal.cBin .sub (lit 1) (← Scal.bin .mul x x)
    Scal.cBin .div (lit 1) q
  | _ => .error .undefined

/-- unary minus (autodif.hpp:148-155), `log` (293-301), `sqrt` (303-312), and the functions of
`slope` -/
def unary (f : Un) (x : Autodif S) : Res (Autodif S) := do
  let r ← Scal.un f x.v
  match f with
  | .neg => .ok ⟨r, ← vec1 (Scal.un .neg) x.d⟩
  | .log => .ok ⟨r, ← vec1 (fun t => Scal.bin .div t x.v) x.d⟩
  | .sqrt => do
    let s ← Scal.cBin .mul (lit 2) r
    .ok ⟨r, ← vec1 (fun t => Scal.bin .div t s) x.d⟩
  | f => do
    let s ← slope f x.v r
    .ok ⟨r, ← scale s x.d⟩

/-- `pow(autodif, int)`, autodif.hpp:256-267 (`y - 1` does not overflow: for `INT_MIN` the first call is
undefined already) -/
def powI (x : Autodif S) (y : ℤ) : Res (Autodif S) := do
  let v ← Scal.powI x.v y
  if y = 0 then .ok ⟨v, ← scale (Scal.ofC (lit 0)) x.d⟩
  else
    let p ← Scal.powI x.v (y - 1)
    let s ← Scal.cBin .mul (lit y) p
    .ok ⟨v, ← scale s x.d⟩

/-- `pow(autodif, autodif)`, autodif.hpp:269-271; the mixed overloads (273-279) convert the scalar to
`autodif` first -/
def pow (x y : Autodif S) : Res (Autodif S) := do
  let l ← unary .log x
  let m ← mul y l
  unary .exp m

/-- `autodif<S>` has the overloads of a scalar type -/
instance instScal : Scal (Autodif S) where
  bin
    | .add => add
    | .sub => sub
    | .mul => mul
    | .div => div
  binC := opC
  cBin := cOp
  un := unary
  powI := powI
  pow := pow
  ofC k := ⟨Scal.ofC k, []⟩

/-- `init` for vectors (autodif.hpp:450-465) -/
def init {n : ℕ} (x : Fin n → S) (i : Fin n) : Autodif S :=
  ⟨x i, List.ofFn fun j : Fin n => Scal.ofC (if i = j then lit 1 else lit 0)⟩

/-- interval constants become `autodif` by the converting constructor (autodif.hpp:45-48) -/
def lift (x : S) : Autodif S := ⟨x, []⟩

/-- The row of the matrix filled by `split` (autodif.hpp:479-503): missing entries are zero.  The
number of columns computed there is the length of the longest gradient; see `splitCols`. -/
def row (n : ℕ) (a : Autodif S) (j : Fin n) : S := a.d.getD j (Scal.ofC (lit 0))

/-- the number of columns of the matrix made by `split` (autodif.hpp:484-488) -/
def splitCols {m : ℕ} (a : Fin m → Autodif S) : ℕ := (List.ofFn fun i => (a i).d.length).foldr max 0

/-- `split` for functions R → R (autodif.hpp:538-541): `in.d(0)` of an empty gradient is undefined -/
def split1 (a : Autodif S) : Res (S × S) :=
  match a.d with
  | [] => .error .undefined
  | g :: _ => .ok (a.v, g)

/-- the first result of `compress` (autodif.hpp:545-577): the values with fresh unit gradients -/
def compress {n : ℕ} (x : Fin n → Autodif S) (i : Fin n) : Autodif S := init (fun k => (x k).v) i

/-- `save`, the second result of `compress`: the gradients of the arguments, filled up with zeros to
the common length `m` -/
def save {n : ℕ} (m : ℕ) (x : Fin n → Autodif S) (i : Fin n) (j : Fin m) : S := row m (x i) j

/-- `t = 0; t += d_i * c_i;` the inner product of ublas, started with the value `t` -/
def dotFrom (t : S) : List S → List S → Res S
  | [], [] => .ok t
  | a :: s, b :: r => do
    let p ← Scal.bin .mul a b
    let t' ← Scal.bin .add t p
    dotFrom t' s r
  | _, _ => .error .undefined

/-- the entries of a vector of results, in order -/
def seq : (m : ℕ) → (Fin m → Res S) → Res (List S)
  | 0, _ => .ok []
  | m + 1, f => do
    let a ← f 0
    let r ← seq m (fun j => f j.succ)
    .ok (a :: r)

/-- `expand` (autodif.hpp:580-588): `prod(in.d, save)`.  A gradient of the wrong length (also the empty
one of a constant) makes the product of ublas undefined. -/
def expand {n m : ℕ} (a : Autodif S) (c : Fin n → Fin m → S) : Res (Autodif S) := do
  .ok ⟨a.v, ← seq m fun j => dotFrom (Scal.ofC (lit 0)) a.d (List.ofFn fun i => c i j)⟩

end Autodif

/-- all components of a vector function -/
def evalVec {S : Type} [Scal S] {n : ℕ} (p : ℕ → S) (x : Fin n → S) : (m : ℕ) → (Fin m → Expr n) → Res (Fin m → S)
  | 0, _ => .ok Fin.elim0
  | m + 1, e => do
    let a ← (e 0).eval p x
    let r ← evalVec p x m (fun i => e i.succ)
    .ok (Fin.cons a r)

end Kv
