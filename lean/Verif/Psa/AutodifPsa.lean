import Verif.Psa.Model

/-!
# `autodif<psa<S>>` (/repo/kv/autodif.hpp with /repo/kv/psa.hpp)

The operations are those of `Verif/Autodif/Model.lean`, with the operations of power series for values and derivatives.  The operands are
evaluated from left to right (the order matters for the recorded history).
-/

namespace Kv
open Rop (lit)

namespace AutodifP
variable {S : Type} [Scal S]

/-- elementwise sum/difference of two ublas vectors; different sizes are undefined behaviour -/
def vec2 (f : List S → List S → PM S (List S)) : List (List S) → List (List S) → PM S (List (List S))
  | [], [] => return []
  | a :: s, b :: t => do
    let c ← f a b
    let r ← vec2 f s t
    return (c :: r)
  | _, _ => PM.lift (.error .undefined)

/-- elementwise application of a scalar operation to a ublas vector -/
def vec1 (f : List S → PM S (List S)) : List (List S) → PM S (List (List S))
  | [] => return []
  | a :: s => do
    let c ← f a
    let r ← vec1 f s
    return (c :: r)

/-- `operator+`, autodif.hpp:59-73 -/
def add (a b : Autodif (List S)) : PM S (Autodif (List S)) := do
  let v ← Psa.bin .add a.v b.v
  if a.d.length = 0 then return ⟨v, b.d⟩
  else if b.d.length = 0 then return ⟨v, a.d⟩
  else return ⟨v, ← vec2 (Psa.bin .add) a.d b.d⟩

/-- `operator-`, autodif.hpp:104-118 -/
def sub (a b : Autodif (List S)) : PM S (Autodif (List S)) := do
  let v ← Psa.bin .sub a.v b.v
  if a.d.length = 0 then return ⟨v, ← vec1 (Psa.un .neg) b.d⟩
  else if b.d.length = 0 then return ⟨v, a.d⟩
  else return ⟨v, ← vec2 (Psa.bin .sub) a.d b.d⟩

/-- `operator*`, autodif.hpp:157-171; ublas evaluates the sum of the two scaled vectors per element -/
def mul (a b : Autodif (List S)) : PM S (Autodif (List S)) := do
  let v ← Psa.bin .mul a.v b.v
  if a.d.length = 0 then return ⟨v, ← vec1 (Psa.bin .mul a.v) b.d⟩
  else if b.d.length = 0 then return ⟨v, ← vec1 (Psa.bin .mul b.v) a.d⟩
  else
    let f := fun x y => do
      let s ← Psa.bin .mul b.v x
      let t ← Psa.bin .mul a.v y
      Psa.bin .add s t
    return ⟨v, ← vec2 f a.d b.d⟩

/-- `-a.v/(b.v*b.v)` (autodif.hpp:210, 214) -/
def quot (av bv : List S) : PM S (List S) := do
  let n ← Psa.un .neg av
  let q ← Psa.bin .mul bv bv
  Psa.bin .div n q

/-- `operator/`, autodif.hpp:204-218 -/
def div (a b : Autodif (List S)) : PM S (Autodif (List S)) := do
  let v ← Psa.bin .div a.v b.v
  if a.d.length = 0 then
    let q ← quot a.v b.v
    return ⟨v, ← vec1 (fun y => Psa.bin .mul y q) b.d⟩
  else if b.d.length = 0 then return ⟨v, ← vec1 (fun x => Psa.bin .div x b.v) a.d⟩
  else
    let q ← quot a.v b.v
    let f := fun x y => do
      let s ← Psa.bin .div x b.v
      let t ← Psa.bin .mul y q
      Psa.bin .add s t
    return ⟨v, ← vec2 f a.d b.d⟩

/-- mixed operators `autodif op C`: autodif.hpp:75-82, 120-127, 173-181, 220-228 -/
def opC (o : Bin) (a : Autodif (List S)) (k : D) : PM S (Autodif (List S)) := do
  let v ← Psa.binC o a.v k
  match o with
  | .add => return ⟨v, a.d⟩
  | .sub => return ⟨v, a.d⟩
  | .mul => return ⟨v, ← vec1 (Psa.bin .mul [Scal.ofC k]) a.d⟩
  | .div => return ⟨v, ← vec1 (fun x => Psa.bin .div x [Scal.ofC k]) a.d⟩

/-- mixed operators `C op autodif`: autodif.hpp:84-91, 129-136, 183-191, 230-237 -/
def cOp (o : Bin) (k : D) (b : Autodif (List S)) : PM S (Autodif (List S)) := do
  let v ← Psa.cBin o k b.v
  match o with
  | .add => return ⟨v, b.d⟩
  | .sub => return ⟨v, ← vec1 (Psa.un .neg) b.d⟩
  | .mul => return ⟨v, ← vec1 (Psa.bin .mul [Scal.ofC k]) b.d⟩
  | .div => do
    let q ← Psa.bin .mul b.v b.v
    let q ← Psa.cBin .div (Rop.neg k) q
    return ⟨v, ← vec1 (fun y => Psa.bin .mul y q) b.d⟩

/-- `s * x.d` -/
def scale (s : List S) (d : List (List S)) : PM S (List (List S)) := vec1 (Psa.bin .mul s) d

/-- the factor of `x.d` in the derivative of an elementary function with value `r` at `x`.
autodif.hpp: `exp` 282-291, `sin` 313-322, `cos` 324-333, `tan` 335-347, `asin` 349-358, `acos` 360-369,
`atan` 371-379, `sinh` 381-390, `cosh` 392-401, `tanh` 403-415, `asinh` 417-426, `acosh` 428-437,
`atanh` 439-447 -/
def slope (f : Un) (x r : List S) : PM S (List S) :=
  match f with
  | .exp => return r
  | .sin => Psa.un .cos x
  | .cos => do Psa.un .neg (← Psa.un .sin x)
  | .tan => do
    let c ← Psa.un .cos x
    Psa.cBin .div (lit 1) (← Psa.bin .mul c c)
  | .asin => do
    let q ← Psa.cBin .sub (lit 1) (← Psa.bin .mul x x)
    Psa.cBin .div (lit 1) (← Psa.un .sqrt q)
  | .acos => do
    let q ← Psa.cBin .sub (lit 1) (← Psa.bin .mul x x)
    Psa.cBin .div (lit (-1)) (← Psa.un .sqrt q)
  | .atan => do
    let q ← Psa.cBin .add (lit 1) (← Psa.bin .mul x x)
    Psa.cBin .div (lit 1) q
  | .sinh => Psa.un .cosh x
  | .cosh => Psa.un .sinh x
  | .tanh => do
    let c ← Psa.un .cosh x
    Psa.cBin .div (lit 1) (← Psa.bin .mul c c)
  | .asinh => do
    let q ← Psa.binC .add (← Psa.bin .mul x x) (lit 1)
    Psa.cBin .div (lit 1) (← Psa.un .sqrt q)
  | .acosh => do
    let q ← Psa.binC .sub (← Psa.bin .mul x x) (lit 1)
    Psa.cBin .div (lit 1) (← Psa.un .sqrt q)
  | .atanh => do
    let q ← Psa.cBin .sub (lit 1) (← Psa.bin .mul x x)
    Psa.cBin .div (lit 1) q
  | _ => PM.lift (.error .undefined)

/-- unary minus (autodif.hpp:148-155), `log` (293-301), `sqrt` (303-312), and the functions of
`slope` -/
def unary (f : Un) (x : Autodif (List S)) : PM S (Autodif (List S)) := do
  let r ← Psa.un f x.v
  match f with
  | .neg => return ⟨r, ← vec1 (Psa.un .neg) x.d⟩
  | .log => return ⟨r, ← vec1 (fun t => Psa.bin .div t x.v) x.d⟩
  | .sqrt => do
    let s ← Psa.cBin .mul (lit 2) r
    return ⟨r, ← vec1 (fun t => Psa.bin .div t s) x.d⟩
  | f => do
    let s ← slope f x.v r
    return ⟨r, ← scale s x.d⟩

/-- `pow(autodif, int)`, autodif.hpp:256-267 (`y - 1` does not overflow: for `INT_MIN` the first call is
undefined already) -/
def powI (x : Autodif (List S)) (y : ℤ) : PM S (Autodif (List S)) := do
  let v ← Psa.powI x.v y
  if y = 0 then return ⟨v, ← scale [Scal.ofC (lit 0)] x.d⟩
  else
    let p ← Psa.powI x.v (y - 1)
    let s ← Psa.cBin .mul (lit y) p
    return ⟨v, ← scale s x.d⟩

/-- `pow(autodif, autodif)`, autodif.hpp:269-271; the mixed overloads (273-279) convert the scalar to
`autodif` first -/
def pow (x y : Autodif (List S)) : PM S (Autodif (List S)) := do
  let l ← unary .log x
  let m ← mul y l
  unary .exp m

end AutodifP

/-- instantiation of a template function with `autodif<psa<S>>` -/
def Expr.evalAP {S : Type} [Scal S] {n : ℕ} (p : ℕ → S) (x : Fin n → Autodif (List S)) : Expr n → PM S (Autodif (List S))
  | .var i => return x i
  | .par i => return ⟨[p i], []⟩
  | .cst k => return ⟨[Scal.ofC k], []⟩
  | .un f a => do AutodifP.unary f (← a.evalAP p x)
  | .bin o a b => do
    let u ← a.evalAP p x
    let v ← b.evalAP p x
    match o with
    | .add => AutodifP.add u v
    | .sub => AutodifP.sub u v
    | .mul => AutodifP.mul u v
    | .div => AutodifP.div u v
  | .binC o a k => do AutodifP.opC o (← a.evalAP p x) k
  | .cBin o k b => do AutodifP.cOp o k (← b.evalAP p x)
  | .powI a y => do AutodifP.powI (← a.evalAP p x) y
  | .pow a b => do
    let u ← a.evalAP p x
    let v ← b.evalAP p x
    AutodifP.pow u v

end Kv
