import Verif.Complex.Model

/-!
# Model of `smith_error` and `vdka` (/repo/kv/dka.hpp)

The base type is `double`.  A polynomial of formal degree `n` is the vector of its `n + 1` coefficients; a vector with another
number of approximations, or without a coefficient, makes the code read outside of a vector and is not modelled.
`dka` (dka.hpp:37-139), the floating-point iteration which proposes approximations of the zeros, is an arbitrary function.  For `n = 0` it reads outside of a vector, too.
-/

namespace Kv.Dka
open Rop (lit)

variable {n : ℕ}

/-- `complex<double>` -/
structure Cd where
  re : D
  im : D

/-- conversion to `complex< interval<double> >` -/
def Cd.toCx (x : Cd) : Cx := ⟨Interval.point x.re, Interval.point x.im⟩

/-- the loop in `eval_polynomial`, dka.hpp:28-30, with the coefficients from the leading one downwards -/
def horner (x : Cx) : Cx → List Cx → Cx
  | r, [] => r
  | r, a :: l => horner x (Cx.cAdd (Cx.cMul r x) a) l

/-- `eval_polynomial(p, x)`, dka.hpp:20-33 -/
def evalPolynomial (p : Fin (n + 1) → Cx) (x : Cx) : Cx :=
  horner x (p (Fin.last n)) ((List.finRange n).reverse.map fun i => p i.castSucc)

/-- `df`, dka.hpp:159-163 -/
def denom (p : Fin (n + 1) → Cx) (x : Fin n → Cx) (i : Fin n) : Cx :=
  (List.finRange n).foldl (fun df j => if j = i then df else Cx.cMul df (Cx.cSub (x i) (x j))) (p (Fin.last n))

/-- `zero_in(z.real() * z.real() + z.imag() * z.imag())`, dka.hpp:164, 211 -/
def maybeZero (z : Cx) : Bool := Interval.zeroIn (Interval.add (Interval.mul z.re z.re) (Interval.mul z.im z.im))

/-- `err`, dka.hpp:158-168 -/
def radius (p : Fin (n + 1) → Cx) (x : Fin n → Cx) (i : Fin n) : Res D := do
  let f := evalPolynomial p (x i)
  let df := denom p x i
  if maybeZero df then .ok Rop.inf
  else
    let a ← Cx.abs (← Cx.cDiv (Cx.kMulC (.dbl (lit n)) f) df)
    .ok a.sup

/-- dka.hpp:169-170 -/
def square (x : Cx) (err : D) : Cx :=
  let u : Interval D := Interval.sMul err ⟨lit (-1), lit 1⟩
  ⟨Interval.add x.re u, Interval.add x.im u⟩

/-- the first loop, dka.hpp:157-171, for the indices in the list -/
def squares (p : Fin (n + 1) → Cx) (x : Fin n → Cx) : List (Fin n) → (Fin n → Cx) → Res (Fin n → Cx)
  | [], x3 => .ok x3
  | i :: l, x3 => do
    let err ← radius p x i
    let b := square (x i) err
    squares p x l (Function.update x3 i b)

/-- the variables of the unification: `x3`, `unified` (`none` for `-1`), `flag` -/
structure U (n : ℕ) where
  x3 : Fin n → Cx
  unified : Fin n → Option (Fin n)
  flag : Bool

/-- dka.hpp:183 -/
def meets (a b : Cx) : Bool := Interval.overlap a.re b.re && Interval.overlap a.im b.im

/-- the body of the inner loop, dka.hpp:182-188 -/
def inner (i : Fin n) (s : U n) (j : Fin n) : U n :=
  if s.unified j ≠ none then s
  else if meets (s.x3 i) (s.x3 j) then
    { x3 := Function.update s.x3 i ⟨Interval.hull (s.x3 i).re (s.x3 j).re, Interval.hull (s.x3 i).im (s.x3 j).im⟩
      unified := Function.update s.unified j (some i)
      flag := false }
  else s

/-- the body of the outer loop, dka.hpp:180-189: `j` runs from `i` -/
def outer (s : U n) (i : Fin n) : U n :=
  if s.unified i ≠ none then s
  else ((List.finRange n).filter fun j => i ≤ j).foldl (inner i) s

/-- one pass of `while (true)`, dka.hpp:178-190: `i` runs to `n - 2` -/
def pass (s : U n) : U n :=
  ((List.finRange n).filter fun i => i.val + 1 < n).foldl outer { s with flag := true }

/-- `while (true)`, dka.hpp:177-192 -/
def passes : ℕ → U n → Res (U n)
  | 0, _ => .error .outOfFuel
  | fuel + 1, s =>
    let s := pass s
    if s.flag then .ok s else passes fuel s

/-- the last loop, dka.hpp:194-196 -/
def copyBack (s : U n) : Fin n → Cx :=
  (List.finRange n).foldl (fun x3 i => match s.unified i with
    | none => x3
    | some k => Function.update x3 i (x3 k)) s.x3

/-- `smith_error(p, x)`, dka.hpp:143-199 -/
def smithError (fuel : ℕ) (p : Fin (n + 1) → Cx) (x : Fin n → Cd) : Res (Fin n → Cx) := do
  let x3 ← squares p (fun i => (x i).toCx) (List.finRange n) fun _ => ⟨Interval.point (lit 0), Interval.point (lit 0)⟩
  let s ← passes fuel ⟨x3, fun _ => none, true⟩
  .ok (copyBack s)

/-- `vdka(p, result)`, dka.hpp:203-224; `none` when it returns `false` -/
def vdka (fuel : ℕ) (dka : (Fin (n + 1) → Cd) → Fin n → Cd) (p : Fin (n + 1) → Cx) : Res (Option (Fin n → Cx)) :=
  if maybeZero (p (Fin.last n)) then .ok none
  else do
    let x2 := dka fun i => ⟨Interval.mid (p i).re, Interval.mid (p i).im⟩
    .ok (some (← smithError fuel p x2))

end Kv.Dka
