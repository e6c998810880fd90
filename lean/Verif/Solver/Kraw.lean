import Verif.Solver.LinAlg

/-!
# Model of `krawczyk_approx` (/repo/kv/kraw-approx.hpp) and `make_candidate` (/repo/kv/make-candidate.hpp)

The base type is `double`.  The approximate inverse is an arbitrary function (`Inverter`), the user
function is given by its two instantiations (`Prog`).  The printing under `verbose` is left out.
-/

namespace Kv
open Rop (lit)
open LA

namespace Kraw
variable {n : ℕ}

/-- `std::max(a, b)` for scalars -/
def stdMax (a b : D) : D := if Rop.lt a b then b else a

/-- kraw-approx.hpp:63-69: `tmp = max(1, |c2|)`, `tmp2 = max(0, |minus|)` -/
def maxAbs (t : D) (x : Vec n D) : D := (List.ofFn x).foldl (fun t a => stdMax t (Rop.abs a)) t

/-- The Newton iteration, kraw-approx.hpp:47-76; `none` is `return false` -/
def newton (inv : Inverter n) (P : Prog n) : ℕ → Vec n D → Res (Option (Vec n D))
  | 0, c2 => .ok (some c2)
  | k + 1, c2 => do
    match ← catchDom (P.FD (pointV c2)) with
    | none => .ok none
    | some (fc, fdc) =>
      match inv (midM fdc) with
      | none => .ok none
      | some R =>
        let minus := prodSS R (midV fc)
        let tmp := maxAbs (lit 1) c2
        let tmp2 := maxAbs (lit 0) minus
        let c3 : Vec n D := fun i => Rop.sub (c2 i) (minus i)
        if Rop.le tmp2 (Rop.mul tmp Rop.eps) then .ok (some c3) else newton inv P k c3

/-- `make_candidate`, make-candidate.hpp:16-38 (`NEWTON_TWICE` not defined) -/
def makeCandidate (x : Vec n D) : Vec n D :=
  let av := Rop.div (sumS x) (lit n)
  fun i => Rop.add (x i) av

/-- one entry of the candidate box, kraw-approx.hpp:98-104 -/
def inflate (n : ℕ) (c : D) (step : D) : Interval D :=
  let C : Interval D := Interval.point c
  let tmp := Rop.mul (Rop.mul (Rop.mul Rop.eps (Interval.norm C)) (lit (n + 1))) (lit 2)
  let tmp2 := Rop.mul (Rop.mul (lit (2 ^ (-1022 : ℤ))) (lit (n + 1))) (lit 2)
  let step := if Rop.lt step tmp then tmp else step
  let step := if Rop.lt step tmp2 then tmp2 else step
  Interval.add C (Interval.sMul step ⟨lit (-1), lit 1⟩)

/-- the matrix `M`, kraw-approx.hpp:118-120 -/
def matM (R : Mat n n D) (J : Mat n n (Interval D)) : Mat n n (Interval D) := fun i j =>
  Interval.sub (Interval.point (eye i j)) (prodSM R J i j)

/-- `C - Rfc + prod(M, I - C)`, kraw-approx.hpp:122 -/
def boxK (c : Vec n D) (Rfc : Vec n (Interval D)) (M : Mat n n (Interval D)) (I : Vec n (Interval D)) : Vec n (Interval D) := fun i =>
  Interval.add (Interval.sub (Interval.point (c i)) (Rfc i)) (prodIV M (fun j => Interval.sub (I j) (Interval.point (c j))) i)

/-- kraw-approx.hpp:78-134, after the Newton iteration: the candidate box `I` and the result `K` -/
def verify (inv : Inverter n) (P : Prog n) (c : Vec n D) : Res (Option (Vec n (Interval D) × Vec n (Interval D))) := do
  match ← catchDom (P.FD (pointV c)) with
  | none => .ok none
  | some (fc, fdc) =>
    match inv (midM fdc) with
    | none => .ok none
    | some R =>
      let Rfc := prodSV R fc
      let step := makeCandidate fun i => Interval.norm (Rfc i)
      let I : Vec n (Interval D) := fun i => inflate n (c i) (step i)
      match ← catchDom (P.FD I) with
      | none => .ok none
      | some (_, fdi) =>
        let K := boxK c Rfc (matM R fdi) I
        if properSubsetV K I then .ok (some (I, K)) else .ok none

end Kraw

/-- `krawczyk_approx(f, c, result, newton_max)`, kraw-approx.hpp:27-134: `some (I, K)` is `true` with result
`K`; `I` is the candidate box (printed as `I:` by the program) -/
def krawczykApprox {n : ℕ} (inv : Inverter n) (P : Prog n) (c : Vec n D) (newtonMax : ℕ) :
    Res (Option (Vec n (Interval D) × Vec n (Interval D))) := do
  match ← Kraw.newton inv P newtonMax c with
  | none => .ok none
  | some c2 => Kraw.verify inv P c2

/-- exact reciprocal, what `invert` computes for a matrix with one entry (LU factorisation: division of 1 by
the pivot; `lu_factorize` reports a zero pivot) -/
def inv1 : Inverter 1 := fun A => if Rop.eq (A 0 0) (lit 0) then none else some fun _ _ => Rop.div (lit 1) (A 0 0)

end Kv
