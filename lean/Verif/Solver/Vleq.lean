import Verif.Solver.LinAlg

/-!
# Model of `vleq` (/repo/kv/vleq.hpp): verified solution of linear equations

Base type `double`; the approximate inverse is an arbitrary function (`Inverter`).
-/

namespace Kv
open Rop (lit)
open LA

namespace Vleq
variable {n m : ℕ}

/-- `E - prod(R, a)` (point matrix minus interval matrix), vleq.hpp:47-49 -/
def emRA (R : Mat n n D) (a : Mat n n (Interval D)) : Mat n n (Interval D) := fun i j => Interval.sSub (eye i j) (prodSM R a i j)

/-- column `i` of the result, vleq.hpp:61-74: the approximate solution `xt` plus the error bound -/
def column (a : Mat n n (Interval D)) (norm1 norm2 : D) (xt : Vec n D) (b : Vec n (Interval D)) : Vec n (Interval D) :=
  let xtmp := pointV xt
  let rtmp : Vec n (Interval D) := fun i => Interval.sub (prodIV a xtmp i) (b i)
  let norm3 := maxNormIV rtmp
  let err := Rop.divUp (Rop.mulUp norm2 norm3) norm1
  fun j => Interval.add (xtmp j) ⟨Rop.neg err, err⟩

/-- vleq.hpp:45-77, with the approximate inverse `R` -/
def run (R : Mat n n D) (a : Mat n n (Interval D)) (b : Mat n m (Interval D)) : Option (Mat n m (Interval D)) :=
  let norm1 := Rop.subDown (lit 1) (maxNormIM (emRA R a))
  if Rop.le norm1 (lit 0) then none
  else
    let norm2 := maxNormSM R
    some fun i j => column a norm1 norm2 (prodSS R fun k => Interval.mid (b k j)) (fun k => b k j) i

end Vleq

/-- `vleq(a, b, x, r)` for a matrix of right-hand sides, vleq.hpp:24-78; `none` is the result `false` -/
def vleq {n m : ℕ} (inv : Inverter n) (a : Mat n n (Interval D)) (b : Mat n m (Interval D)) (r : Option (Mat n n D)) :
    Option (Mat n m (Interval D)) :=
  match r with
  | some R => Vleq.run R a b
  | none =>
    match inv (midM a) with
    | none => none
    | some R => Vleq.run R a b

/-- `vleq(a, b, x, r)` for a vector, vleq.hpp:84-109 -/
def vleqV {n : ℕ} (inv : Inverter n) (a : Mat n n (Interval D)) (b : Vec n (Interval D)) (r : Option (Mat n n D)) :
    Option (Vec n (Interval D)) :=
  match vleq inv a (fun i (_ : Fin 1) => b i) r with
  | none => none
  | some x => some fun i => x i 0

end Kv
