import Verif.Solver.Vleq
import Verif.Complex.Model

/-!
# Model of `eig` and `veig` (/repo/kv/eig.hpp): eigenvalues of real matrices

Base type `double`.  Matrices are lists of rows here, so that the functions can be run.  The indices which the functions use are
inside of the matrices; the model has the value 0 elsewhere.  Indices are those of C++.
-/

namespace Kv
open Rop (lit)

namespace Eig

/-- `std::sqrt` -/
def dsqrt (x : D) : D := Fl.sqrt .near x

/-- `ub::matrix<double>` -/
abbrev LM : Type := List (List D)

variable {α : Type}

/-- `M(i, j)` -/
def get (z : α) (M : List (List α)) (i j : ℕ) : α := (M.getD i []).getD j z
/-- `M(i, j) = x` -/
def set (M : List (List α)) (i j : ℕ) (x : α) : List (List α) := M.modify i fun r => r.set j x

/-- `M(i, j)` for numbers -/
def at' (M : LM) (i j : ℕ) : D := get (lit 0) M i j

/-- `t = 0; t += a_k * b_k`, as in the products of ublas -/
def dot (a b : List D) : D := (List.zipWith Rop.mul a b).foldl Rop.add (lit 0)
/-- the columns of a matrix -/
def cols (M : List (List α)) : List (List α) := M.transpose
/-- `prod(A, B)` -/
def prod (A B : LM) : LM := A.map fun r => (cols B).map fun c => dot r c

/-- `project(M, range(r0, r1), range(c0, c1))` as a value -/
def proj (M : LM) (r0 r1 c0 c1 : ℕ) : LM := ((M.drop r0).take (r1 - r0)).map fun r => (r.drop c0).take (c1 - c0)
/-- `project(M, ..) = B`, the block beginning at `(r0, c0)` -/
def put (M : LM) (r0 c0 : ℕ) (B : LM) : LM :=
  M.zipIdx.map fun (r, i) => r.zipIdx.map fun (x, j) =>
    if r0 ≤ i ∧ c0 ≤ j then get x B (i - r0) (j - c0) else x

/-- `ub::identity_matrix<T>(n)` -/
def eye (n : ℕ) : LM := (List.range n).map fun i => (List.range n).map fun j => if i = j then lit 1 else lit 0

/-- `house(x, v, beta)`, eig.hpp:32-74 -/
def house (x : List D) : List D × D :=
  let x0 := x.headD (lit 0)
  let t := x.tail
  let sigma := t.foldl (fun s y => Rop.add s (Rop.mul y y)) (lit 0)
  if Rop.eq sigma (lit 0) then (lit 1 :: t, lit 0)
  else
    let mu := dsqrt (Rop.add (Rop.mul x0 x0) sigma)
    let v0 := if Rop.le x0 (lit 0) then Rop.sub x0 mu else Rop.div (Rop.neg sigma) (Rop.add x0 mu)
    let beta := Rop.div (Rop.mul (Rop.mul (lit 2) v0) v0) (Rop.add sigma (Rop.mul v0 v0))
    ((v0 :: t).map fun y => Rop.div y v0, beta)

/-- `identity_matrix<T>(n) - beta * prod(v, trans(v))` -/
def refl (v : List D) (beta : D) : LM :=
  v.zipIdx.map fun (a, i) => v.zipIdx.map fun (b, j) =>
    Rop.sub (if i = j then lit 1 else lit 0) (Rop.mul beta (Rop.add (lit 0) (Rop.mul a b)))

/-- one round of `hess`, eig.hpp:93-111 -/
def hessStep (n : ℕ) (s : LM × LM) (k : ℕ) : LM × LM :=
  let (Q, H) := s
  let x := (proj H (k + 1) n k (k + 1)).map fun r => r.headD (lit 0)
  let (v, beta) := house x
  let m := refl v beta
  let H := set H (k + 1) k (dot (m.headD []) x)
  let H := (List.range (n - (k + 2))).foldl (fun H i => set H (k + 2 + i) k (lit 0)) H
  let H := put H (k + 1) (k + 1) (prod m (proj H (k + 1) n (k + 1) n))
  let H := put H 0 (k + 1) (prod (proj H 0 n (k + 1) n) m)
  let Q := put Q 0 (k + 1) (prod (proj Q 0 n (k + 1) n) m)
  (Q, H)

/-- `hess(A, Q, H)`, eig.hpp:76-114 -/
def hess (A : LM) : LM × LM := (List.range (A.length - 2)).foldl (hessStep A.length) (eye A.length, A)

/-- the variables of the sweep: `H`, `x`, `y`, `z`, and the reflections with the first index of their rows, latest first -/
structure Sweep where
  H : LM
  x : D
  y : D
  z : D
  rs : List (ℕ × LM)

/-- the inner loop of `francisQR`, eig.hpp:139-164 (the updates of `Q` are done later, they do not influence the rest) -/
def sweepStep (n p : ℕ) (s : Sweep) (k : ℕ) : Sweep :=
  let (v, beta) := house [s.x, s.y, s.z]
  let m := refl v beta
  let r := max 1 k
  let H := put s.H k (r - 1) (prod m (proj s.H k (k + 3) (r - 1) n))
  let r := min (k + 4) p
  let H := put H 0 k (prod (proj H 0 r k (k + 3)) m)
  ⟨H, at' H (k + 1) k, at' H (k + 2) k, if k + 3 < p then at' H (k + 3) k else s.z, (k, m) :: s.rs⟩

/-- one round of the outer loop of `francisQR` up to the tests, eig.hpp:131-175, without `Q` -/
def sweep (n p : ℕ) (H : LM) : LM × List (ℕ × LM) :=
  let q := p - 1
  let s := Rop.add (at' H (q - 1) (q - 1)) (at' H (p - 1) (p - 1))
  let t := Rop.sub (Rop.mul (at' H (q - 1) (q - 1)) (at' H (p - 1) (p - 1))) (Rop.mul (at' H (q - 1) (p - 1)) (at' H (p - 1) (q - 1)))
  let x := Rop.add (Rop.sub (Rop.add (Rop.mul (at' H 0 0) (at' H 0 0)) (Rop.mul (at' H 0 1) (at' H 1 0))) (Rop.mul s (at' H 0 0))) t
  let y := Rop.mul (at' H 1 0) (Rop.sub (Rop.add (at' H 0 0) (at' H 1 1)) s)
  let z := Rop.mul (at' H 1 0) (at' H 2 1)
  let w := (List.range (p - 2)).foldl (sweepStep n p) ⟨H, x, y, z, []⟩
  let (v, beta) := house [w.x, w.y]
  let m := refl v beta
  let H := put w.H (q - 1) (p - 3) (prod m (proj w.H (q - 1) p (p - 3) n))
  let H := put H 0 (p - 2) (prod (proj H 0 p (p - 2) p) m)
  (H, (q - 1, m) :: w.rs)

/-- the tests for convergence, eig.hpp:180-186; the first one has the bracket of `abs` at another place than the second -/
def deflate (p : ℕ) (H : LM) : LM × ℕ :=
  let tol : D := lit (2 ^ (-52 : ℤ))
  let q := p - 1
  if Rop.lt (Rop.abs (at' H (p - 1) (q - 1))) (Rop.mul tol (Rop.abs (Rop.add (at' H (q - 1) (q - 1)) (Rop.abs (at' H (p - 1) (p - 1)))))) then
    (set H (p - 1) (q - 1) (lit 0), p - 1)
  else if Rop.lt (Rop.abs (at' H (p - 2) (q - 2))) (Rop.mul tol (Rop.add (Rop.abs (at' H (q - 2) (q - 2))) (Rop.abs (at' H (q - 1) (q - 1))))) then
    (set H (p - 2) (q - 2) (lit 0), p - 2)
  else (H, p)

/-- `Q` times the reflections -/
def updQ (n : ℕ) (rs : List (ℕ × LM)) (Q : LM) : LM :=
  rs.reverse.foldl (fun Q (k, m) => put Q 0 k (prod (proj Q 0 n k (k + m.length)) m)) Q

/-- `francisQR(Q, H)`, eig.hpp:116-189; `fuel` bounds the outer loop -/
def francisQR (n : ℕ) : ℕ → ℕ → LM → LM → Res (LM × LM)
  | 0, _, _, _ => .error .outOfFuel
  | fuel + 1, p, Q, H =>
    if 2 < p then
      let (H, rs) := sweep n p H
      let Q := updQ n rs Q
      let (H, p) := deflate p H
      francisQR n fuel p Q H
    else .ok (Q, H)

/-! ## `complex<double>`, complex.hpp -/

/-- `complex<double>` -/
structure Cd where
  re : D
  im : D
  deriving DecidableEq

namespace Cd
/-- complex.hpp:40-43 -/
def ofD (x : D) : Cd := ⟨x, lit 0⟩
/-- complex.hpp:67-74 -/
def add (x y : Cd) : Cd := ⟨Rop.add x.re y.re, Rop.add x.im y.im⟩
/-- complex.hpp:85-92 -/
def dAdd (x : D) (y : Cd) : Cd := ⟨Rop.add x y.re, y.im⟩
/-- complex.hpp:104-111 -/
def sub (x y : Cd) : Cd := ⟨Rop.sub x.re y.re, Rop.sub x.im y.im⟩
/-- complex.hpp:122-129 -/
def dSub (x : D) (y : Cd) : Cd := ⟨Rop.sub x y.re, Rop.neg y.im⟩
/-- complex.hpp:141-148 -/
def neg (x : Cd) : Cd := ⟨Rop.neg x.re, Rop.neg x.im⟩
/-- complex.hpp:150-157 -/
def mul (x y : Cd) : Cd := ⟨Rop.sub (Rop.mul x.re y.re) (Rop.mul x.im y.im), Rop.add (Rop.mul x.re y.im) (Rop.mul x.im y.re)⟩
/-- complex.hpp:168-175 -/
def dMul (x : D) (y : Cd) : Cd := ⟨Rop.mul x y.re, Rop.mul x y.im⟩
/-- complex.hpp:188-212 -/
def div (x y : Cd) : Cd :=
  let t := Rop.add (Rop.mul y.re y.re) (Rop.mul y.im y.im)
  ⟨Rop.div (Rop.add (Rop.mul y.re x.re) (Rop.mul y.im x.im)) t, Rop.div (Rop.sub (Rop.mul y.re x.im) (Rop.mul x.re y.im)) t⟩
/-- complex.hpp:214-221 -/
def divD (x : Cd) (y : D) : Cd := ⟨Rop.div x.re y, Rop.div x.im y⟩
/-- complex.hpp:223-251 -/
def dDiv (x : D) (y : Cd) : Cd :=
  let t := Rop.add (Rop.mul y.re y.re) (Rop.mul y.im y.im)
  ⟨Rop.div (Rop.mul y.re x) t, Rop.div (Rop.mul (Rop.neg x) y.im) t⟩
/-- complex.hpp:286-290; `std::pow(x, 2)` is taken as the square rounded to nearest -/
def abs (x : Cd) : D := dsqrt (Rop.add (Rop.mul x.re x.re) (Rop.mul x.im x.im))
/-- complex.hpp:301-309; only for numbers which are real and not negative, where `atan2` gives 0, `cos` 1 and `sin` 0.
Other arguments, for which the result depends on the mathematical library, have the distinct outcome `undefined`. -/
def sqrt (x : Cd) : Res Cd :=
  if Rop.eq x.im (lit 0) ∧ Rop.le (lit 0) x.re then
    let r := dsqrt (abs x)
    .ok ⟨Rop.mul r (lit 1), Rop.mul r (lit 0)⟩
  else .error .undefined
/-- both parts are zero -/
def isZero (x : Cd) : Bool := Rop.eq x.re (lit 0) && Rop.eq x.im (lit 0)
end Cd

/-- `ub::matrix<complex<double>>` -/
abbrev LC : Type := List (List Cd)
/-- `X(i, j)` -/
def atC (X : LC) (i j : ℕ) : Cd := get (Cd.ofD (lit 0)) X i j

/-- `lu_factorize_comp(LU, pm); lu_substitute_comp(LU, pm, b);`, eig.hpp:191-285, for the 2×2 matrices for which they are called.
The result `false` is ignored by the caller; where `pm` or `imax` are not set the outcome is undefined. -/
def luSolve2 (a00 a01 a10 a11 b0 b1 : Cd) : Res (Cd × Cd) :=
  let big (u v : Cd) : D :=
    let b := if Rop.lt (lit 0) u.abs then u.abs else lit 0
    if Rop.lt b v.abs then v.abs else b
  let g0 := big a00 a01
  let g1 := big a10 a11
  if Rop.eq g0 (lit 0) ∨ Rop.eq g1 (lit 0) then .error .undefined
  else
    let vv0 := Rop.div (lit 1) g0
    let vv1 := Rop.div (lit 1) g1
    let t0 := Rop.mul vv0 a00.abs
    let t1 := Rop.mul vv1 a10.abs
    if ¬ Rop.le (lit 0) t0 then .error .undefined
    else
      let swap : Bool := Rop.le t0 t1
      let (a00, a01, a10, a11, vv1) := if swap then (a10, a11, a00, a01, vv0) else (a00, a01, a10, a11, vv1)
      if Rop.eq a00.abs (lit 0) then .error .undefined
      else
        let a10 := Cd.mul a10 (Cd.dDiv (lit 1) a00)
        let a11 := Cd.sub a11 (Cd.mul a10 a01)
        if ¬ Rop.le (lit 0) (Rop.mul vv1 a11.abs) then .error .undefined
        else
          let (b0, b1) := if swap then (b1, b0) else (b0, b1)
          let b1 := Cd.sub b1 (Cd.mul a10 b0)
          let b1 := Cd.div b1 a11
          let b0 := Cd.div (Cd.sub b0 (Cd.mul a01 b1)) a00
          .ok (b0, b1)

/-- the eigenvalues, eig.hpp:303-334; `i` counts from 1.  For a 1×1 matrix the code reads the uninitialised variable `j`. -/
def values (n : ℕ) (A : LM) : ℕ → ℕ → Res (List Cd)
  | 0, _ => .error .outOfFuel
  | fuel + 1, i =>
    if n < i then .ok []
    else if n = 1 then .error .undefined
    else if i = n ∨ Rop.eq (at' A i (i - 1)) (lit 0) then do
      let r ← values n A fuel (i + 1)
      .ok (Cd.ofD (at' A (i - 1) (i - 1)) :: r)
    else do
      let a := at' A (i - 1) (i - 1)
      let d := at' A i i
      let tra := Rop.add a d
      let det := Rop.sub (Rop.mul a d) (Rop.mul (at' A (i - 1) i) (at' A i (i - 1)))
      let t ← Cd.sqrt (Cd.ofD (Rop.sub (Rop.mul tra tra) (Rop.mul (lit 4) det)))
      let am := Cd.dMul (lit (1 / 2)) (Cd.dAdd tra t)
      let ap := Cd.dMul (lit (1 / 2)) (Cd.dSub tra t)
      let r ← values n A fuel (i + 2)
      if Rop.lt (Rop.div (Cd.dSub a am).abs am.abs) (lit 1) then .ok (am :: ap :: r) else .ok (ap :: am :: r)

/-- the sum over `k = j+1, .., fmin(i+1, n)` of `A(row, k-1) * X(k-1, i-1)`, added to `b` -/
def partSum (n : ℕ) (A : LM) (X : LC) (i j row : ℕ) (b : Cd) : Cd :=
  (List.range (min (i + 1) n - j)).foldl (fun b k => Cd.add b (Cd.dMul (at' A row (j + k)) (atC X (j + k) (i - 1)))) b

/-- the loop `while (j>0)`, eig.hpp:348-427: `X` and the flag -/
def vector (n : ℕ) (A : LM) (dg : List Cd) (i : ℕ) : ℕ → ℕ → LC → Bool → Res (LC × Bool)
  | 0, _, _, _ => .error .outOfFuel
  | fuel + 1, j, X, flag =>
    if j = 0 then .ok (X, flag)
    else
      let k := min n (j + 1)
      let l := max 1 (j - 1)
      let di := dg.getD (i - 1) (Cd.ofD (lit 0))
      let dj := dg.getD (j - 1) (Cd.ofD (lit 0))
      let pair : Bool := ¬ Rop.eq dj.im (Rop.neg dj.im)
      if i = j then
        if ¬ Rop.eq (at' A (k - 1) (j - 1)) (lit 0) ∧ k ≠ j then
          let e := Cd.dSub (at' A j j) di
          let x := if Rop.lt (Rop.abs (at' A (j - 1) j)) e.abs then Cd.dDiv (Rop.neg (at' A j (j - 1))) e
            else Cd.divD (Cd.neg (Cd.dSub (at' A (j - 1) (j - 1)) di)) (at' A (j - 1) j)
          vector n A dg i fuel (j - 1) (set X j (i - 1) x) (flag && !pair)
        else if ¬ Rop.eq (at' A (j - 1) (l - 1)) (lit 0) ∧ l ≠ j then
          let e := Cd.dSub (at' A (j - 2) (j - 2)) di
          let x := if Rop.lt (Rop.abs (at' A (j - 1) (j - 2))) e.abs then Cd.dDiv (Rop.neg (at' A (j - 2) (j - 1))) e
            else Cd.divD (Cd.neg (Cd.dSub (at' A (j - 1) (j - 1)) di)) (at' A (j - 1) (j - 2))
          vector n A dg i fuel (j - 2) (set X (j - 2) (i - 1) x) (flag && !pair)
        else vector n A dg i fuel (j - 1) X flag
      else if ¬ Rop.eq (at' A (j - 1) (l - 1)) (lit 0) ∧ l ≠ j then do
        let b1 := partSum n A X i j (j - 2) (Cd.ofD (lit 0))
        let b2 := partSum n A X i j (j - 1) (Cd.ofD (lit 0))
        let a11 := Cd.dSub (at' A (j - 2) (j - 2)) di
        let a22 := Cd.dSub (at' A (j - 1) (j - 1)) di
        let (x1, x2) ← luSolve2 a11 (Cd.ofD (at' A (j - 2) (j - 1))) (Cd.ofD (at' A (j - 1) (j - 2))) a22 b1 b2
        vector n A dg i fuel (j - 2) (set (set X (j - 2) (i - 1) x1) (j - 1) (i - 1) x2) flag
      else
        let x := partSum n A X i j (j - 1) (atC X (j - 1) (i - 1))
        let d := Cd.sub dj di
        let x := if d.isZero && x.isZero then Cd.ofD (lit 0) else Cd.div (Cd.neg x) d
        vector n A dg i fuel (j - 1) (set X (j - 1) (i - 1) x) flag

/-- column `i`, eig.hpp:345-448 -/
def column (n : ℕ) (A : LM) (dg : List Cd) (s : LC × Bool) (i : ℕ) : Res (LC × Bool) :=
  let (X, flag) := s
  if flag then do
    let (X, flag) ← vector n A dg i (n + 1) i X true
    let nrm := dsqrt ((List.range n).foldl (fun s k => Rop.add s (Rop.mul (atC X k (i - 1)).abs (atC X k (i - 1)).abs)) (lit 0))
    .ok ((List.range n).foldl (fun X k => set X k (i - 1) (Cd.divD (atC X k (i - 1)) nrm)) X, flag)
  else
    .ok ((List.range n).foldl (fun X k => set X k (i - 1) ⟨(atC X k (i - 2)).re, Rop.neg (atC X k (i - 2)).im⟩) X, true)

/-- `eig2by2(P, A, V, D)`, eig.hpp:287-455: the matrix `V` -/
def eig2by2 (P A : LM) : Res LC := do
  let n := A.length
  let dg ← values n A (n + 1) 1
  let X : LC := (eye n).map fun r => r.map Cd.ofD
  let (X, _) ← (List.range n).foldlM (fun s k => column n A dg s (k + 1)) (X, true)
  .ok (P.map fun r => (cols X).map fun c => (List.zipWith Cd.dMul r c).foldl Cd.add (Cd.ofD (lit 0)))

/-- `eig(A, V, D)`, eig.hpp:457-474: the approximate eigenvectors; `fuel` bounds the loop of `francisQR` -/
def eig (fuel : ℕ) (A : LM) : Res LC := do
  let (Q, H) := hess A
  let (Q, H) ← francisQR A.length fuel A.length Q H
  eig2by2 Q H

/-! ## the verification -/

variable {n : ℕ}

/-- `BA = [Re X, -Im X; Im X, Re X]`, eig.hpp:497-507 -/
def blockA (X : Mat n n Cx) : Mat (n + n) (n + n) (Interval D) := fun i j =>
  Fin.addCases (fun i => Fin.addCases (fun j => (X i j).re) (fun j => Interval.neg (X i j).im) j)
    (fun i => Fin.addCases (fun j => (X i j).im) (fun j => (X i j).re) j) i

/-- `BC = [Re C; Im C]`, eig.hpp:509-516 -/
def blockC (C : Mat n n Cx) : Mat (n + n) n (Interval D) := fun i j =>
  Fin.addCases (fun i => (C i j).re) (fun i => (C i j).im) i

/-- one part (`o` selects the rows) of the result, eig.hpp:521-545: the middle of the diagonal element, plus the sum of the row
from which the middle has been subtracted -/
def part (G : Mat (n + n) n (Interval D)) (o : Fin n → Fin (n + n)) (i : Fin n) : Interval D :=
  let d : Interval D := Interval.point (Interval.mid (G (o i) i))
  let err := (List.ofFn fun j => if j = i then Interval.sub (G (o i) i) d else G (o i) j).foldl Interval.add (Interval.point (lit 0))
  Interval.add d err

/-- the verification, eig.hpp:484-551, with the approximate eigenvectors `V`.  If `vleq` fails its result is ignored and `G`
has the zeros of its construction. -/
def verify (inv : Inverter (n + n)) (A : Mat n n D) (V : Mat n n Cd) : Vec n Cx :=
  let X : Mat n n Cx := fun i j => ⟨Interval.point (V i j).re, Interval.point (V i j).im⟩
  let C : Mat n n Cx := fun i j =>
    (List.ofFn fun k => Cx.kMulC (.dbl (A i k)) (X k j)).foldl Cx.cAdd ⟨Interval.point (lit 0), Interval.point (lit 0)⟩
  let G := (vleq inv (blockA X) (blockC C) none).getD fun _ _ => Interval.point (lit 0)
  fun i => ⟨part G (Fin.castAdd n) i, part G (Fin.natAdd n) i⟩

end Eig

/-- `veig(A, v)` for a point matrix, eig.hpp:476-553; it always returns `true` -/
def veig {n : ℕ} (fuel : ℕ) (inv : Inverter (n + n)) (A : Mat n n D) : Res (Vec n Cx) := do
  let V ← Eig.eig fuel (List.ofFn fun i => List.ofFn (A i))
  .ok (Eig.verify inv A fun i j => Eig.atC V i j)

end Kv
