import Verif.Solver.LinLemmas

/-!
# Model of the verified simplex method (/repo/kv/lp.hpp:116-263)

`lp_minimize_verified(objfunc, constraints, round)` with `T = double`.  Minimise `c0 + c1*x1 + ...` subject to `x >= 0` and
`d0 + d1*x1 + ... <= 0` for every constraint.  The matrix `a` is a list of rows, all loops over it are total.

Simplifications: the loops `while (true)` carry fuel; an empty vector is `Err.undefined`.  The unverified `lp_minimize`
(lp.hpp:22-113) is not modelled.
-/

namespace Kv
open Rop (lit lt le)

namespace Lp

/-- `ub::matrix<T> a(m+1, n+1)` -/
abbrev Tab := List (List D)

/-- `a(i, j)` -/
def get (a : Tab) (i j : ℕ) : D := (a.getD i []).getD j (lit 0)

/-- a matrix with the entries `f i j`, `i <= m`, `j <= n` -/
def tab (m n : ℕ) (f : ℕ → ℕ → D) : Tab := (List.range (m + 1)).map fun i => (List.range (n + 1)).map (f i)

/-- `a(i, j) = v` -/
def put (a : Tab) (i j : ℕ) (v : D) : Tab := a.set i ((a.getD i []).set j v)

/-- the sign test of the constraints, lp.hpp:139-142, in the order of the list -/
def check : List (List D) → Res Unit
  | [] => .ok ()
  | [] :: _ => .error .undefined
  | (d :: _) :: t => if lt (lit 0) d then .error .domainError else check t

/-- the initial matrix, lp.hpp:130-152; `k = objfunc.size() - 1` -/
def entry (obj : List D) (cons : List (List D)) (k i j : ℕ) : D :=
  match i with
  | 0 => if j = 0 then obj.getD 0 (lit 0) else if j ≤ k then Rop.neg (obj.getD j (lit 0)) else lit 0
  | i + 1 =>
    let c := cons.getD i []
    if j = 0 then Rop.neg (c.getD 0 (lit 0))
    else if j ≤ k then (if j < c.length then c.getD j (lit 0) else lit 0)
    else if j = k + i + 1 then lit 1 else lit 0

/-- matrix, `isbasic`, `basic`; `fin` is not in the code: it records whether all entries have been finite so far -/
structure St where
  a : Tab
  isb : List Bool
  bas : List ℕ
  fin : Bool

/-- are all entries finite? -/
def finTab (a : Tab) : Bool := a.all fun r => r.all isFinD

/-- lp.hpp:161-170 -/
def pivotCol (a : Tab) (isb : List Bool) (n : ℕ) : Option ℕ :=
  ((List.range' 1 n).foldl (fun (s : Option ℕ × D) i =>
    if isb.getD i false then s else if lt s.2 (get a 0 i) then (some i, get a 0 i) else s) (none, lit 0)).1

/-- `std::numeric_limits<T>::max()` -/
def maxT : D := Hw.fin binary64.maxQ Format.maxQ_rep

/-- lp.hpp:173-182 -/
def pivotRow (a : Tab) (q m : ℕ) : Option ℕ :=
  ((List.range' 1 m).foldl (fun (s : Option ℕ × D) i =>
    if le (get a i q) (lit 0) then s
    else if lt (Rop.div (get a i 0) (get a i q)) s.2 then (some i, Rop.div (get a i 0) (get a i q)) else s) (none, maxT)).1

/-- `std::numeric_limits<T>::denorm_min()` -/
def denormMin : D := lit (2 ^ (-1074 : ℤ))

/-- `while (true)`, lp.hpp:193-200: the new `a(i, 0)` -/
def raise (Imin : Interval D) (aq : D) : ℕ → D → Res D
  | 0, _ => .error .outOfFuel
  | fuel + 1, b => do
    let It ← Interval.divS (Interval.point b) aq
    if lt Imin.sup It.inf then .ok b
    else raise Imin aq fuel (Interval.addS (Interval.point b) denormMin).sup

/-- `while (true)`, lp.hpp:203-211: the new `a(pivot_i, 0)` and `Imin` -/
def lower (It : Interval D) (aq : D) : ℕ → D → Interval D → Res (D × Interval D)
  | 0, _, _ => .error .outOfFuel
  | fuel + 1, b, Imin =>
    if lt Imin.sup It.inf then .ok (b, Imin)
    else do
      let b' := (Interval.subS (Interval.point b) denormMin).inf
      let Imin' ← Interval.divS (Interval.point b') aq
      lower It aq fuel b' Imin'

/-- one turn of the loop lp.hpp:189-213 -/
def adjustRow (fuel : ℕ) (round : ℤ) (p q : ℕ) (s : Tab × Interval D) (i : ℕ) : Res (Tab × Interval D) :=
  let a := s.1
  if le (get a i q) (lit 0) ∨ i = p then .ok s
  else if round = -1 then do
    let b ← raise s.2 (get a i q) fuel (get a i 0)
    .ok (put a i 0 b, s.2)
  else do
    let It ← Interval.divS (Interval.point (get a i 0)) (get a i q)
    let (b, Imin) ← lower It (get a p q) fuel (get a p 0) s.2
    .ok (put a p 0 b, Imin)

/-- lp.hpp:187-213 -/
def adjust (fuel : ℕ) (round : ℤ) (a : Tab) (p q m : ℕ) : Res Tab := do
  let Imin ← Interval.divS (Interval.point (get a p 0)) (get a p q)
  let s ← (List.range' 1 m).foldlM (adjustRow fuel round p q) (a, Imin)
  .ok s.1

/-- `Ia(pivot_i, j)` for the columns that are not basic, lp.hpp:219-226 -/
def pivRow (a : Tab) (isb : List Bool) (p q n : ℕ) : Res (List (Interval D)) :=
  (List.range (n + 1)).mapM fun j =>
    if isb.getD j false then .ok (Interval.point (lit 0)) else Interval.sDiv (get a p j) (Interval.point (get a p q))

/-- the new entry, lp.hpp:228-257 -/
def newEntry (a : Tab) (isb : List Bool) (row : List (Interval D)) (round : ℤ) (p q i j : ℕ) : D :=
  if isb.getD j false then
    if j = q then (if i = p then lit 1 else lit 0) else get a i j
  else
    let R := row.getD j (Interval.point (lit 0))
    if i = p then
      if (decide (j = 0) ^^ decide (round = 1)) then R.sup else R.inf
    else
      let I := Interval.sSub (get a i j) (Interval.mul R (Interval.point (get a i q)))
      if (decide (j = 0) ^^ decide (round = 1) ^^ decide (i = 0)) then I.sup else I.inf

/-- the loop `while (true)`, lp.hpp:160-258 -/
def loop (fi : ℕ) (round : ℤ) (m n : ℕ) : ℕ → St → Res St
  | 0, _ => .error .outOfFuel
  | fuel + 1, s =>
    match pivotCol s.a s.isb n with
    | none => .ok s
    | some q =>
      match pivotRow s.a q m with
      | none => .error .domainError
      | some p => do
        let a ← adjust fi round s.a p q m
        let isb := (s.isb.set (s.bas.getD p 0) false).set q true
        let row ← pivRow a isb p q n
        let a' := tab m n (newEntry a isb row round p q)
        loop fi round m n fuel ⟨a', isb, s.bas.set p q, s.fin && finTab a && finTab a'⟩

/-- the state before the loop, lp.hpp:118-158 -/
def start (obj : List D) (cons : List (List D)) : Res St := do
  if obj = [] then .error .undefined
  else do
    check cons
    let m := cons.length
    let k := obj.length - 1
    let a := tab m (k + m) (entry obj cons k)
    .ok ⟨a, List.replicate (k + 1) false ++ List.replicate m true, 0 :: List.range' (k + 1) m, finTab a⟩

/-- `lp_minimize_verified` with the whole final state; `fi`, `fo`: fuel of the inner and outer loops -/
def run (fi fo : ℕ) (round : ℤ) (obj : List D) (cons : List (List D)) : Res St := do
  let s ← start obj cons
  loop fi round cons.length (obj.length - 1 + cons.length) fo s

/-- `lp_minimize_verified(objfunc, constraints, round)`, lp.hpp:116-263 -/
def minimize (fi fo : ℕ) (round : ℤ) (obj : List D) (cons : List (List D)) : Res D := do
  let s ← run fi fo round obj cons
  .ok (get s.a 0 0)

end Lp
end Kv
