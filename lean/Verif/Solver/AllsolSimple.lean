import Verif.Solver.Vleq

/-!
# Model of `allsol_simple` (/repo/kv/allsol-simple.hpp)

Base type `double`; the approximate inverse is an arbitrary function (`Inverter`), the user function is given by its
two instantiations (`Prog`).  The counters and the printing are left out, except that a box given up with the message
"too small interval" is recorded in the state.  The two lists `solutions` and `solutions_big`, always extended and traversed
together, are one list of pairs.  The loops without a bound (the main loop, the two refinement loops) get `fuel`.
-/

namespace Kv
open Rop (lit)
open LA

namespace AllsolSimple
variable {n : ℕ}

/-- `search_maxwidth`, allsol-simple.hpp:28-42; `none`: no width is positive and the index returned is uninitialised -/
def searchMaxwidth (I : Vec n (Interval D)) : Option (Fin n) :=
  ((List.finRange n).foldl (fun (s : D × Option (Fin n)) i =>
    let tmp := Interval.width (I i)
    if Rop.lt s.1 tmp then (tmp, some i) else s) (lit 0, none)).2

/-- `widthratio_max`, allsol-simple.hpp:46-59 -/
def widthratioMax (I J : Vec n (Interval D)) : D :=
  maxFold (List.ofFn fun i => Rop.div (Interval.width (I i)) (Interval.width (J i)))

/-- `widthratio_min`, allsol-simple.hpp:63-76 -/
def widthratioMin (I J : Vec n (Interval D)) : D :=
  (List.ofFn fun i => Rop.div (Interval.width (I i)) (Interval.width (J i))).foldl (fun r tmp => if Rop.lt tmp r then tmp else r) Rop.maxv

/-- `C - prod(R, f(C)) + prod(M, K - C)` with `C = mid(K)`, allsol-simple.hpp:181-182 and 209-210; exceptions are not caught here -/
def image (P : Prog n) (R : Mat n n D) (M : Mat n n (Interval D)) (K : Vec n (Interval D)) : Res (Vec n (Interval D)) := do
  let C := pointV (midV K)
  let fC ← P.F C
  .ok fun i => Interval.add (Interval.sub (C i) (prodSV R fC i)) (prodIV M (fun j => Interval.sub (K j) (C j)) i)

/-- the inner loop, allsol-simple.hpp:180-192: shrink `K` until it lies in `p2` or is disjoint from `p`; the flag is
`flag2` -/
def separate (P : Prog n) (R : Mat n n D) (M : Mat n n (Interval D)) (p p2 : Vec n (Interval D)) :
    ℕ → Vec n (Interval D) → Res (Vec n (Interval D) × Bool)
  | 0, _ => .error .outOfFuel
  | k + 1, K => do
    let I1 ← image P R M K
    let K := intersectV K I1
    if subsetV K p2 then .ok (K, true)
    else if !overlapV K p then .ok (K, false)
    else separate P R M p p2 k K

/-- is the solution already known?  allsol-simple.hpp:171-203; `none`: it is (`flag` is false) -/
def known (fuel : ℕ) (P : Prog n) (R : Mat n n D) (M : Mat n n (Interval D)) (I : Vec n (Interval D)) :
    List (Vec n (Interval D) × Vec n (Interval D)) → Vec n (Interval D) → Res (Option (Vec n (Interval D)))
  | [], K => .ok (some K)
  | (p, p2) :: l, K =>
    if overlapV K p then
      if subsetV K p2 || subsetV p I then .ok none
      else do
        let (K, flag2) ← separate P R M p p2 fuel K
        if flag2 then .ok none else known fuel P R M I l K
    else known fuel P R M I l K

/-- iterative refinement, allsol-simple.hpp:208-215 -/
def refine (P : Prog n) (R : Mat n n D) (M : Mat n n (Interval D)) : ℕ → Vec n (Interval D) → Res (Vec n (Interval D))
  | 0, _ => .error .outOfFuel
  | k + 1, K => do
    let I1 ← image P R M K
    let I1 := intersectV K I1
    if Rop.lt (lit (9 / 10)) (widthratioMin I1 K) then .ok I1 else refine P R M k I1

/-- what happens to a box -/
inductive Out (n : ℕ)
  /-- no zero in the box, or the zero is already known -/
  | drop
  /-- a new solution `K` found in `I` -/
  | found (K I : Vec n (Interval D))
  /-- boxes to be examined -/
  | push (l : List (Vec n (Interval D)))
  /-- "too small interval" -/
  | giveUp (I : Vec n (Interval D))

/-- `I(mi).assign(..)` for the two halves, allsol-simple.hpp:246-248 -/
def setI (I : Vec n (Interval D)) (mi : Fin n) (Z : Interval D) : Vec n (Interval D) := fun i => if i = mi then Z else I i

/-- division of the box, allsol-simple.hpp:234-250 -/
def divide (I : Vec n (Interval D)) : Res (Out n) :=
  match searchMaxwidth I with
  | none => .error .undefined
  | some mi =>
    let tmp := Interval.mid (I mi)
    if Rop.eq tmp (I mi).inf || Rop.eq tmp (I mi).sup then .ok (.giveUp I)
    else .ok (.push [setI I mi ⟨(I mi).inf, tmp⟩, setI I mi ⟨tmp, (I mi).sup⟩])

/-- the test after the inversion, allsol-simple.hpp:162-232 -/
def krawTest (fuel : ℕ) (P : Prog n) (sols : List (Vec n (Interval D) × Vec n (Interval D))) (I C fc : Vec n (Interval D))
    (fdi : Mat n n (Interval D)) (R : Mat n n D) : Res (Out n) :=
  let M := Vleq.emRA R fdi
  let Rfc := prodSV R fc
  let CK : Vec n (Interval D) := fun i => Interval.sub (C i) (Rfc i)
  let K : Vec n (Interval D) := fun i => Interval.add (CK i) (prodIV M (fun j => Interval.sub (I j) (C j)) i)
  if !overlapV K I then .ok .drop
  else if properSubsetV K I then do
    match ← known fuel P R M I sols K with
    | none => .ok .drop
    | some K => do
      let K ← refine P R M fuel K
      .ok (.found K I)
  else if Rop.lt (widthratioMax K I) (lit (9 / 10)) then .ok (.push [K])
  else divide (intersectV I K)

/-- one pass of the main loop, allsol-simple.hpp:118-251 -/
def step (fuel : ℕ) (inv : Inverter n) (P : Prog n) (sols : List (Vec n (Interval D) × Vec n (Interval D))) (I : Vec n (Interval D)) :
    Res (Out n) := do
  match ← catchDom (P.F I) with
  | none => divide I
  | some fi =>
    if !zeroInV fi then .ok .drop
    else
      let C := pointV (midV I)
      match ← catchDom (do
          let fc ← P.F C
          let r ← P.FD I
          .ok (fc, r.2)) with
      | none => divide I
      | some (fc, fdi) =>
        let mvf : Vec n (Interval D) := fun i => Interval.add (fc i) (prodIV fdi (fun j => Interval.sub (I j) (C j)) i)
        if !zeroInV mvf then .ok .drop
        else
          match inv (midM fdi) with
          | none => divide I
          | some R => krawTest fuel P sols I C fc fdi R

/-- the state of the main loop -/
structure St (n : ℕ) where
  /-- `targets` -/
  targets : List (Vec n (Interval D))
  /-- `solutions` and `solutions_big` -/
  sols : List (Vec n (Interval D) × Vec n (Interval D))
  /-- boxes given up with a message -/
  given : List (Vec n (Interval D))

/-- effect of one pass on the state -/
def St.apply (s : St n) (rest : List (Vec n (Interval D))) : Out n → St n
  | .drop => { s with targets := rest }
  | .found K I => { s with targets := rest, sols := s.sols ++ [(K, I)] }
  | .push l => { s with targets := rest ++ l }
  | .giveUp I => { s with targets := rest, given := s.given ++ [I] }

/-- the main loop, allsol-simple.hpp:113-252 -/
def loop (fuel : ℕ) (inv : Inverter n) (P : Prog n) : ℕ → St n → Res (St n)
  | k, s =>
    match s.targets with
    | [] => .ok s
    | I :: rest =>
      match k with
      | 0 => .error .outOfFuel
      | k + 1 => do
        let o ← step fuel inv P s.sols I
        loop fuel inv P k (s.apply rest o)

end AllsolSimple

/-- `allsol_list_simple`, allsol-simple.hpp:93-259: the boxes returned (with the boxes in which they were found) and the
boxes given up -/
def allsolListSimple {n : ℕ} (fuel : ℕ) (inv : Inverter n) (P : Prog n) (targets : List (Vec n (Interval D))) :
    Res (List (Vec n (Interval D) × Vec n (Interval D)) × List (Vec n (Interval D))) := do
  let s ← AllsolSimple.loop fuel inv P fuel ⟨targets, [], []⟩
  .ok (s.sols, s.given)

/-- `allsol_simple`, allsol-simple.hpp:82-88 -/
def allsolSimple {n : ℕ} (fuel : ℕ) (inv : Inverter n) (P : Prog n) (I : Vec n (Interval D)) :
    Res (List (Vec n (Interval D) × Vec n (Interval D)) × List (Vec n (Interval D))) := allsolListSimple fuel inv P [I]

end Kv
