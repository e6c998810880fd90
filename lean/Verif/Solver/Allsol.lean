import Verif.Solver.AllsolSimple

/-!
# Model of `allsol` (/repo/kv/allsol.hpp)

Base type `double`; all macros have their default values (allsol.hpp:16-89), OpenMP is off (`pre` and `crit` separate the parts before and inside the
critical section `solutions`, so that the parallel version can use them).  The approximate inverse is an arbitrary
function (`Inverter`), the user function is given by its two instantiations (`Prog`).  Counters and printing are left
out.  The argument `rest` is not `NULL`.  The two lists `solutions` and `solutions_big`, always extended and traversed together,
are one list of pairs.  The loops without a bound (main loop, refinement loops) get `fuel`.

`widthratio_max` (allsol.hpp:123-136), `widthratio_min` (140-153) and the comparison with known solutions (915-947) have the same
text as in allsol-simple.hpp; the definitions of `AllsolSimple` are used.
-/

namespace Kv
open Rop (lit)
open LA

namespace Allsol
open AllsolSimple (widthratioMax widthratioMin image known setI)
variable {n : ℕ}

/-- `include_infinity` of an interval, allsol.hpp:319-322 -/
def hasInf (I : Interval D) : Bool := Rop.eq I.inf (Rop.neg Rop.inf) || Rop.eq I.sup Rop.inf

/-- `include_infinity` of a vector, allsol.hpp:324-334 -/
def hasInfV (I : Vec n (Interval D)) : Bool := (List.ofFn fun i => hasInf (I i)).any id

/-- `mid_infinity` of an interval, allsol.hpp:271-305 -/
def midInf (I : Interval D) : D :=
  if Rop.eq I.sup Rop.inf then
    if Rop.eq I.inf (Rop.neg Rop.inf) then lit 0 else Interval.mid ⟨Rop.maxv, I.inf⟩
  else
    if Rop.eq I.inf (Rop.neg Rop.inf) then Interval.mid ⟨Rop.neg Rop.maxv, I.sup⟩ else Interval.mid I

/-- `mid_infinity` of a vector, allsol.hpp:307-317 -/
def midInfV (I : Vec n (Interval D)) : Vec n D := fun i => midInf (I i)

/-- the weighted width, allsol.hpp:109, 358 and 383 -/
def weight (I : Interval D) : D :=
  Rop.div (Interval.width I) (Rop.add (lit 1) (Rop.mul (Rop.div (Interval.mag I) Rop.maxv) (Interval.mag I)))

/-- the loop of `search_maxwidth_infinity`, allsol.hpp:343-367; `r` tells whether an infinite component was seen -/
def searchInfGo (I : Vec n (Interval D)) : List (Fin n) → Bool → D → Option (Fin n) → Option (Fin n)
  | [], _, _, mi => mi
  | i :: l, r, m, mi =>
    let li := Rop.eq (I i).inf (Rop.neg Rop.inf)
    let ui := Rop.eq (I i).sup Rop.inf
    if li && ui then some i
    else
      let tr := li || ui
      let tmp := if li then (I i).sup else if ui then Rop.neg (I i).inf else weight (I i)
      if (tr && !r) || (tr == r && Rop.lt m tmp) then searchInfGo I l tr tmp (some i) else searchInfGo I l r m mi

/-- `search_maxwidth_infinity`, allsol.hpp:336-370; `none`: the index returned is uninitialised -/
def searchInf (I : Vec n (Interval D)) : Option (Fin n) := searchInfGo I (List.finRange n) false (lit 0) none

/-- `search_maxwidth_finite`, allsol.hpp:372-393; `none` is the result `-1` -/
def searchFin (I : Vec n (Interval D)) : Option (Fin n) :=
  ((List.finRange n).foldl (fun (s : D × Option (Fin n)) i =>
    if hasInf (I i) then s
    else
      let tmp := weight (I i)
      if Rop.lt s.1 tmp then (tmp, some i) else s) (lit 0, none)).2

/-- `(T)RECOVER_RATIO` -/
def ratio : D := lit (1 / 10)

/-- one component of `recovery_inflation`, allsol.hpp:165-182 -/
def recover1 (I J : Interval D) : Interval D :=
  if Rop.lt (Interval.width I) (Rop.mul ratio (Interval.width J)) then
    let tmp := Interval.mid I
    let tmp2 := Rop.mul (Interval.rad J) ratio
    let l := Rop.sub tmp tmp2
    let u := Rop.add tmp tmp2
    if Rop.lt l J.inf then Interval.hull I ⟨J.inf, Rop.add u (Rop.sub J.inf l)⟩
    else if Rop.lt J.sup u then Interval.hull I ⟨Rop.sub l (Rop.sub u J.sup), J.sup⟩
    else Interval.hull I ⟨l, u⟩
  else I

/-- `recovery_inflation` with ratio `RECOVER_RATIO`, allsol.hpp:160-182 -/
def recover (I J : Vec n (Interval D)) : Vec n (Interval D) := fun i => recover1 (I i) (J i)

/-- `recovery_inflation2` with ratio `RECOVER_RATIO`, allsol.hpp:189-205 -/
def recover2 (I J : Vec n (Interval D)) : Vec n (Interval D) := fun i =>
  if Rop.lt (Interval.width (I i)) (Rop.mul ratio (Interval.width (J i))) then
    let tmp := Interval.mid (I i)
    let tmp2 := Rop.mul (Interval.rad (J i)) ratio
    Interval.hull (I i) ⟨Rop.sub tmp tmp2, Rop.add tmp tmp2⟩
  else I i

/-! ## trimming -/

/-- what the trimming step does with a component -/
inductive Cut
  /-- `continue`, or the component is unchanged -/
  | keep
  /-- `IR(j) = ..; flag2 = true` -/
  | narrow (Z : Interval D)
  /-- `flag = true`: no zero in the box -/
  | empty
  /-- `flag3 = true`: the component is divided -/
  | split (Z1 Z2 : Interval D)

/-- the case analysis for one component `Z = IR(j)`, allsol.hpp:672-733, with `c = C(j)` -/
def cut (Z c A B : Interval D) : Res Cut :=
  if Interval.zeroIn B then
    if Rop.le (Interval.rad B) (lit 0) then .ok .keep
    else do
      let d1 ← Interval.divisionPart1 A B
      let d2 ← Interval.divisionPart2 A B
      let J := Interval.sub c d1.1
      let J2 := Interval.sub c d2
      if Interval.overlap Z J then
        if Interval.overlap Z J2 then
          if Interval.overlap J J2 then .ok .keep
          else .ok (.split (Interval.intersect Z J) (Interval.intersect Z J2))
        else if Interval.subset Z J then .ok .keep else .ok (.narrow (Interval.intersect Z J))
      else
        if Interval.overlap Z J2 then
          if Interval.subset Z J2 then .ok .keep else .ok (.narrow (Interval.intersect Z J2))
        else .ok .empty
  else do
    let q ← Interval.div A B
    let J := Interval.sub c q
    if Interval.overlap Z J then
      if Interval.subset Z J then .ok .keep else .ok (.narrow (Interval.intersect Z J))
    else .ok .empty

/-- the summands `A0(j)`, allsol.hpp:625-627 -/
def terms (fdi : Mat n n (Interval D)) (I C : Vec n (Interval D)) (i : Fin n) : List (Interval D) :=
  List.ofFn fun j => Interval.mul (fdi i j) (Interval.sub (I j) (C j))

/-- the sum `Itmp` of a list of summands -/
def acc (l : List (Interval D)) : Interval D := l.foldl Interval.add (Interval.point (lit 0))

/-- `A = fc(i) + A1(j) + A2(j)`, allsol.hpp:628-637 and 669: `A1(j)` is the sum of the terms before the `j`-th, `A2(j)` of the terms
after it, accumulated from the last one -/
def numer (fc : Vec n (Interval D)) (fdi : Mat n n (Interval D)) (I C : Vec n (Interval D)) (i j : Fin n) : Interval D :=
  let t := terms fdi I C i
  Interval.add (Interval.add (fc i) (acc (t.take j))) (acc (t.drop (j + 1)).reverse)

/-- result of trimming -/
inductive Trim (n : ℕ)
  | empty
  | split (I1 I2 : Vec n (Interval D))
  | done (IR : Vec n (Interval D)) (flag2 : Bool)

/-- the pairs `(i, j)` in the order of the two loops -/
def pairs (n : ℕ) : List (Fin n × Fin n) := (List.finRange n).flatMap fun i => (List.finRange n).map fun j => (i, j)

/-- the two loops of the trimming step, allsol.hpp:621-739; `I` is the box, `IR` the trimmed box -/
def trimGo (fc : Vec n (Interval D)) (fdi : Mat n n (Interval D)) (I C : Vec n (Interval D)) (wmax : D) :
    List (Fin n × Fin n) → Vec n (Interval D) → Bool → Res (Trim n)
  | [], IR, flag2 => .ok (.done IR flag2)
  | (i, j) :: l, IR, flag2 =>
    if Rop.lt (Interval.width (I j)) wmax then trimGo fc fdi I C wmax l IR flag2
    else do
      match ← cut (IR j) (C j) (numer fc fdi I C i j) (fdi i j) with
      | .keep => trimGo fc fdi I C wmax l IR flag2
      | .narrow Z => trimGo fc fdi I C wmax l (setI IR j Z) true
      | .empty => .ok .empty
      | .split Z1 Z2 => .ok (.split (recover (setI IR j Z1) I) (recover (setI IR j Z2) I))

/-- the trimming step, allsol.hpp:599-739; `I = Iorg` here -/
def trim (fc : Vec n (Interval D)) (fdi : Mat n n (Interval D)) (I C : Vec n (Interval D)) : Res (Trim n) :=
  trimGo fc fdi I C (Rop.mul (maxFold (List.ofFn fun i => Interval.width (I i))) ratio) (pairs n) I false

/-! ## division, tests -/

/-- what happens to a box before the critical section `solutions` -/
inductive Pre (n : ℕ)
  /-- no zero in the box -/
  | drop
  /-- boxes to be examined -/
  | push (l : List (Vec n (Interval D)))
  /-- "too small interval" -/
  | giveUp (I : Vec n (Interval D))
  /-- `K` is a proper subset of `I`: exactly one zero -/
  | test (I K : Vec n (Interval D)) (R : Mat n n D) (M : Mat n n (Interval D))

/-- the further division of an infinite half, allsol.hpp:1123-1138 and 1139-1154: the new box (if any) and the rest of the half -/
def splitFin (B : Vec n (Interval D)) (mi : Fin n) : List (Vec n (Interval D)) × Vec n (Interval D) :=
  if hasInf (B mi) then
    match searchFin B with
    | none => ([], B)
    | some mi2 =>
      let tmp := Interval.mid (B mi2)
      ([setI B mi2 ⟨tmp, (B mi2).sup⟩], setI B mi2 ⟨(B mi2).inf, tmp⟩)
  else ([], B)

/-- from `label:` to the end of the main loop, allsol.hpp:1016-1165 -/
def divide (giveup : D) (I Iorg : Vec n (Interval D)) : Res (Pre n) :=
  if !hasInfV I && Rop.le (widthratioMax I Iorg) (lit (1 / 2)) then .ok (.push [I])
  else
    match searchInf I with
    | none => .error .undefined
    | some mi =>
      let tmp := midInf (I mi)
      if Rop.lt (Interval.width (I mi)) giveup || Rop.eq tmp (I mi).inf || Rop.eq tmp (I mi).sup then .ok (.giveUp I)
      else
        let s1 := splitFin (setI I mi ⟨(I mi).inf, tmp⟩) mi
        let s2 := splitFin (setI I mi ⟨tmp, (I mi).sup⟩) mi
        .ok (.push (s1.1 ++ s2.1 ++ [s1.2, s2.2]))

/-- `mvf = fc + prod(fdi, I - C)`, allsol.hpp:579 and 792 -/
def mvf (fc : Vec n (Interval D)) (fdi : Mat n n (Interval D)) (I C : Vec n (Interval D)) : Vec n (Interval D) := fun i =>
  Interval.add (fc i) (prodIV fdi (fun j => Interval.sub (I j) (C j)) i)

/-- the box used to skip the existence test, allsol.hpp:842 -/
def skipBox (fc : Vec n (Interval D)) (fdi : Mat n n (Interval D)) (I C : Vec n (Interval D)) : Vec n (Interval D) := fun i =>
  Interval.add (fc i) (prodSV (fun i j => Interval.mig (fdi i j)) (fun j =>
    Interval.mul (Interval.point (Rop.add (lit 1) (lit (9 / 10)))) (Interval.sub (I j) (C j))) i)

/-- the existence test, allsol.hpp:834-1014; `fdi` encloses the derivatives on `Iorg` -/
def exTest (giveup : D) (inv : Inverter n) (Iorg I C fc : Vec n (Interval D)) (fdi : Mat n n (Interval D)) : Res (Pre n) :=
  if !zeroInV (skipBox fc fdi I C) then divide giveup I Iorg
  else
    match inv (midM fdi) with
    | none => divide giveup I Iorg
    | some R =>
      let M := Vleq.emRA R fdi
      let Rfc := prodSV R fc
      let CK : Vec n (Interval D) := fun i => Interval.sub (C i) (Rfc i)
      let K : Vec n (Interval D) := fun i => Interval.add (CK i) (prodIV M (fun j => Interval.sub (I j) (C j)) i)
      if !overlapV K I then .ok .drop
      else if properSubsetV K I && Rop.lt (widthratioMax K I) (lit (8 / 10)) then .ok (.test I K R M)
      else if !hasInfV I && Rop.lt (widthratioMax K I) (lit (9 / 10)) then .ok (.push [recover2 K Iorg])
      else divide giveup (recover (intersectV I K) Iorg) Iorg

/-- after trimming, allsol.hpp:741-806 -/
def afterTrim (giveup : D) (inv : Inverter n) (P : Prog n) (Iorg C fc : Vec n (Interval D)) (fdi : Mat n n (Interval D)) : Trim n → Res (Pre n)
  | .empty => .ok .drop
  | .split I1 I2 => .ok (.push [I1, I2])
  | .done _ false => exTest giveup inv Iorg Iorg C fc fdi
  | .done IR true => do
    let I := recover IR Iorg
    let C := pointV (midV I)
    match ← catchDom (P.F C) with
    | none => divide giveup I Iorg
    | some fc =>
      if !zeroInV (mvf fc fdi I C) then .ok .drop
      else exTest giveup inv Iorg I C fc fdi

/-- one pass of the main loop for the box `I`, without the critical section `solutions`, allsol.hpp:513-1165 -/
def pre (giveup : D) (inv : Inverter n) (P : Prog n) (I : Vec n (Interval D)) : Res (Pre n) := do
  match ← catchDom (P.F I) with
  | none => divide giveup I I
  | some fi =>
    if !zeroInV fi then .ok .drop
    else
      match ← catchDom (P.FD I) with
      | none => divide giveup I I
      | some (_, fdi) =>
        let C := pointV (midInfV I)
        match ← catchDom (P.F C) with
        | none => divide giveup I I
        | some fc =>
          if !zeroInV (mvf fc fdi I C) then .ok .drop
          else if hasInfV I then divide giveup I I
          else do
            let t ← trim fc fdi I C
            afterTrim giveup inv P I C fc fdi t

/-- iterative refinement, allsol.hpp:959-972; the result of `invert` is not examined: if it fails the last matrix `R` is used again
(if `invert` fails after having overwritten `R` the program differs).  The second component lists the boxes for which
derivatives were computed; it is not part of the program. -/
def refine (inv : Inverter n) (P : Prog n) : ℕ → Mat n n D → Vec n (Interval D) → Res (Vec n (Interval D) × List (Vec n (Interval D)))
  | 0, _, _ => .error .outOfFuel
  | k + 1, R, K => do
    let r ← P.FD K
    let R := (inv (midM r.2)).getD R
    let I1 ← image P R (Vleq.emRA R r.2) K
    let I1 := intersectV K I1
    if Rop.lt (lit (9 / 10)) (widthratioMin I1 K) then .ok (I1, [K])
    else do
      let t ← refine inv P k R I1
      .ok (t.1, K :: t.2)

/-- the critical section `solutions`, allsol.hpp:910-984: `none` if the solution is already known, else the refined box `K` (with the boxes used in
the refinement, see `refine`) -/
def crit (fuel : ℕ) (inv : Inverter n) (P : Prog n) (sols : List (Vec n (Interval D) × Vec n (Interval D))) (I K : Vec n (Interval D))
    (R : Mat n n D) (M : Mat n n (Interval D)) : Res (Option (Vec n (Interval D) × List (Vec n (Interval D)))) := do
  match ← known fuel P R M I sols K with
  | none => .ok none
  | some K => do
    let t ← refine inv P fuel R K
    .ok (some t)

/-! ## the list `rest` -/

/-- one pass of the inner loop, allsol.hpp:1083-1095: the box `I1`, the remaining list, and whether something was merged -/
def unifyPass : List (Vec n (Interval D)) → Vec n (Interval D) → Vec n (Interval D) × List (Vec n (Interval D)) × Bool
  | [], I1 => (I1, [], false)
  | p :: l, I1 =>
    if overlapV p I1 then
      let t := unifyPass l (hullV I1 p)
      (t.1, t.2.1, true)
    else
      let t := unifyPass l I1
      (t.1, p :: t.2.1, t.2.2)

/-- the outer loop and the final `push_back`, allsol.hpp:1081-1098; every repeated pass follows one that shortened the list, so `length + 1` passes suffice -/
def unifyGo : ℕ → List (Vec n (Interval D)) → Vec n (Interval D) → List (Vec n (Interval D))
  | 0, l, I1 => l ++ [I1]
  | k + 1, l, I1 =>
    let t := unifyPass l I1
    if t.2.2 then unifyGo k t.2.1 t.1 else t.2.1 ++ [t.1]

/-- a box is given up, allsol.hpp:1071-1103 -/
def unify (l : List (Vec n (Interval D))) (I : Vec n (Interval D)) : List (Vec n (Interval D)) := unifyGo (l.length + 1) l I

/-! ## the main loop -/

/-- the state of the main loop -/
structure St (n : ℕ) where
  /-- `targets` -/
  targets : List (Vec n (Interval D))
  /-- `solutions` and `solutions_big` -/
  sols : List (Vec n (Interval D) × Vec n (Interval D))
  /-- `*rest` -/
  rest : List (Vec n (Interval D))

/-- one pass of the main loop for the box `I`, the remaining targets being `tg`.  The second component lists the boxes used
in the refinement, see `refine`. -/
def step (fuel : ℕ) (giveup : D) (inv : Inverter n) (P : Prog n) (s : St n) (I : Vec n (Interval D)) (tg : List (Vec n (Interval D))) :
    Res (St n × List (Vec n (Interval D))) := do
  match ← pre giveup inv P I with
  | .drop => .ok (⟨tg, s.sols, s.rest⟩, [])
  | .push l => .ok (⟨tg ++ l, s.sols, s.rest⟩, [])
  | .giveUp J => .ok (⟨tg, s.sols, unify s.rest J⟩, [])
  | .test J K R M => do
    match ← crit fuel inv P s.sols J K R M with
    | none => .ok (⟨tg, s.sols, s.rest⟩, [])
    | some (K', l) => .ok (⟨tg, s.sols ++ [(K', J)], s.rest⟩, l)

/-- the main loop, allsol.hpp:477-1166 -/
def loop (fuel : ℕ) (giveup : D) (inv : Inverter n) (P : Prog n) : ℕ → St n → Res (St n)
  | k, s =>
    match s.targets with
    | [] => .ok s
    | I :: tg =>
      match k with
      | 0 => .error .outOfFuel
      | k + 1 => do
        let t ← step fuel giveup inv P s I tg
        loop fuel giveup inv P k t.1

end Allsol

/-- `allsol_list`, allsol.hpp:432-1175: the boxes returned (with the boxes in which they were found) and the final contents of `*rest`, which
was `rest` before the call -/
def allsolList {n : ℕ} (fuel : ℕ) (giveup : D) (inv : Inverter n) (P : Prog n) (targets rest : List (Vec n (Interval D))) :
    Res (List (Vec n (Interval D) × Vec n (Interval D)) × List (Vec n (Interval D))) := do
  let s ← Allsol.loop fuel giveup inv P fuel ⟨targets, [], rest⟩
  .ok (s.sols, s.rest)

/-- `allsol`, allsol.hpp:414-428 -/
def allsol {n : ℕ} (fuel : ℕ) (giveup : D) (inv : Inverter n) (P : Prog n) (I : Vec n (Interval D)) (rest : List (Vec n (Interval D))) :
    Res (List (Vec n (Interval D) × Vec n (Interval D)) × List (Vec n (Interval D))) := allsolList fuel giveup inv P [I] rest

end Kv
