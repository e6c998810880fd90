import Verif.Solver.AllsolSimple

/-!
# Model of the global minimisation (/repo/kv/optimize.hpp)

Base type `double`, default options (`OPTIMIZE_TRIM` 0, `OPTIMIZE_USESLOPE` 1).  Printing (`verbose`) is left out.  The main
loop has no bound in the code and gets `fuel`.
-/

namespace Kv
open Rop (lit)
open LA

/-- A user function with one component as `optimize` calls it: `f(I)` and `autodif::split(f(autodif::init(I)), fi, fdi)`
followed by `fdi.resize(s)`, which fills the gradient of a constant with zeros (optimize.hpp:109,116). -/
structure SProg (n : ℕ) where
  F : Vec n (Interval D) → Res (Interval D)
  FD : Vec n (Interval D) → Res (Interval D × Vec n (Interval D))

/-- the template function `e` with interval constants `p` -/
def exprSProg (fuel : ℕ) {n : ℕ} (p : ℕ → Interval D) (e : Expr n) : SProg n where
  F X := @Expr.eval _ (scalI fuel) n p X e
  FD X := do
    let r ← @Expr.eval _ (@Autodif.instScal _ (scalI fuel)) n (fun i => Autodif.lift (p i)) (@Autodif.init _ (scalI fuel) n X) e
    .ok (r.v, fun j => @Autodif.row _ (scalI fuel) n r j)

namespace Optimize
variable {n : ℕ}

/-- `if (tmp < delta) delta = tmp;`, optimize.hpp:135-136, 154-155 -/
def improve (tmp delta : D) : D := if Rop.lt tmp delta then tmp else delta

/-- the test with the signs of the derivatives, optimize.hpp:123-131 -/
def slope (init I fdi : Vec n (Interval D)) : Bool :=
  (List.finRange n).any fun i =>
    (Interval.gtIS (fdi i) (lit 0) && !Rop.eq (I i).inf (init i).inf) || (Interval.ltIS (fdi i) (lit 0) && !Rop.eq (I i).sup (init i).sup)

/-- the corner which is likely to give a small value, optimize.hpp:139-145 -/
def corner (I fdi : Vec n (Interval D)) : Vec n (Interval D) := fun i =>
  let tmp := Interval.mid (fdi i)
  Interval.point (if Rop.lt (lit 0) tmp then (I i).inf else if Rop.lt tmp (lit 0) then (I i).sup else Interval.mid (I i))

/-- the tests on a box, optimize.hpp:92-155: `none` means `continue` (the box is discarded, `delta` unchanged); otherwise
`errflag` and the new `delta` -/
def examine (P : SProg n) (init : Vec n (Interval D)) (delta : D) (I : Vec n (Interval D)) : Res (Option (Bool × D)) := do
  match ← catchDom (P.F I) with
  | none => .ok (some (true, delta))
  | some fi =>
    if Rop.lt delta fi.inf then .ok none
    else
      let C := pointV (midV I)
      match ← catchDom (do
          let fc ← P.F C
          let r ← P.FD I
          .ok (fc, r.2)) with
      | none => .ok (some (false, delta))
      | some (fc, fdi) =>
        let mvf := Interval.add fc (sumI fun j => Interval.mul (fdi j) (Interval.sub (I j) (C j)))
        if Rop.lt delta mvf.inf then .ok none
        else if slope init I fdi then .ok none
        else
          let delta := improve fc.sup delta
          match ← catchDom (P.F (corner I fdi)) with
          | none => .ok (some (false, delta))
          | some fc2 => .ok (some (false, improve fc2.sup delta))

/-- the tests of `optimize_nd`, optimize.hpp:556-581 -/
def examineNd (P : SProg n) (delta : D) (I : Vec n (Interval D)) : Res (Option (Bool × D)) := do
  match ← catchDom (P.F I) with
  | none => .ok (some (true, delta))
  | some fi =>
    if Rop.lt delta fi.inf then .ok none
    else
      match ← catchDom (P.F (pointV (midV I))) with
      | none => .ok (some (false, delta))
      | some fc => .ok (some (false, improve fc.sup delta))

/-- greatest width (`tmp2`) and its index, optimize.hpp:273-279; `mi` is the old value of the variable, kept if no width is
positive, and `none` if it is still uninitialised -/
def maxWidth (mi : Option (Fin n)) (I : Vec n (Interval D)) : D × Option (Fin n) :=
  (List.finRange n).foldl (fun (s : D × Option (Fin n)) i =>
    let tmp := Interval.width (I i)
    if Rop.lt s.1 tmp then (tmp, some i) else s) (lit 0, mi)

/-- one pass through the list of solutions, optimize.hpp:288-296: the new `I`, the remaining solutions and `flag` -/
def sweep : Vec n (Interval D) → List (Vec n (Interval D)) → Vec n (Interval D) × List (Vec n (Interval D)) × Bool
  | I, [] => (I, [], false)
  | I, p :: l =>
    if overlapV p I then
      let r := sweep (hullV I p) l
      (r.1, r.2.1, true)
    else
      let r := sweep I l
      (r.1, p :: r.2.1, r.2.2)

/-- `while (true) { .. if (flag == false) break; }`, optimize.hpp:286-298.  Each pass but the last removes a solution, so
`k`, the number of solutions plus one, is large enough (`unify_done`). -/
def unify : ℕ → Vec n (Interval D) → List (Vec n (Interval D)) → Vec n (Interval D) × List (Vec n (Interval D))
  | 0, I, l => (I, l)
  | k + 1, I, l =>
    let r := sweep I l
    if r.2.2 then unify k r.1 r.2.1 else (r.1, r.2.1)

/-- `solutions` after a box was accepted, optimize.hpp:285-301 -/
def accept (uni : Bool) (I : Vec n (Interval D)) (sols : List (Vec n (Interval D))) : List (Vec n (Interval D)) :=
  if uni then
    let r := unify (sols.length + 1) I sols
    r.2 ++ [r.1]
  else sols ++ [I]

/-- the state of the main loop -/
structure St (n : ℕ) where
  targets : List (Vec n (Interval D))
  solutions : List (Vec n (Interval D))
  delta : D
  /-- the variable `mi`, at first uninitialised -/
  mi : Option (Fin n)

/-- acceptance or division, optimize.hpp:273-310 -/
def finish (uni : Bool) (limit : D) (rest sols : List (Vec n (Interval D))) (mi : Option (Fin n)) (I : Vec n (Interval D)) (err : Bool) (delta : D) : Res (St n) :=
  let w := maxWidth mi I
  if Rop.lt w.1 limit && !err then .ok ⟨rest, accept uni I sols, delta, w.2⟩
  else
    match w.2 with
    | none => .error .undefined
    | some mi =>
      let tmp := Interval.mid (I mi)
      .ok ⟨rest ++ [AllsolSimple.setI I mi ⟨(I mi).inf, tmp⟩, AllsolSimple.setI I mi ⟨tmp, (I mi).sup⟩], sols, delta, w.2⟩

/-- the main loop, optimize.hpp:89-311 (and 553-623 for `optimize_nd`); `ex` examines a box -/
def loop (ex : D → Vec n (Interval D) → Res (Option (Bool × D))) (uni : Bool) (limit : D) : ℕ → St n → Res (St n)
  | k, s =>
    match s.targets with
    | [] => .ok s
    | I :: rest =>
      match k with
      | 0 => .error .outOfFuel
      | k + 1 => do
        match ← ex s.delta I with
        | none => loop ex uni limit k { s with targets := rest }
        | some (err, delta) =>
          let s' ← finish uni limit rest s.solutions s.mi I err delta
          loop ex uni limit k s'

end Optimize

/-- `optimize` = `minimize`, optimize.hpp:63-326; the variant with a number of divisions (optimize.hpp:329-341) calls it with
a limit computed by `std::pow` -/
def minimize {n : ℕ} (fuel : ℕ) (P : SProg n) (init : Vec n (Interval D)) (limit : D) (uni : Bool) : Res (List (Vec n (Interval D))) := do
  let s ← Optimize.loop (Optimize.examine P init) uni limit fuel ⟨[init], [], Rop.maxv, none⟩
  .ok s.solutions

/-- `optimize_nd` = `minimize_nd`, optimize.hpp:533-638 -/
def minimizeNd {n : ℕ} (fuel : ℕ) (P : SProg n) (init : Vec n (Interval D)) (limit : D) (uni : Bool) : Res (List (Vec n (Interval D))) := do
  let s ← Optimize.loop (Optimize.examineNd P) uni limit fuel ⟨[init], [], Rop.maxv, none⟩
  .ok s.solutions

namespace Optimize
variable {n : ℕ}

/-- the loop of `minimize_value`, optimize.hpp:356-362; `std::min(a, b)` is `(b < a) ? b : a` -/
def values (P : SProg n) : List (Vec n (Interval D)) → D → D → Res (Interval D)
  | [], l, u => .ok ⟨l, u⟩
  | p :: r, l, u => do
    let tmp ← P.F p
    let u := if Rop.lt tmp.sup u then tmp.sup else u
    let l := if Rop.lt tmp.inf l then tmp.inf else l
    values P r l u

end Optimize

/-- `minimize_value`, optimize.hpp:344-365 -/
def minimizeValue {n : ℕ} (fuel : ℕ) (P : SProg n) (init : Vec n (Interval D)) (limit : D) : Res (Interval D) := do
  let l ← minimize fuel P init limit false
  Optimize.values P l Rop.inf Rop.inf

/-- `minimize_nd_value`, optimize.hpp:656-677 -/
def minimizeNdValue {n : ℕ} (fuel : ℕ) (P : SProg n) (init : Vec n (Interval D)) (limit : D) : Res (Interval D) := do
  let l ← minimizeNd fuel P init limit false
  Optimize.values P l Rop.inf Rop.inf

/-- `Opt_MakeMinus`, optimize.hpp:44-50 -/
def makeMinus {n : ℕ} (e : Expr n) : Expr n := .un .neg e

/-- `maximize`, optimize.hpp:394-399, for the template function `e` -/
def maximize {n : ℕ} (fuel fuel' : ℕ) (p : ℕ → Interval D) (e : Expr n) (init : Vec n (Interval D)) (limit : D) (uni : Bool) :=
  minimize fuel (exprSProg fuel' p (makeMinus e)) init limit uni

/-- `maximize_value`, optimize.hpp:408-412 -/
def maximizeValue {n : ℕ} (fuel fuel' : ℕ) (p : ℕ → Interval D) (e : Expr n) (init : Vec n (Interval D)) (limit : D) : Res (Interval D) := do
  let r ← minimizeValue fuel (exprSProg fuel' p (makeMinus e)) init limit
  .ok (Interval.neg r)

end Kv
