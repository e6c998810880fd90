import Verif.Solver.AllsolKeep

/-!
# Model of `allsol` with OpenMP (/repo/kv/allsol.hpp)

`t` threads execute the parallel region (allsol.hpp:453-1168).  A thread's computations on its private variables and each critical section are
one action; an execution is given by the sequence of the threads which act (`run`), so statements for every such sequence are statements for every
interleaving.  Sections with the same name are never executed simultaneously, the sections `targets`, `solutions` and `rest` use different shared
variables.  `count_unknown` is an integer without bound.  An exception which leaves the parallel region (`crash`) ends the program.  The statistics
counters (`atomic`) and printing are left out.
-/

namespace Kv
open LA

namespace Allsol
namespace Par
variable {n t : ℕ}

/-- Where a thread is -/
inductive Loc (n : ℕ)
  /-- at the top of the loop, before allsol.hpp:489 -/
  | idle
  /-- with a box taken from `targets`, allsol.hpp:513 -/
  | work (I : Vec n (Interval D))
  /-- before the critical section `solutions`, allsol.hpp:910 -/
  | test (I K : Vec n (Interval D)) (R : Mat n n D) (M : Mat n n (Interval D))
  /-- before the critical section `rest`, allsol.hpp:1076 -/
  | give (I : Vec n (Interval D))
  /-- before critical sections `targets`: in each the boxes are appended and the number is added to `count_unknown` -/
  | sec (l : List (List (Vec n (Interval D)) × ℤ))
  /-- has left the loop, allsol.hpp:501 -/
  | done
  /-- an exception was not caught (or a loop does not end) -/
  | crash

/-- The shared variables and the threads.  The lists `took`, `pushed`, `refined` are not part of the program: boxes taken
from `targets`, boxes appended to it, boxes used in refinements. -/
structure St (n t : ℕ) where
  /-- `targets` -/
  targets : List (Vec n (Interval D))
  /-- `count_unknown` -/
  count : ℤ
  /-- `solutions` and `solutions_big` -/
  sols : List (Vec n (Interval D) × Vec n (Interval D))
  /-- `*rest` -/
  rest : List (Vec n (Interval D))
  loc : Fin t → Loc n
  took : List (Vec n (Interval D))
  pushed : List (Vec n (Interval D))
  refined : List (Vec n (Interval D))

/-- The critical sections for boxes put back: a single box replaces the one taken (allsol.hpp:1003-1009, 1032-1038); two boxes are appended in
one section (690-696, 1157-1165), further boxes before in a section each (1130-1136, 1146-1152). -/
def sections : List (Vec n (Interval D)) → List (List (Vec n (Interval D)) × ℤ)
  | [] => [([], -1)]
  | [a] => [([a], 0)]
  | [a, b] => [([a, b], 1)]
  | a :: b :: c :: l => ([a], 1) :: sections (b :: c :: l)

/-- `count_unknown--` in a critical section, allsol.hpp:534-540, 585-591, 752-758, 798-804, 890-896, 985-991, 1108-1114 -/
def minus : Loc n := .sec [([], -1)]

/-- what a thread does after its computation for a box -/
def start : Pre n → Loc n
  | .drop => minus
  | .push l => .sec (sections l)
  | .giveUp I => .give I
  | .test I K R M => .test I K R M

/-- the location after a critical section `targets` -/
def next : List (List (Vec n (Interval D)) × ℤ) → Loc n
  | [] => .idle
  | l => .sec l

/-- the thread `w` acts -/
def act (fuel : ℕ) (giveup : D) (inv : Inverter n) (P : Prog n) (s : St n t) (w : Fin t) : St n t :=
  match s.loc w with
  | .idle =>
    if s.count = 0 then { s with loc := Function.update s.loc w .done }
    else
      match s.targets with
      | [] => s
      | I :: tg => { s with targets := tg, took := s.took ++ [I], loc := Function.update s.loc w (.work I) }
  | .work I =>
    match pre giveup inv P I with
    | .ok o => { s with loc := Function.update s.loc w (start o) }
    | .error _ => { s with loc := Function.update s.loc w .crash }
  | .test I K R M =>
    match crit fuel inv P s.sols I K R M with
    | .ok none => { s with loc := Function.update s.loc w minus }
    | .ok (some (K', l)) => { s with sols := s.sols ++ [(K', I)], refined := s.refined ++ l, loc := Function.update s.loc w minus }
    | .error _ => { s with loc := Function.update s.loc w .crash }
  | .give I => { s with rest := unify s.rest I, loc := Function.update s.loc w minus }
  | .sec [] => { s with loc := Function.update s.loc w .idle }
  | .sec ((bs, d) :: l) =>
    { s with targets := s.targets ++ bs, count := s.count + d, pushed := s.pushed ++ bs, loc := Function.update s.loc w (next l) }
  | .done => s
  | .crash => s

/-- the threads act in the given order -/
def run (fuel : ℕ) (giveup : D) (inv : Inverter n) (P : Prog n) (ws : List (Fin t)) (s : St n t) : St n t := ws.foldl (act fuel giveup inv P) s

/-- the state at the beginning of the parallel region, allsol.hpp:444-455 -/
def init (t : ℕ) (targets rest : List (Vec n (Interval D))) : St n t :=
  ⟨targets, targets.length, [], rest, fun _ => .idle, [], [], []⟩

end Par
end Allsol
end Kv
