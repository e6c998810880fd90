import Verif.Solver.AllsolParLemmas
import Verif.Props.Allsol

/-!
# C32: `allsol` with OpenMP

`parRun fuel giveup inv P t targets rest ws`: the state reached if `t` threads work on the boxes `targets`, where `ws` tells which thread acts next.
Theorems for all `ws` hold for all interleavings.  `took` lists the boxes taken from the work list so far, `pushed` those put into it.
-/

namespace Kv
open RopSem Kv.Interval
open Rop (lit)
open LA

variable {n t : ℕ} {inv : Inverter n} {P : Prog n} {dom : (Fin n → ℝ) → Prop} {f : (Fin n → ℝ) → Fin n → ℝ} {fuel : ℕ} {giveup : D}
  {targets rest0 rest : List (Vec n (Interval D))} {sols : List (Vec n (Interval D) × Vec n (Interval D))}

/-- the state after the threads acted in the order `ws` -/
def parRun (fuel : ℕ) (giveup : D) (inv : Inverter n) (P : Prog n) (t : ℕ) (targets rest0 : List (Vec n (Interval D))) (ws : List (Fin t)) : Allsol.Par.St n t :=
  Allsol.Par.run fuel giveup inv P ws (Allsol.Par.init t targets rest0)

theorem parRun_inv (ws : List (Fin t)) : Allsol.Par.CInv targets (parRun fuel giveup inv P t targets rest0 ws) :=
  Allsol.Par.run_inv ws (Allsol.Par.init_inv targets rest0)

/-- C32: if a thread has left the loop, the work list is empty, all boxes which ever were in it have been taken, each other thread has left the loop or
is about to ask for a box (has finished with its own). -/
theorem C32 (ws : List (Fin t)) (w : Fin t) (h : (parRun fuel giveup inv P t targets rest0 ws).loc w = .done) :
    (parRun fuel giveup inv P t targets rest0 ws).targets = [] ∧
    (parRun fuel giveup inv P t targets rest0 ws).took = targets ++ (parRun fuel giveup inv P t targets rest0 ws).pushed ∧
    ∀ v, (parRun fuel giveup inv P t targets rest0 ws).loc v = .idle ∨ (parRun fuel giveup inv P t targets rest0 ws).loc v = .done := by
  have hI := parRun_inv (fuel := fuel) (giveup := giveup) (inv := inv) (P := P) (targets := targets) (rest0 := rest0) ws
  obtain ⟨h1, h2⟩ := hI.zero (hI.done w h)
  refine ⟨h1, ?_, fun v => Allsol.Par.idle_or_done (h2 v)⟩
  have := hI.log
  rw [h1, List.append_nil] at this
  exact this.symm

/-- C32: once a thread has left the loop no box will be produced or processed and the results do not change. -/
theorem C32_final (ws vs : List (Fin t)) (w : Fin t) (h : (parRun fuel giveup inv P t targets rest0 ws).loc w = .done) :
    let s := parRun fuel giveup inv P t targets rest0 ws
    let s' := parRun fuel giveup inv P t targets rest0 (ws ++ vs)
    s'.pushed = s.pushed ∧ s'.took = s.took ∧ s'.sols = s.sols ∧ s'.rest = s.rest := by
  intro s s'
  have hI := parRun_inv (fuel := fuel) (giveup := giveup) (inv := inv) (P := P) (targets := targets) (rest0 := rest0) ws
  have hc := hI.done w h
  have e : s' = Allsol.Par.run fuel giveup inv P vs s := Allsol.Par.run_append ws vs
  obtain ⟨h1, h2, h3, h4⟩ := Allsol.Par.run_stop (fuel := fuel) (giveup := giveup) (inv := inv) (P := P) vs (s := s) hc fun v => Allsol.Par.idle_or_done ((hI.zero hc).2 v)
  have d1 := C32 ws w h
  have d2 := C32 (ws ++ vs) w (by show s'.loc w = _; rw [e]; exact h4 w (.inr h))
  have hl := Allsol.Par.run_took (fuel := fuel) (giveup := giveup) (inv := inv) (P := P) vs (s := s) hc fun v => Allsol.Par.idle_or_done ((hI.zero hc).2 v)
  rw [e]
  exact ⟨hl.2, hl.1, h2, h3⟩

/-- C32, no deadlock: as long as no exception was thrown and a thread has not left the loop, some thread can do something. -/
theorem C32_progress (ws : List (Fin t)) (hc : ∀ v, (parRun fuel giveup inv P t targets rest0 ws).loc v ≠ .crash)
    (hd : ∃ v, (parRun fuel giveup inv P t targets rest0 ws).loc v ≠ .done) :
    ∃ w, parRun fuel giveup inv P t targets rest0 (ws ++ [w]) ≠ parRun fuel giveup inv P t targets rest0 ws := by
  have hI := parRun_inv (fuel := fuel) (giveup := giveup) (inv := inv) (P := P) (targets := targets) (rest0 := rest0) ws
  have e : ∀ w, parRun fuel giveup inv P t targets rest0 (ws ++ [w]) = Allsol.Par.act fuel giveup inv P (parRun fuel giveup inv P t targets rest0 ws) w :=
    fun w => Allsol.Par.run_append ws [w]
  simp only [e]
  exact Allsol.Par.progress hI hc hd

/-- C32, results: for every interleaving, as soon as a thread has left the loop, each zero of `f` in the initial boxes is in a returned box or a box of `rest`.
The conditions are those of C31 (for sequential execution); without them it is false, see `C31_violated`. -/
theorem C32_zeros_partial (hP : P.Sound dom f) (hI : AllNonempty targets) (hR : AllNonempty rest0) (ws : List (Fin t))
    (hrun : ∀ B ∈ (parRun fuel giveup inv P t targets rest0 ws).took, BoundsModerate P B ∧ InvFinite inv P B ∧ TrimRegular P B)
    (href : ∀ B ∈ (parRun fuel giveup inv P t targets rest0 ws).refined, InvFinite inv P B)
    (w : Fin t) (h : (parRun fuel giveup inv P t targets rest0 ws).loc w = .done)
    (z : Fin n → ℝ) (hz : ∃ B ∈ targets, ∀ i, z i ∈ B i) (hd : dom z) (h0 : f z = 0) :
    (∃ q ∈ (parRun fuel giveup inv P t targets rest0 ws).sols, ∀ i, z i ∈ q.1 i) ∨ ∃ B ∈ (parRun fuel giveup inv P t targets rest0 ws).rest, ∀ i, z i ∈ B i := by
  have key := (Allsol.Par.run_ok (fuel := fuel) (giveup := giveup) (inv := inv) hP ws (s := Allsol.Par.init t targets rest0)
    ⟨hI, hR, fun q hq => (by cases hq), List.Pairwise.nil, fun w => trivial⟩ (fun B hB hne => mod_of_moderate hne (hrun B hB).1) href).2
    (fun B hB hne => fit_of_regular hne (hrun B hB).2) z hd h0 (.inl hz)
  obtain ⟨c1, -, c3⟩ := C32 ws w h
  rcases key with ⟨B, hB, -⟩ | hz | hz | ⟨v, hz⟩
  · rw [show (Allsol.Par.run fuel giveup inv P ws (Allsol.Par.init t targets rest0)).targets = [] from c1] at hB
    cases hB
  · exact .inl hz
  · exact .inr hz
  · rcases c3 v with hv | hv <;> (rw [show (Allsol.Par.run fuel giveup inv P ws (Allsol.Par.init t targets rest0)).loc v = _ from hv] at hz; exact hz.elim)

/-- C32, results: at any time in any interleaving each box found contains a zero of `f` which is the only one in the larger box where it was found; the
boxes found are disjoint (conditions as for C62). -/
theorem C32_isolated_partial (hP : P.Sound dom f) (hI : AllNonempty targets) (hR : AllNonempty rest0) (ws : List (Fin t))
    (hrun : ∀ B ∈ (parRun fuel giveup inv P t targets rest0 ws).took, BoundsModerate P B)
    (href : ∀ B ∈ (parRun fuel giveup inv P t targets rest0 ws).refined, InvFinite inv P B) :
    (∀ q ∈ (parRun fuel giveup inv P t targets rest0 ws).sols, (∀ x : Fin n → ℝ, (∀ i, x i ∈ q.1 i) → ∀ i, x i ∈ q.2 i) ∧
      ∃ z, (∀ i, z i ∈ q.1 i) ∧ f z = 0 ∧ ∀ y, (∀ i, y i ∈ q.2 i) → f y = 0 → y = z) ∧
    (parRun fuel giveup inv P t targets rest0 ws).sols.Pairwise fun q q' => ∀ x : Fin n → ℝ, ¬ ((∀ i, x i ∈ q.1 i) ∧ ∀ i, x i ∈ q'.1 i) := by
  have key := (Allsol.Par.run_ok (fuel := fuel) (giveup := giveup) (inv := inv) hP ws (s := Allsol.Par.init t targets rest0)
    ⟨hI, hR, fun q hq => (by cases hq), List.Pairwise.nil, fun w => trivial⟩ (fun B hB hne => mod_of_moderate hne (hrun B hB)) href).1
  exact ⟨key.sol, key.disj⟩

/-- C32, connection with the sequential search: for each number of threads its result is the result of an execution in which all threads leave the loop. -/
theorem C32_sequential (ht : 0 < t) (h : allsolList fuel giveup inv P targets rest0 = .ok (sols, rest)) :
    ∃ ws : List (Fin t), (∀ w, (parRun fuel giveup inv P t targets rest0 ws).loc w = .done) ∧
      (parRun fuel giveup inv P t targets rest0 ws).sols = sols ∧ (parRun fuel giveup inv P t targets rest0 ws).rest = rest := by
  obtain ⟨q, hq, h⟩ := bind_ok.1 h
  cases h
  obtain ⟨ws, s, h1, h2, h3, h4, h5⟩ := Allsol.Par.run_loop (t := t) ⟨0, ht⟩ hq (Allsol.Par.init_inv targets rest0) ⟨rfl, rfl, rfl⟩ rfl
  have hI : Allsol.Par.CInv targets s := by rw [← h1]; exact parRun_inv ws
  have hc : s.count = 0 := by
    rw [hI.count, h2, h5]; simp [Allsol.Par.init, Allsol.Par.busy]
  obtain ⟨k1, k2, k3, k4⟩ := Allsol.Par.run_stop (fuel := fuel) (giveup := giveup) (inv := inv) (P := P) (List.finRange t) hc fun v => by rw [h5]; exact .inl rfl
  have e : parRun fuel giveup inv P t targets rest0 (ws ++ List.finRange t) = Allsol.Par.run fuel giveup inv P (List.finRange t) s := by
    rw [← h1]; exact Allsol.Par.run_append _ _
  refine ⟨ws ++ List.finRange t, fun w => ?_, ?_, ?_⟩ <;> rw [e]
  · exact k4 w (.inl (List.mem_finRange w))
  · rw [k2, h3]
  · rw [k3, h4]

/-- Concrete case: three threads on `x² - 2`, `[-3/2, 3/2]` may end with two boxes. -/
example : ∃ ws : List (Fin 3), (∀ w, (parRun 50 (lit 0) inv1 sqP 3 [box32] [] ws).loc w = .done) ∧ (parRun 50 (lit 0) inv1 sqP 3 [box32] [] ws).sols.length = 2 := by
  have h := sqP_allsol
  split at h
  · rename_i l heq
    obtain ⟨ws, h1, h2, -⟩ := C32_sequential (t := 3) (by norm_num) heq
    exact ⟨ws, h1, by rw [h2]; exact of_decide_eq_true h⟩
  · cases h

/-- checks for two threads on `x² - 2`, `[-3/2, 3/2]` acting in the order `ws`: two solutions, thread 0 has left the loop, conditions of the theorems -/
def sqPar (ws : List (Fin 2)) : Bool :=
  let s := parRun 50 (lit 0) inv1 sqP 2 [box32] [] ws
  decide (s.sols.length = 2) && s.rest.isEmpty && (match s.loc 0 with | .done => true | _ => false) && s.took.all fun B => runOk1 sqP (B, s.refined)

theorem sqPar_ok : sqPar (List.replicate 60 [0, 1, 1, 0, 1]).flatten = true := by decide +kernel

theorem sqPar_zeros {ws : List (Fin 2)} (h : sqPar ws = true) (z : Fin 1 → ℝ) (hz : ∀ i, z i ∈ box32 i) (h0 : (fun i => (sqE i).real (fun _ => 0) z) = 0) :
    ∃ q ∈ (parRun 50 (lit 0) inv1 sqP 2 [box32] [] ws).sols, ∀ i, z i ∈ q.1 i := by
  unfold sqPar at h
  simp only [Bool.and_eq_true, List.all_eq_true] at h
  obtain ⟨⟨⟨-, h2⟩, h3⟩, h4⟩ := h
  have hd : (parRun 50 (lit 0) inv1 sqP 2 [box32] [] ws).loc 0 = .done := by
    split at h3
    · assumption
    · cases h3
  have hb : box32 ∈ (parRun 50 (lit 0) inv1 sqP 2 [box32] [] ws).took := by
    rw [(C32 ws 0 hd).2.1]; simp
  have hS := exprProg_sound (fuel := 0) (p := fun _ => Interval.point (lit 0)) (sqE_hyp fun _ => 0).1 (sqE_hyp fun _ => 0).2 fun _ => point_mem is_zero
  have hne : AllNonempty [box32] := fun B hB i => by rw [List.mem_singleton] at hB; rw [hB]; exact (box32_fin i).1
  rcases C32_zeros_partial hS hne (rest0 := []) (fun B hB => by cases hB) ws
    (fun B hB => ⟨(runOk1_iff (h4 B hB)).1, (runOk1_iff (h4 B hB)).2.1, (runOk1_iff (h4 B hB)).2.2.1⟩) (fun B hB => (runOk1_iff (h4 _ hb)).2.2.2 B hB) 0 hd z ⟨_, by simp, hz⟩
        (fun i => by simp [sqE, Expr.Dom, Bin.Dom]) h0 with hq | ⟨B, hB, -⟩
  · exact hq
  · change B ∈ (parRun 50 (lit 0) inv1 sqP 2 [box32] [] ws).rest at hB
    rw [List.isEmpty_iff.1 h2] at hB; cases hB

/-- Concrete case with actions of two threads interleaved: the hypotheses of the theorems are met; all zeros of `x² - 2` between -3/2 and 3/2 are found. -/
example : ∃ ws : List (Fin 2), ∀ z : Fin 1 → ℝ, (∀ i, z i ∈ box32 i) → (fun i => (sqE i).real (fun _ => 0) z) = 0 →
    ∃ q ∈ (parRun 50 (lit 0) inv1 sqP 2 [box32] [] ws).sols, ∀ i, z i ∈ q.1 i := ⟨_, sqPar_zeros sqPar_ok⟩

end Kv
