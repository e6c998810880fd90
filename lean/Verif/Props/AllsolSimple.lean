import Verif.Solver.AllsolLemmas
import Verif.Props.Kraw

/-!
# C29, C30: finding all zeros by bisection (`allsol_simple`)

`f` is a real function with enclosures computed by `P` (`Prog.Sound`), `inv` an arbitrary approximate inverse.
`allsolListSimple fuel inv P targets = .ok (sols, given)`: the search ends; `sols` lists the pairs of a returned box
and the box in which it was found to contain a unique zero; `given` lists the boxes dropped with the message
"too small interval (may be multiple root?)".

C29 is false in general: if the approximate inverse overflows, zeros are lost (`C29_violated`).  It holds if no approximate
inverse has an infinite entry.
-/

namespace Kv
open RopSem Kv.Interval
open Rop (lit)
open LA

variable {n : ℕ} {inv : Inverter n} {P : Prog n} {dom : (Fin n → ℝ) → Prop} {f : (Fin n → ℝ) → Fin n → ℝ} {fuel : ℕ}
  {targets given : List (Vec n (Interval D))} {sols : List (Vec n (Interval D) × Vec n (Interval D))}

/-- an interval which is not empty, with finite computed width -/
def FinWidth (Z : Interval D) : Prop := (∃ x : ℝ, x ∈ Z) ∧ FinD (Interval.width Z)

/-- no approximate inverse computed during the run has an infinite entry -/
def NoOverflowRun (fuel : ℕ) (inv : Inverter n) (P : Prog n) (targets : List (Vec n (Interval D))) : Prop :=
  ∀ B ∈ AllsolSimple.trace fuel inv P fuel ⟨targets, [], []⟩, ∀ fi J R, P.FD B = .ok (fi, J) → inv (midM J) = some R → ∀ i k, R i k ≠ dPinf ∧ R i k ≠ dNinf

/-- C29 if approximate inverses do not overflow (missing: the case that they do, where it is false): every zero of `f` in one of
the initial boxes lies in a returned box or in a box reported as too small. -/
theorem C29_partial (hP : P.Sound dom f) (hinv : NoOverflowRun fuel inv P targets) (hI : ∀ B ∈ targets, ∀ i, FinWidth (B i))
    (h : allsolListSimple fuel inv P targets = .ok (sols, given)) (z : Fin n → ℝ) (hz : ∃ B ∈ targets, ∀ i, z i ∈ B i) (hd : dom z) (h0 : f z = 0) :
    (∃ q ∈ sols, ∀ i, z i ∈ q.1 i) ∨ ∃ B ∈ given, ∀ i, z i ∈ B i := by
  obtain ⟨t, ht, h⟩ := bind_ok.1 h
  cases h
  exact (AllsolSimple.loop_ok (s := ⟨targets, [], []⟩) hP (fun B hB i => ⟨(hI B hB i).2, (hI B hB i).1⟩) (fun q hq => by cases hq) List.Pairwise.nil ht).2.2 hinv z (.inl hz) hd h0

/-- C30: each returned box contains a zero of `f`, which is the only zero in the box where it was found; the returned
boxes are disjoint, so they contain different zeros. -/
theorem C30_simple (hP : P.Sound dom f) (hI : ∀ B ∈ targets, ∀ i, FinWidth (B i)) (h : allsolListSimple fuel inv P targets = .ok (sols, given)) :
    (∀ q ∈ sols, (∀ x : Fin n → ℝ, (∀ i, x i ∈ q.1 i) → ∀ i, x i ∈ q.2 i) ∧
      ∃ z, (∀ i, z i ∈ q.1 i) ∧ f z = 0 ∧ ∀ y, (∀ i, y i ∈ q.2 i) → f y = 0 → y = z) ∧
    sols.Pairwise fun q q' => ∀ x : Fin n → ℝ, ¬ ((∀ i, x i ∈ q.1 i) ∧ ∀ i, x i ∈ q'.1 i) := by
  obtain ⟨t, ht, h⟩ := bind_ok.1 h
  cases h
  have := AllsolSimple.loop_ok (s := ⟨targets, [], []⟩) hP (fun B hB i => ⟨(hI B hB i).2, (hI B hB i).1⟩) (fun q hq => by cases hq) List.Pairwise.nil ht
  exact ⟨this.1, this.2.1⟩

/-- C29 and C30 together: if no box was reported as too small and `f` is defined on the initial box, the returned boxes correspond exactly
to the zeros. -/
theorem C29_C30_count_partial (hP : P.Sound dom f) {I : Vec n (Interval D)}
    (hinv : NoOverflowRun fuel inv P [I]) (hI : ∀ i, FinWidth (I i)) (hd : ∀ x : Fin n → ℝ, (∀ i, x i ∈ I i) → dom x) (h : allsolSimple fuel inv P I = .ok (sols, []))
    (hin : ∀ q ∈ sols, ∀ x : Fin n → ℝ, (∀ i, x i ∈ q.1 i) → ∀ i, x i ∈ I i) :
    {z : Fin n → ℝ | (∀ i, z i ∈ I i) ∧ f z = 0}.ncard = sols.length := by
  obtain ⟨h1, h2⟩ := C30_simple (targets := [I]) hP (fun B hB => by rw [List.mem_singleton] at hB; rw [hB]; exact hI) h
  have hall := C29_partial (targets := [I]) hP hinv (fun B hB => by rw [List.mem_singleton] at hB; rw [hB]; exact hI) h
  choose! g g1 g2 g3 using fun q hq => (h1 q hq).2
  have e : {z : Fin n → ℝ | (∀ i, z i ∈ I i) ∧ f z = 0} = {z | z ∈ sols.map g} := by
    ext z
    constructor
    · rintro ⟨hz, h0⟩
      rcases hall z ⟨I, by simp, hz⟩ (hd z hz) h0 with ⟨q, hq, hqz⟩ | ⟨B, hB, -⟩
      · exact List.mem_map.2 ⟨q, hq, (g3 q hq z ((h1 q hq).1 z hqz) h0).symm⟩
      · cases hB
    · intro hz
      obtain ⟨q, hq, rfl⟩ := List.mem_map.1 hz
      exact ⟨hin q hq _ (g1 q hq), g2 q hq⟩
  have hnd : (sols.map g).Nodup := by
    refine List.pairwise_map.2 (h2.imp_of_mem fun {q q'} hq hq' hqq e => hqq (g q) ⟨g1 q hq, ?_⟩)
    rw [e]; exact g1 q' hq'
  classical
  rw [e, show {z | z ∈ sols.map g} = ((sols.map g).toFinset : Set (Fin n → ℝ)) by ext; simp, Set.ncard_coe_finset, List.toFinset_card_of_nodup hnd,
    List.length_map]

/-! Concrete cases. -/

/-- no overflow, decided for one variable -/
def noOverflow1 (P : Prog 1) (B : Vec 1 (Interval D)) : Bool :=
  match P.FD B with
  | .ok (_, J) =>
    match inv1 (midM J) with
    | some R => decide (R 0 0 ≠ dPinf ∧ R 0 0 ≠ dNinf)
    | none => true
  | .error _ => true

theorem noOverflow1_iff {P : Prog 1} {B : Vec 1 (Interval D)} (h : noOverflow1 P B = true) (fi J R) (h1 : P.FD B = .ok (fi, J))
    (h2 : inv1 (midM J) = some R) (i k : Fin 1) : R i k ≠ dPinf ∧ R i k ≠ dNinf := by
  unfold noOverflow1 at h
  simp only [h1, h2] at h
  rw [Subsingleton.elim i 0, Subsingleton.elim k 0]
  exact of_decide_eq_true h

/-- the box `[-3/2, 3/2]` -/
def box32 : Vec 1 (Interval D) := fun _ => ⟨lit (-3 / 2), lit (3 / 2)⟩

def sqP : Prog 1 := exprProg 0 (fun _ => Interval.point (lit 0)) sqE

set_option maxRecDepth 100000 in
/-- the search for the zeros of `x² - 2` in `[-3/2, 3/2]` ends, returns two boxes and reports none; no inverse overflows -/
theorem sqP_run : (match allsolSimple 50 inv1 sqP box32 with
    | .ok (l, []) => decide (l.length = 2) && l.all fun q => decide (Rop.le (lit (-3 / 2)) (q.1 0).inf = true ∧ Rop.le (q.1 0).sup (lit (3 / 2)) = true)
    | _ => false) = true := by
  decide +kernel

theorem sqP_noOverflow : (AllsolSimple.trace 50 inv1 sqP 50 ⟨[box32], [], []⟩).all (noOverflow1 sqP) = true := by
  decide +kernel

theorem box32_fin : ∀ i, FinWidth (box32 i) := fun _ =>
  ⟨⟨0, (C07_zero_in (box32 0)).1 (by decide +kernel)⟩, isFinD_iff.1 (by decide +kernel : isFinD (Interval.width (box32 0)) = true)⟩

/-- the hypotheses of the theorems are met; conclusion: `x² = 2` has exactly two real solutions between -3/2 and 3/2 -/
example : {z : Fin 1 → ℝ | (∀ i, z i ∈ box32 i) ∧ (fun i => (sqE i).real (fun _ => 0) z) = 0}.ncard = 2 := by
  have h := sqP_run
  split at h
  · rename_i l heq
    rw [Bool.and_eq_true, List.all_eq_true] at h
    have := C29_C30_count_partial (fuel := 50) (inv := inv1) (I := box32)
      (exprProg_sound (fuel := 0) (p := fun _ => Interval.point (lit 0)) (sqE_hyp fun _ => 0).1 (sqE_hyp fun _ => 0).2 fun _ => point_mem is_zero)
      (fun B hB => noOverflow1_iff (List.all_eq_true.1 sqP_noOverflow B hB)) box32_fin (fun x _ i => by simp [sqE, Expr.Dom, Bin.Dom]) heq ?_
    · rw [this]; exact of_decide_eq_true h.1
    · intro q hq x hx i
      rw [Subsingleton.elim i 0]
      have h2 := of_decide_eq_true (h.2 q hq)
      have hx := hx 0
      rw [le_iff, le_iff] at h2
      exact ⟨⟨h2.1.1, h2.1.2.2.trans hx.1.2⟩, h2.2.2.1, hx.2.2.trans h2.2.2.2⟩
  · cases h

/-! Violation: `f(x) = 2⁻¹⁰⁶⁰ x` on `[-1, 1]`.  The reciprocal of the derivative overflows, the Krawczyk operator yields NaN and
the box is discarded as disjoint from it. -/

def tinyE : Fin 1 → Expr 1 := fun _ => .binC .mul (.var 0) (lit (2 ^ (-1060 : ℤ)))

/-- the box `[-1, 1]` -/
def box11 : Vec 1 (Interval D) := fun _ => ⟨lit (-1), lit 1⟩

theorem tinyE_run : (match allsolSimple 50 inv1 (exprProg 0 (fun _ => Interval.point (lit 0)) tinyE) box11 with
    | .ok ([], []) => true
    | _ => false) = true := by
  decide +kernel

/-- C29 is violated: a zero in a bounded initial box is lost without notice. -/
theorem C29_violated : ∃ (P : Prog 1) (dom : (Fin 1 → ℝ) → Prop) (f : (Fin 1 → ℝ) → Fin 1 → ℝ) (I : Vec 1 (Interval D)) (z : Fin 1 → ℝ) (fuel : ℕ),
    P.Sound dom f ∧ (∀ i, FinWidth (I i)) ∧ (∀ i, z i ∈ I i) ∧ dom z ∧ f z = 0 ∧ allsolSimple fuel inv1 P I = .ok ([], []) := by
  have h := tinyE_run
  split at h
  · rename_i heq
    have h0 : (0 : ℝ) ∈ box11 0 := (C07_zero_in _).1 (by decide +kernel)
    refine ⟨_, _, _, box11, fun _ => 0, 50, exprProg_sound (fuel := 0) (p := fun _ => Interval.point (lit 0)) (ρ := fun _ => 0) (e := tinyE) ?_ ?_
      fun _ => point_mem is_zero, fun i => ⟨⟨0, h0⟩, isFinD_iff.1 (by decide +kernel : isFinD (Interval.width (box11 0)) = true)⟩, fun i => h0, ?_, ?_, heq⟩
    · exact fun i => ⟨trivial, is_dbl' (isFinD_iff.1 (by decide +kernel))⟩
    · exact fun i => by simp [tinyE, Expr.ConstDom]
    · exact fun i => by simp [tinyE, Expr.Dom, Bin.Dom]
    · funext i
      show (0 : ℝ) * _ = 0
      exact zero_mul _
  · cases h

end Kv
