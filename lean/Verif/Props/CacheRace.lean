import Verif.Solver.Cache
import Verif.Props.Elem

/-!
# C49: the cached constants and threads

`constants<interval<double>>::e()` is right when calls do not overlap, and right for any number of
threads once one call has completed; but the first calls made by two threads can return intervals
that do not contain `e`, and can leave a wrong value in the cache for the rest of the program.
-/

namespace Kv
open RopSem Kv.Interval
open Rop (lit)
namespace Cache

theorem eProg_go {fuel : ℕ} : ∀ (i : ℕ) (r y : Interval D), Prog.call.go (eProg D) fuel r (i, y) =
    (eLoop ⟨RopX.strDown 1, RopX.strUp (271828182845904524 / 100000000000000000)⟩ fuel i r y).map
      (fun z => (z, z)) := by
  induction fuel with
  | zero => intros; rfl
  | succ n ih =>
    intro i r y
    rw [Prog.call.go, eLoop]
    dsimp only [eProg]
    by_cases h : i = intMax
    · rw [if_pos h, if_pos h]; rfl
    rw [if_neg h, if_neg h]
    cases hd : divS y (lit i) with
    | error e => rfl
    | ok w =>
      dsimp only [bind, Except.bind]
      split_ifs with h1
      · rfl
      · exact ih _ _ _

/-- successive calls that do not overlap, with any fuel each; the list of results -/
def calls {V σ : Type} (P : Prog V σ) : V → List ℕ → List (Res V)
  | _, [] => []
  | v, f :: l =>
    match P.call v f with
    | .ok (v', r) => .ok r :: calls P v' l
    | .error e => [.error e]

end Cache
open Cache

/-- the schedule in which thread 0 has executed `tmp = 1.` and thread 1 then makes a whole call -/
def schedEarly : List ℕ := [0, 0, 1, 1]

/-- the schedule in which threads 0 and 1 both find the cache empty, both execute `tmp = 1.` and then
take turns in the loop until both have returned -/
def schedBoth : List ℕ := (List.replicate 24 [0, 1]).flatten

/-- what a thread has returned -/
def result {V σ : Type} (S : Sys V σ) (t : ℕ) : Option V :=
  match S.pcs t with
  | .returned v => some v
  | _ => none

/-- C49: calls that do not overlap return enclosures of `e`, the first as well as the later ones. -/
theorem C49_sequential (l : List ℕ) {Z : Interval D}
    (h : .ok Z ∈ calls (eProg D) (point (lit 0)) l) : Real.exp 1 ∈ Z := by
  suffices H : ∀ (l : List ℕ) (v : Interval D), (v = point (lit 0) ∨ Real.exp 1 ∈ v) →
      .ok Z ∈ calls (eProg D) v l → Real.exp 1 ∈ Z from H l _ (Or.inl rfl) h
  intro l
  induction l with
  | nil => intro v _ h; simp [calls] at h
  | cons f l ih =>
    intro v hv h
    rw [calls] at h
    have key : ∀ v' r, (eProg D).call v f = .ok (v', r) → Real.exp 1 ∈ v' ∧ Real.exp 1 ∈ r := by
      intro v' r hc
      unfold Prog.call at hc
      by_cases hval : (eProg D).valid v = true
      · rw [if_pos hval] at hc
        cases hc
        rcases hv with rfl | hv
        · exact absurd hval (by decide +kernel)
        · exact ⟨hv, hv⟩
      · rw [if_neg hval] at hc
        rw [show (eProg D).start.2 = (1, point one) from rfl, eProg_go] at hc
        cases hE : eLoop (⟨RopX.strDown 1, RopX.strUp (271828182845904524 / 100000000000000000)⟩ : Interval D)
            f 1 (eProg D).start.1 (point one) with
        | error e => rw [hE] at hc; cases hc
        | ok z =>
          rw [hE] at hc
          have : Real.exp 1 ∈ z := constE_mem (fuel := f) hE
          cases hc
          exact ⟨this, this⟩
    cases hc : (eProg D).call v f with
    | error e => rw [hc] at h; simp at h
    | ok p =>
      obtain ⟨v', r⟩ := p
      rw [hc] at h
      obtain ⟨k1, k2⟩ := key v' r hc
      rcases List.mem_cons.1 h with h | h
      · cases h; exact k2
      · exact ih _ (Or.inr k1) h

/-- C49: once the cache holds an enclosure whose lower end is not zero (a call has completed), every
thread returns that enclosure, under every schedule. -/
theorem C49_warm {v : Interval D} (h0 : val v.inf ≠ 0) (sched : List ℕ) (t : ℕ)
    {r : Interval D} (h : result ((eProg D).run (init v) sched) t = some r) : r = v := by
  have hval : (eProg D).valid v = true := by
    show (!(Rop.eq v.inf (lit 0))) = true
    rw [Bool.not_eq_true', ← Bool.not_eq_true, eq_iff, lit_zero.2]
    exact fun h => h0 h.2.2
  have H : ∀ (l : List ℕ) (S : Sys (Interval D) (ℕ × Interval D)),
      (S.cache = v ∧ ∀ u, S.pcs u = .idle ∨ S.pcs u = .leaving ∨ S.pcs u = .returned v) →
      (((eProg D).run S l).cache = v ∧ ∀ u, ((eProg D).run S l).pcs u = .idle ∨
        ((eProg D).run S l).pcs u = .leaving ∨ ((eProg D).run S l).pcs u = .returned v) := by
    intro l
    induction l with
    | nil => exact fun S h => h
    | cons a l ih =>
      intro S ⟨h1, h2⟩
      refine ih ((eProg D).sched S a) ?_
      unfold Prog.sched
      rcases h2 a with h3 | h3 | h3
      · rw [h3, h1]
        simp only [Prog.tick, hval, if_true]
        refine ⟨trivial, fun u => ?_⟩
        by_cases hu : u = a
        · simp [hu]
        · simp only [if_neg hu]; exact h2 u
      · rw [h3, h1]
        simp only [Prog.tick]
        refine ⟨trivial, fun u => ?_⟩
        by_cases hu : u = a
        · simp [hu]
        · simp only [if_neg hu]; exact h2 u
      · rw [h3, h1]
        simp only [Prog.tick]
        refine ⟨trivial, fun u => ?_⟩
        by_cases hu : u = a
        · simp [hu]
        · simp only [if_neg hu]; exact h2 u
  have := (H sched (init v) ⟨rfl, fun _ => Or.inl rfl⟩).2 t
  unfold result at h
  rcases this with h3 | h3 | h3 <;> rw [h3] at h <;> simp at h
  exact h.symm

/-- C49 (violated): a thread that calls `e()` while another thread is in its first call can return
`[1, 1]`, which does not contain `e`. -/
theorem C49_race_early : result ((eProg D).run (init (point (lit 0))) schedEarly) 1 = some (point one) ∧
    Real.exp 1 ∉ (point one : Interval D) := by
  constructor
  · decide +kernel
  · rintro ⟨-, -, h⟩
    rw [show (point one : Interval D).sup = one from rfl, is_one.2] at h
    have h : Real.exp 1 ≤ 1 := EReal.coe_le_coe_iff.1 h
    have := Real.add_one_lt_exp (x := 1) one_ne_zero
    linarith

/-- the wrong value `[4.43…, 4.43…]` -/
def badE : Interval D := ⟨lit (2497563304012715 / 2 ^ 49), lit (624390826003183 / 2 ^ 47)⟩

theorem cacheBoth : ((eProg D).run (init (point (lit 0))) schedBoth).cache = badE := by decide +kernel

/-- C49 (violated): if two threads make the first call together, both can return `[4.436, 4.437]`,
which does not contain `e`, and from then on every call of every thread returns that value. -/
theorem C49_race_persistent :
    (∀ t < 2, result ((eProg D).run (init (point (lit 0))) schedBoth) t = some badE) ∧
    Real.exp 1 ∉ badE ∧
    ∀ (sched : List ℕ) (t : ℕ) (r : Interval D),
      result ((eProg D).run (init ((eProg D).run (init (point (lit 0))) schedBoth).cache) sched) t = some r →
      r = badE := by
  have r1 : binary64.Rep (2497563304012715 / 2 ^ 49) := by decide +kernel
  have hb : Is badE.inf (((2497563304012715 / 2 ^ 49 : ℚ) : ℚ) : ℝ) := by
    show Is (lit _ : D) _
    rw [Hw.lit_eq r1]; exact Hw.is_iff.2 ⟨_, r1, rfl, rfl⟩
  refine ⟨by decide +kernel, ?_, fun sched t r h => ?_⟩
  · rintro ⟨⟨-, h⟩, -⟩
    rw [hb.2] at h
    have h := EReal.coe_le_coe_iff.1 h
    have h1 := Real.exp_one_lt_d9
    push_cast at h
    norm_num at h
    linarith
  · rw [cacheBoth] at h
    refine C49_warm ?_ sched t h
    rw [hb.2]
    intro h
    have h : (((2497563304012715 / 2 ^ 49 : ℚ) : ℚ) : ℝ) = 0 := by exact_mod_cast h
    push_cast at h
    norm_num at h

/-- a completed call (hypotheses of `C49_sequential`, `C49_warm`) -/
example : calls (eProg D) (point (lit 0)) [40, 0] =
    [.ok ⟨lit (191282078589627 / 2 ^ 46), lit (6121026514868081 / 2 ^ 51)⟩,
     .ok ⟨lit (191282078589627 / 2 ^ 46), lit (6121026514868081 / 2 ^ 51)⟩] := by decide +kernel
example : result ((eProg D).run (init (point one)) [3, 7, 3]) 3 = some (point one) := by decide +kernel

end Kv
