import Verif.Solver.LpLemmas
import Verif.Solver.LpSpec

/-! # The verified simplex method: the initial matrix -/

namespace Kv
namespace Lp
open RopSem Kv.Interval
open Rop (lit lt le)
open Finset (Icc)

theorem sum_split (f : ℕ → ℝ) (k : ℕ) : ∀ m, ∑ j ∈ Icc 1 (k + m), f j = (∑ j ∈ Icc 1 k, f j) + ∑ i ∈ Icc 1 m, f (k + i) := by
  intro m
  induction m with
  | zero => simp
  | succ m ih =>
    rw [Finset.sum_Icc_succ_top (by omega), ← add_assoc k, Finset.sum_Icc_succ_top (by omega), ih]
    rw [add_assoc, add_assoc]

theorem linear_eq {c : List D} {k : ℕ} (h : c.length ≤ k + 1) (x : ℕ → ℝ) :
    linear c x = coef c 0 + ∑ j ∈ Icc 1 k, coef c j * x j := by
  unfold linear
  congr 1
  refine Finset.sum_subset (Finset.Icc_subset_Icc_right (by omega)) fun j hj hj' => ?_
  rw [Finset.mem_Icc] at hj hj'
  unfold coef
  rw [List.getD_eq_default _ _ (by omega), dbl_zero, zero_mul]

structure Start (obj : List D) (cons : List (List D)) (s : St) : Prop where
  ne : obj ≠ []
  chk : check cons = .ok ()
  a : s.a = tab cons.length (obj.length - 1 + cons.length) (entry obj cons (obj.length - 1))
  isb : s.isb = List.replicate (obj.length - 1 + 1) false ++ List.replicate cons.length true
  bas : s.bas = 0 :: List.range' (obj.length - 1 + 1) cons.length
  fin : s.fin = finTab s.a

theorem start_ok {obj : List D} {cons : List (List D)} {s : St} (h : start obj cons = .ok s) : Start obj cons s := by
  unfold start at h
  by_cases h1 : obj = []
  · rw [if_pos h1] at h; cases h
  · rw [if_neg h1] at h
    obtain ⟨_, h2, h3⟩ := bind_ok.1 h
    cases h3
    exact ⟨h1, h2, rfl, rfl, rfl, rfl⟩

variable {obj : List D} {cons : List (List D)} {s : St}

theorem R_start (h : Start obj cons s) {i j : ℕ} (hi : i ≤ cons.length) (hj : j ≤ obj.length - 1 + cons.length) :
    R s.a i j = dbl (entry obj cons (obj.length - 1) i j) := by
  unfold R; rw [h.a, get_tab _ hi hj]

theorem fin_entry (h : Start obj cons s) (hf : s.fin = true) {i j : ℕ} (hi : i ≤ cons.length) (hj : j ≤ obj.length - 1 + cons.length) :
    FinD (entry obj cons (obj.length - 1) i j) := by
  rw [h.fin] at hf
  have := finTab_get hf i j
  rwa [h.a, get_tab _ hi hj] at this

theorem finD_of_neg {a : D} (h : FinD (Rop.neg a)) : FinD a := Fl.neg_fin.1 h

theorem R_obj0 (h : Start obj cons s) : R s.a 0 0 = coef obj 0 := by
  rw [R_start h (Nat.zero_le _) (Nat.zero_le _)]; rfl

theorem R_objj (h : Start obj cons s) (hf : s.fin = true) {j : ℕ} (hj : j ∈ Icc 1 (obj.length - 1)) : R s.a 0 j = -coef obj j := by
  rw [Finset.mem_Icc] at hj
  have hfin := fin_entry h hf (i := 0) (j := j) (Nat.zero_le _) (by omega)
  rw [R_start h (Nat.zero_le _) (by omega)]
  unfold entry at hfin ⊢
  simp only at hfin ⊢
  rw [if_neg (by omega), if_pos hj.2] at hfin ⊢
  exact dbl_neg (finD_of_neg hfin)

theorem R_objs (h : Start obj cons s) {i : ℕ} (hi : i ∈ Icc 1 cons.length) : R s.a 0 (obj.length - 1 + i) = 0 := by
  rw [Finset.mem_Icc] at hi
  rw [R_start h (Nat.zero_le _) (by omega)]
  unfold entry
  simp only
  rw [if_neg (by omega), if_neg (by omega), dbl_zero]

theorem R_con0 (h : Start obj cons s) (hf : s.fin = true) {i : ℕ} (hi : i < cons.length) : R s.a (i + 1) 0 = -coef cons[i] 0 := by
  have hfin := fin_entry h hf (i := i + 1) (j := 0) (by omega) (by omega)
  rw [R_start h (by omega) (by omega)]
  unfold entry at hfin ⊢
  simp only [if_true] at hfin ⊢
  rw [List.getD_eq_getElem cons _ hi] at hfin ⊢
  exact dbl_neg (finD_of_neg hfin)

theorem R_conj (h : Start obj cons s) {i j : ℕ} (hi : i < cons.length) (hj : j ∈ Icc 1 (obj.length - 1)) :
    R s.a (i + 1) j = coef cons[i] j := by
  rw [Finset.mem_Icc] at hj
  rw [R_start h (by omega) (by omega)]
  unfold entry
  simp only
  rw [if_neg (by omega), if_pos hj.2, List.getD_eq_getElem cons _ hi]
  unfold coef
  by_cases h1 : j < cons[i].length
  · rw [if_pos h1]
  · rw [if_neg h1, List.getD_eq_default _ _ (by omega)]

theorem R_cons (h : Start obj cons s) {i k : ℕ} (hi : i < cons.length) (hk : k ∈ Icc 1 cons.length) :
    R s.a (i + 1) (obj.length - 1 + k) = if i + 1 = k then 1 else 0 := by
  rw [Finset.mem_Icc] at hk
  rw [R_start h (by omega) (by omega)]
  unfold entry
  simp only
  rw [if_neg (by omega), if_neg (by omega)]
  by_cases h1 : i + 1 = k
  · rw [if_pos h1, if_pos (by omega), dbl_one]
  · rw [if_neg h1, if_neg (by omega), dbl_zero]

theorem bas_start (h : Start obj cons s) {k : ℕ} (hk : k ∈ Icc 1 cons.length) : s.bas.getD k 0 = obj.length - 1 + k := by
  rw [Finset.mem_Icc] at hk
  rw [h.bas, List.getD_eq_getElem _ _ (by simp; omega)]
  obtain ⟨k, rfl⟩ : ∃ k', k = k' + 1 := ⟨k - 1, by omega⟩
  simp; omega

theorem start_inv (h : Start obj cons s) (hf : s.fin = true) : Inv cons.length (obj.length - 1 + cons.length) s := by
  refine ⟨by rw [h.a]; exact shape_tab _ _ _, ?_, by rw [h.bas]; simp, by rw [h.isb]; simp; omega, ?_, ?_⟩
  · intro k hk
    simp only
    rw [bas_start h hk]
    have hk' := Finset.mem_Icc.1 hk
    refine ⟨Finset.mem_Icc.2 ⟨by omega, by omega⟩, fun i hi => ?_⟩
    cases i with
    | zero => rw [R_objs h hk, if_neg (by omega)]
    | succ i => rw [R_cons h (by omega) hk]
  · intro j hj
    rw [h.isb]
    constructor
    · intro h1
      rw [List.getD_eq_getElem _ _ (by simp; omega), List.getElem_append] at h1
      split_ifs at h1 with h2
      · simp at h1
      · simp at h2
        refine ⟨j - (obj.length - 1), ?_, ?_⟩
        · rw [Finset.mem_Icc]; omega
        · rw [bas_start h (by rw [Finset.mem_Icc]; omega)]; omega
    · rintro ⟨k, hk, h1⟩
      rw [bas_start h hk] at h1
      rw [Finset.mem_Icc] at hk
      rw [List.getD_eq_getElem _ _ (by simp; omega), List.getElem_append, dif_neg (by simp; omega)]
      simp
  · rw [h.fin] at hf
    exact finTab_get hf

/-- the solutions of the initial matrix are the feasible points with the slack variables -/
theorem sum_row (h : Start obj cons s) {i : ℕ} (hi : i < cons.length) (v : ℕ → ℝ) :
    ∑ j ∈ Icc 1 (obj.length - 1 + cons.length), R s.a (i + 1) j * v j =
      (∑ j ∈ Icc 1 (obj.length - 1), coef cons[i] j * v j) + v (obj.length - 1 + (i + 1)) := by
  rw [sum_split]
  congr 1
  · exact Finset.sum_congr rfl fun j hj => by rw [R_conj h hi hj]
  · rw [Finset.sum_eq_single (i + 1)]
    · rw [R_cons h hi (Finset.mem_Icc.2 ⟨by omega, by omega⟩), if_pos rfl, one_mul]
    · intro k hk hki
      rw [R_cons h hi hk, if_neg (Ne.symm hki), zero_mul]
    · intro hn; exact absurd (Finset.mem_Icc.2 ⟨by omega, by omega⟩) hn

theorem obj_start (h : Start obj cons s) (hf : s.fin = true) (v : ℕ → ℝ) :
    objv (obj.length - 1 + cons.length) (R s.a) v = linear obj v := by
  unfold objv
  rw [sum_split, R_obj0 h, linear]
  have h1 : ∑ j ∈ Icc 1 (obj.length - 1), R s.a 0 j * v j = -∑ j ∈ Icc 1 (obj.length - 1), coef obj j * v j := by
    rw [← Finset.sum_neg_distrib]
    exact Finset.sum_congr rfl fun j hj => by rw [R_objj h hf hj]; ring
  have h2 : ∑ i ∈ Icc 1 cons.length, R s.a 0 (obj.length - 1 + i) * v (obj.length - 1 + i) = 0 :=
    Finset.sum_eq_zero fun i hi => by rw [R_objs h hi, zero_mul]
  rw [h1, h2]; ring

theorem feasible_sol (h : Start obj cons s) (hf : s.fin = true) (hlen : ∀ c ∈ cons, c.length ≤ obj.length) {x : ℕ → ℝ}
    (hx : Feasible cons x) : ∃ v, Sol cons.length (obj.length - 1 + cons.length) (R s.a) v ∧ linear obj v = linear obj x := by
  have hne : 1 ≤ obj.length := List.length_pos_iff.2 h.ne
  refine ⟨fun j => if j ≤ obj.length - 1 then x j else if j ≤ obj.length - 1 + cons.length then
    -linear (cons.getD (j - obj.length) []) x else 0, ⟨fun j => ?_, fun i hi => ?_⟩, ?_⟩
  · simp only
    split_ifs with h1 h2
    · exact hx.1 j
    · rw [List.getD_eq_getElem _ _ (by omega)]
      have := hx.2 _ (List.getElem_mem (l := cons) (n := j - obj.length) (by omega))
      linarith
    · exact le_rfl
  · rw [Finset.mem_Icc] at hi
    obtain ⟨i, rfl⟩ : ∃ i', i = i' + 1 := ⟨i - 1, by omega⟩
    rw [sum_row h (by omega), R_con0 h hf (by omega)]
    rw [if_neg (by omega), if_pos (by omega), show obj.length - 1 + (i + 1) - obj.length = i by omega,
      List.getD_eq_getElem cons _ (by omega), linear_eq (k := obj.length - 1) (by have := hlen cons[i] (List.getElem_mem _); omega)]
    have : ∑ j ∈ Icc 1 (obj.length - 1), coef cons[i] j * (if j ≤ obj.length - 1 then x j else
        if j ≤ obj.length - 1 + cons.length then -linear (cons.getD (j - obj.length) []) x else 0) =
        ∑ j ∈ Icc 1 (obj.length - 1), coef cons[i] j * x j :=
      Finset.sum_congr rfl fun j hj => by rw [if_pos (Finset.mem_Icc.1 hj).2]
    rw [this]; ring
  · unfold linear
    congr 1
    exact Finset.sum_congr rfl fun j hj => by beta_reduce; rw [if_pos (Finset.mem_Icc.1 hj).2]

theorem sol_feasible (h : Start obj cons s) (hf : s.fin = true) (hlen : ∀ c ∈ cons, c.length ≤ obj.length) {v : ℕ → ℝ}
    (hv : Sol cons.length (obj.length - 1 + cons.length) (R s.a) v) : Feasible cons v := by
  have hne : 1 ≤ obj.length := List.length_pos_iff.2 h.ne
  refine ⟨hv.1, fun c hc => ?_⟩
  obtain ⟨i, hi, rfl⟩ := List.mem_iff_getElem.1 hc
  have h1 := hv.2 (i + 1) (Finset.mem_Icc.2 ⟨by omega, by omega⟩)
  rw [sum_row h hi, R_con0 h hf hi] at h1
  rw [linear_eq (k := obj.length - 1) (by have := hlen cons[i] (List.getElem_mem _); omega)]
  have := hv.1 (obj.length - 1 + (i + 1))
  linarith

end Lp
end Kv
