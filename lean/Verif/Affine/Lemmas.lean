import Verif.Affine.Model
import Verif.Solver.LinLemmas
import Verif.Props.Vleq
import Mathlib.Algebra.BigOperators.Intervals
import Mathlib.Data.List.GetD

/-! # Affine arithmetic: meaning of a form, and lemmas on sums of rounded numbers -/

namespace Kv
open RopSem Kv.Interval
open Rop (lit addUp addDown subUp subDown mulUp mulDown divUp divDown)

/-! ## finite doubles as real numbers -/

theorem loD_iff {a : D} (h : FinD a) {x : ℝ} : Lo a x ↔ dbl a ≤ x := by
  have h1 := is_dbl' h
  constructor
  · intro h2; have := h2.2; rw [h1.2] at this; exact_mod_cast this
  · intro h2; exact ⟨h1.1, by rw [h1.2]; exact_mod_cast h2⟩

theorem hiD_iff {a : D} (h : FinD a) {x : ℝ} : Hi a x ↔ x ≤ dbl a := by
  have h1 := is_dbl' h
  constructor
  · intro h2; have := h2.2; rw [h1.2] at this; exact_mod_cast this
  · intro h2; exact ⟨h1.1, by rw [h1.2]; exact_mod_cast h2⟩

theorem addUp_ge {a b : D} (h : FinD (addUp a b)) : dbl a + dbl b ≤ dbl (addUp a b) := by
  obtain ⟨ha, hb⟩ := addUp_fin h
  exact (hiD_iff h).1 (Hi.add ((hiD_iff ha).2 le_rfl) ((hiD_iff hb).2 le_rfl))
theorem addDown_le {a b : D} (h : FinD (addDown a b)) : dbl (addDown a b) ≤ dbl a + dbl b := by
  obtain ⟨ha, hb⟩ := addDown_fin h
  exact (loD_iff h).1 (Lo.add ((loD_iff ha).2 le_rfl) ((loD_iff hb).2 le_rfl))
theorem subUp_ge {a b : D} (h : FinD (subUp a b)) : dbl a - dbl b ≤ dbl (subUp a b) := by
  obtain ⟨ha, hb⟩ := subUp_fin h
  exact (hiD_iff h).1 (Hi.sub ((hiD_iff ha).2 le_rfl) ((loD_iff hb).2 le_rfl))
theorem subDown_le {a b : D} (h : FinD (subDown a b)) : dbl (subDown a b) ≤ dbl a - dbl b := by
  obtain ⟨ha, hb⟩ := subDown_fin h
  exact (loD_iff h).1 (Lo.sub ((loD_iff ha).2 le_rfl) ((hiD_iff hb).2 le_rfl))

theorem is_ne {a : D} {c : ℝ} (h : Is a c) : val a ≠ ⊤ ∧ val a ≠ ⊥ := by rw [h.2]; simp

theorem mulUp_ge {a b : D} (h : FinD (mulUp a b)) : dbl a * dbl b ≤ dbl (mulUp a b) := by
  obtain ⟨ha, hb⟩ := mulUp_fin h
  have h1 := is_dbl' ha
  have h2 := is_dbl' hb
  have := (mul_up a b h1.1 h2.1 (fun _ => is_ne h2) (fun _ => is_ne h1)).2
  rw [h1.2, h2.2, (is_dbl' h).2] at this
  exact_mod_cast this
theorem mulDown_le {a b : D} (h : FinD (mulDown a b)) : dbl (mulDown a b) ≤ dbl a * dbl b := by
  obtain ⟨ha, hb⟩ := mulDown_fin h
  have h1 := is_dbl' ha
  have h2 := is_dbl' hb
  have := (mul_down a b h1.1 h2.1 (fun _ => is_ne h2) (fun _ => is_ne h1)).2
  rw [h1.2, h2.2, (is_dbl' h).2] at this
  exact_mod_cast this

theorem divUp_fin {a b : D} (h : FinD (divUp a b)) (hb : FinD b) : FinD a := Fl.div_fin h hb
theorem divDown_fin {a b : D} (h : FinD (divDown a b)) (hb : FinD b) : FinD a :=
  Fl.neg_fin.1 (Fl.div_fin (Fl.neg_fin.1 h) hb)

theorem Fl.div_zero_not_fin {md : RMode} {x : Fl binary64} {h : binary64.Rep 0} : ¬ FinD (Fl.div md x (Fl.fin 0 h)) := by
  cases x with
  | nan => exact not_finD_nan
  | pinf => exact infOfSign_not_fin _
  | ninf => exact infOfSign_not_fin _
  | fin q hq =>
    have e : Fl.div md (Fl.fin q hq) (Fl.fin 0 h) = Fl.infOfSign (Fl.fin q hq).sgn := by simp [Fl.div]
    rw [e]
    exact infOfSign_not_fin _

theorem dbl_fin {q : ℚ} {h : binary64.Rep q} : dbl (Fl.fin q h : Fl binary64) = q := is_dbl ⟨Hw.not_nan_fin q h, Hw.val_fin q h⟩

theorem divUp_ne {a b : D} (h : FinD (divUp a b)) (hb : FinD b) : dbl b ≠ 0 := by
  intro h0
  obtain ⟨q, hq, rfl⟩ := finD_iff.1 hb
  rw [dbl_fin] at h0
  have : q = 0 := by exact_mod_cast h0
  subst this
  exact Fl.div_zero_not_fin h

theorem divUp_ge {a b : D} (h : FinD (divUp a b)) (hb : FinD b) : dbl a / dbl b ≤ dbl (divUp a b) := by
  have ha := divUp_fin h hb
  have h0 := divUp_ne h hb
  have h1 := is_dbl' ha
  have h2 := is_dbl' hb
  have := (div_up a b h1.1 h2.1 (by rw [h2.2]; exact_mod_cast h0) (fun _ => is_ne h2)).2
  rw [h1.2, h2.2, (is_dbl' h).2, ← EReal.coe_div] at this
  exact_mod_cast this
theorem divDown_le {a b : D} (h : FinD (divDown a b)) (hb : FinD b) (h0 : dbl b ≠ 0) : dbl (divDown a b) ≤ dbl a / dbl b := by
  have ha := divDown_fin h hb
  have h1 := is_dbl' ha
  have h2 := is_dbl' hb
  have := (div_down a b h1.1 h2.1 (by rw [h2.2]; exact_mod_cast h0) (fun _ => is_ne h2)).2
  rw [h1.2, h2.2, (is_dbl' h).2, ← EReal.coe_div] at this
  exact_mod_cast this

theorem neg_finD {a : D} : FinD (Rop.neg a) ↔ FinD a := Fl.neg_fin
theorem dbl_neg {a : D} (h : FinD a) : dbl (Rop.neg a) = -dbl a := by
  have h1 := is_dbl' h
  apply is_dbl
  refine ⟨fun hn => h1.1 ((nan_neg a).1 hn), ?_⟩
  rw [val_neg a h1.1, h1.2]; rfl

theorem Fl.finD_abs {x : Fl binary64} : FinD (Fl.abs x) ↔ FinD x := by
  cases x
  · exact Iff.rfl
  · exact Iff.rfl
  · exact ⟨fun h => absurd h not_finD_pinf, fun h => absurd h not_finD_ninf⟩
  · refine ⟨fun _ => finD_fin, fun _ => ?_⟩
    unfold Fl.abs; dsimp only; split_ifs <;> exact finD_fin
theorem abs_finD {a : D} : FinD (Rop.abs a) ↔ FinD a := Fl.finD_abs
theorem dbl_abs {a : D} (h : FinD a) : dbl (Rop.abs a) = |dbl a| := by
  obtain ⟨q, hq, rfl⟩ := finD_iff.1 h
  show dbl (Fl.abs (Fl.fin q hq)) = _
  rw [dbl_fin]
  unfold Fl.abs; dsimp only
  split_ifs with h0
  · rw [dbl_fin, abs_of_nonneg (by exact_mod_cast h0)]
  · rw [dbl_fin, abs_of_neg (by exact_mod_cast not_le.1 h0)]; push_cast; rfl

theorem dbl_zero : dbl (lit 0 : D) = 0 := is_dbl lit_zero
theorem fin_zero : FinD (lit 0 : D) := ⟨0, lit_zero⟩
theorem dbl_half : dbl (lit (1 / 2) : D) = 1 / 2 := is_dbl lit_half
theorem dbl_one : dbl (lit 1 : D) = 1 := is_dbl lit_one
theorem fin_one : FinD (lit 1 : D) := ⟨1, lit_one⟩

/-! ## loops -/

namespace Affine

theorem sumUp_succ (n : ℕ) (e : D) (f : ℕ → D) : sumUp (n + 1) e f = addUp (sumUp n e f) (f n) := by
  unfold sumUp
  rw [List.range_succ, List.foldl_append]
  rfl

theorem sumUp_ge {n : ℕ} {e : D} {f : ℕ → D} (h : FinD (sumUp n e f)) :
    FinD e ∧ (∀ i < n, FinD (f i)) ∧ dbl e + ∑ i ∈ Finset.range n, dbl (f i) ≤ dbl (sumUp n e f) := by
  induction n with
  | zero => exact ⟨h, by simp, by simp [sumUp]⟩
  | succ n ih =>
    rw [sumUp_succ] at h ⊢
    obtain ⟨h1, h2⟩ := addUp_fin h
    obtain ⟨i1, i2, i3⟩ := ih h1
    refine ⟨i1, fun i hi => ?_, ?_⟩
    · rcases Nat.lt_succ_iff_lt_or_eq.1 hi with h' | rfl
      · exact i2 i h'
      · exact h2
    · rw [Finset.sum_range_succ]
      have := addUp_ge h
      linarith

theorem c_vec {n : ℕ} {f : ℕ → D} {e : D} {i : ℕ} (h : i < n) : c ⟨vec n f, e⟩ i = f i := by
  unfold c vec
  simp [List.getD, h]

theorem size_vec {n : ℕ} {f : ℕ → D} {e : D} : size ⟨vec n f, e⟩ = n := by simp [size, vec]

theorem c_ge {x : Form} {i : ℕ} (h : size x ≤ i) : c x i = lit 0 := by
  unfold c; unfold size at h
  rw [List.getD_eq_default _ _ h]

end Affine

/-! ## meaning of a form -/

/-- an assignment of values to the noise symbols; index 0 belongs to the centre -/
structure Noise (ε : ℕ → ℝ) : Prop where
  zero : ε 0 = 1
  le : ∀ i, |ε i| ≤ 1

/-- value of the centre and the noise terms -/
noncomputable def Form.lin (ε : ℕ → ℝ) (x : Form) : ℝ := ∑ i ∈ Finset.range x.a.length, dbl (x.a.getD i (lit 0)) * ε i

/-- all numbers in the form are finite -/
def Form.Fin (x : Form) : Prop := (∀ k ∈ x.a, FinD k) ∧ FinD x.er

instance (x : Form) : Decidable x.Fin := inferInstanceAs (Decidable (_ ∧ _))

/-- The form represents the real number `v` for the noise values `ε`.  A form with an overflowed coefficient represents
every number. -/
def Form.Rep (ε : ℕ → ℝ) (x : Form) (v : ℝ) : Prop := x.Fin → |v - x.lin ε| ≤ dbl x.er

namespace Affine

theorem fin_iff {x : Form} : x.Fin ↔ (∀ i < size x, FinD (c x i)) ∧ FinD x.er := by
  unfold Form.Fin
  refine and_congr_left fun _ => ?_
  constructor
  · intro h i hi
    unfold c; unfold size at hi
    rw [List.getD_eq_getElem _ _ hi]
    exact h _ (List.getElem_mem hi)
  · intro h k hk
    obtain ⟨i, hi, rfl⟩ := List.getElem_of_mem hk
    have := h i hi
    unfold c at this
    rwa [List.getD_eq_getElem _ _ hi] at this

theorem Fin.c {x : Form} (h : x.Fin) (i : ℕ) : FinD (c x i) := by
  by_cases hi : i < size x
  · exact (fin_iff.1 h).1 i hi
  · rw [c_ge (not_lt.1 hi)]; exact fin_zero

theorem lin_def {ε : ℕ → ℝ} {x : Form} : x.lin ε = ∑ i ∈ Finset.range (size x), dbl (c x i) * ε i := rfl

/-- the sum may be extended to any larger range -/
theorem lin_le {ε : ℕ → ℝ} {x : Form} {n : ℕ} (h : size x ≤ n) : x.lin ε = ∑ i ∈ Finset.range n, dbl (c x i) * ε i := by
  rw [lin_def]
  refine Finset.sum_subset (Finset.range_subset_range.2 h) fun i _ hi => ?_
  rw [Finset.mem_range, not_lt] at hi
  rw [c_ge hi, dbl_zero, zero_mul]

theorem lin_vec {ε : ℕ → ℝ} {n : ℕ} {f : ℕ → D} {e : D} : Form.lin ε ⟨vec n f, e⟩ = ∑ i ∈ Finset.range n, dbl (f i) * ε i := by
  rw [lin_def, size_vec]
  exact Finset.sum_congr rfl fun i hi => by rw [c_vec (Finset.mem_range.1 hi)]

theorem fin_vec {n : ℕ} {f : ℕ → D} {e : D} : Form.Fin ⟨vec n f, e⟩ ↔ (∀ i < n, FinD (f i)) ∧ FinD e := by
  rw [fin_iff, size_vec]
  refine and_congr_left fun _ => forall₂_congr fun i hi => ?_
  rw [c_vec hi]

/-- rounding errors of the coefficients -/
theorem sum_err {ε : ℕ → ℝ} (hε : Noise ε) {n : ℕ} {s r g : ℕ → ℝ} (h : ∀ i < n, r i ≤ s i ∧ s i - r i ≤ g i) :
    |∑ i ∈ Finset.range n, (s i - r i) * ε i| ≤ ∑ i ∈ Finset.range n, g i := by
  refine (Finset.abs_sum_le_sum_abs _ _).trans (Finset.sum_le_sum fun i hi => ?_)
  obtain ⟨h1, h2⟩ := h i (Finset.mem_range.1 hi)
  rw [abs_mul, abs_of_nonneg (by linarith : (0:ℝ) ≤ s i - r i)]
  calc (s i - r i) * |ε i| ≤ (s i - r i) * 1 := mul_le_mul_of_nonneg_left (hε.le i) (by linarith)
    _ ≤ g i := by linarith

theorem rep_er {ε : ℕ → ℝ} {x : Form} {v : ℝ} (h : x.Rep ε v) (hf : x.Fin) : 0 ≤ dbl x.er := (abs_nonneg _).trans (h hf)

/-- a number within `d` of zero is `d` times a noise value -/
theorem pick {w d : ℝ} (h : |w| ≤ d) : ∃ e : ℝ, |e| ≤ 1 ∧ w = d * e := by
  rcases eq_or_ne d 0 with rfl | hd
  · exact ⟨0, by simp, by simpa using h⟩
  · have hp : 0 < d := lt_of_le_of_ne ((abs_nonneg w).trans h) hd.symm
    refine ⟨w / d, ?_, by field_simp⟩
    rw [abs_div, abs_of_pos hp, div_le_one hp]; exact h

theorem noise_update {ε : ℕ → ℝ} (hε : Noise ε) {m : ℕ} (hm : m ≠ 0) {e : ℝ} (he : |e| ≤ 1) : Noise (Function.update ε m e) where
  zero := by rw [Function.update_of_ne (Ne.symm hm)]; exact hε.zero
  le i := by
    by_cases h : i = m
    · subst h; simpa using he
    · rw [Function.update_of_ne h]; exact hε.le i

theorem lin_congr {ε ε' : ℕ → ℝ} {x : Form} (h : ∀ i < size x, ε i = ε' i) : x.lin ε = x.lin ε' := by
  rw [lin_def, lin_def]
  exact Finset.sum_congr rfl fun i hi => by rw [h i (Finset.mem_range.1 hi)]

theorem rep_congr {ε ε' : ℕ → ℝ} {x : Form} {v : ℝ} (h : ∀ i < size x, ε i = ε' i) (hr : x.Rep ε v) : x.Rep ε' v := by
  unfold Form.Rep; rw [← lin_congr h]; exact hr

end Affine
end Kv
