import Verif.Solver.Vleq
import Verif.Solver.Kraw
import Verif.Solver.LinLemmas

/-!
# C27: verified solution of linear equations

`vleq inv a b r = some x` means that `vleq(a, b, x, r)` returns true.  As stated C27 is false: an overflow can
make `vleq` return true with NaN in the result (`C27_violated`), or for a singular matrix (`C27_singular`).  It holds whenever
all entries of the result are finite.
-/

namespace Kv
open RopSem Kv.Interval
open Rop (lit)
open LA

variable {n m : ℕ}

theorem Fl.div_fin {md : RMode} {x y : Fl binary64} (h : FinD (Fl.div md x y)) (hy : FinD y) : FinD x := by
  cases x <;> cases y <;> first
    | exact finD_fin
    | exact absurd hy not_finD_nan
    | exact absurd hy not_finD_pinf
    | exact absurd hy not_finD_ninf
    | exact absurd h not_finD_nan
    | exact absurd h (infOfSign_not_fin _)

/-- error bound for an approximate solution: if the row sums of `|E - R A|` are at most `q < 1` -/
theorem residual_bound {R A : Fin n → Fin n → ℝ} {q s t : ℝ} {e r : Fin n → ℝ} (hq : q < 1) (hG : ∀ i, ∑ j, |kG R A i j| ≤ q)
    (hR : ∀ i, ∑ j, |R i j| ≤ s) (hr : ∀ i, |r i| ≤ t) (hA : ∀ i, ∑ j, A i j * e j = r i) (i : Fin n) : |e i| ≤ s * t / (1 - q) := by
  have : Nonempty (Fin n) := ⟨i⟩
  obtain ⟨i0, hi0⟩ := Finite.exists_max fun i => |e i|
  rw [le_div_iff₀ (by linarith)]
  have h1 : e i0 = ∑ k, R i0 k * r k + ∑ j, kG R A i0 j * e j := by
    have : ∑ j, kG R A i0 j * e j = e i0 - ∑ k, R i0 k * r k := by
      unfold kG
      simp only [sub_mul, Finset.sum_sub_distrib, ite_mul, one_mul, zero_mul, Finset.sum_ite_eq, Finset.mem_univ, if_true]
      congr 1
      simp only [Finset.sum_mul]
      rw [Finset.sum_comm]
      refine Finset.sum_congr rfl fun k _ => ?_
      rw [← hA k, Finset.mul_sum]
      exact Finset.sum_congr rfl fun j _ => by ring
    rw [this]; ring
  have h2 : |∑ k, R i0 k * r k| ≤ s * t := by
    have ht : 0 ≤ t := le_trans (abs_nonneg _) (hr i0)
    calc |∑ k, R i0 k * r k| ≤ ∑ k, |R i0 k * r k| := Finset.abs_sum_le_sum_abs _ _
      _ ≤ ∑ k, |R i0 k| * t := Finset.sum_le_sum fun k _ => by
        rw [abs_mul]; exact mul_le_mul_of_nonneg_left (hr k) (abs_nonneg _)
      _ = (∑ k, |R i0 k|) * t := by rw [Finset.sum_mul]
      _ ≤ s * t := mul_le_mul_of_nonneg_right (hR i0) ht
  have h3 : |∑ j, kG R A i0 j * e j| ≤ q * |e i0| := by
    calc |∑ j, kG R A i0 j * e j| ≤ ∑ j, |kG R A i0 j * e j| := Finset.abs_sum_le_sum_abs _ _
      _ ≤ ∑ j, |kG R A i0 j| * |e i0| := Finset.sum_le_sum fun j _ => by
        rw [abs_mul]; exact mul_le_mul_of_nonneg_left (hi0 j) (abs_nonneg _)
      _ = (∑ j, |kG R A i0 j|) * |e i0| := by rw [Finset.sum_mul]
      _ ≤ q * |e i0| := mul_le_mul_of_nonneg_right (hG i0) (abs_nonneg _)
  have h4 : |e i0| ≤ s * t + q * |e i0| := by
    calc |e i0| = |∑ k, R i0 k * r k + ∑ j, kG R A i0 j * e j| := by rw [← h1]
      _ ≤ _ := (abs_add_le _ _).trans (add_le_add h2 h3)
  have h5 := hi0 i
  nlinarith

theorem real_of_hi {a : D} {x : ℝ} (ha : FinD a) (h : Hi a x) : x ≤ dbl a := by
  have := h.2
  rw [(is_dbl' ha).2] at this
  exact_mod_cast this

namespace Vleq

/-- what a finite column says about the quantities computed -/
theorem column_fin {a : Mat n n (Interval D)} {n1 n2 : D} {xt : Vec n D} {b : Vec n (Interval D)} (h1 : FinD n1) (i : Fin n)
    (hb : ∀ i, Bd (column a n1 n2 xt b i)) :
    FinD n2 ∧ FinD (maxNormIV fun i => Interval.sub (prodIV a (pointV xt) i) (b i)) ∧
    FinD (Rop.divUp (Rop.mulUp n2 (maxNormIV fun i => Interval.sub (prodIV a (pointV xt) i) (b i))) n1) ∧ ∀ i, FinD (xt i) := by
  have h2 := fun i => addUp_fin (hb i).2
  have h3 := Fl.div_fin (h2 i).2 h1
  exact ⟨(mulUp_fin h3).1, (mulUp_fin h3).2, (h2 i).2, fun i => (h2 i).1⟩

theorem run_sound {R : Mat n n D} {a : Mat n n (Interval D)} {b x : Mat n m (Interval D)} (h : run R a b = some x) (hm : 0 < m)
    (hb : ∀ i j, Bd (x i j)) {A : Fin n → Fin n → ℝ} (hA : ∀ i j, A i j ∈ a i j) :
    (Matrix.of A).det ≠ 0 ∧ ∀ (B Z : Fin n → Fin m → ℝ), (∀ i j, B i j ∈ b i j) → (∀ i j, ∑ k, A i k * Z k j = B i j) → ∀ i j, Z i j ∈ x i j := by
  rcases Nat.eq_zero_or_pos n with hn | hn
  · subst hn
    exact ⟨by simp, fun B Z _ _ i => i.elim0⟩
  unfold run at h
  simp only at h
  split_ifs at h with h0
  cases h
  obtain ⟨hN, hN0⟩ : ¬ nan (maxNormIM (emRA R a)) ∧ 0 ≤ val (maxNormIM (emRA R a)) := maxFold_nn _
  obtain ⟨k1, k2⟩ := RopSem.sub_down (lit 1 : D) (maxNormIM (emRA R a)) is_one.1 hN (by rw [is_one.2]; rintro ⟨h, -⟩; exact EReal.coe_ne_top _ h)
    (by rw [is_one.2]; rintro ⟨h, -⟩; exact EReal.coe_ne_bot _ h)
  have k3 : 0 < val (Rop.subDown (lit 1 : D) (maxNormIM (emRA R a))) := by
    by_contra hc
    refine h0 ((le_iff _ _).2 ⟨k1, is_zero.1, ?_⟩)
    rw [is_zero.2]; exact not_lt.1 hc
  rw [is_one.2] at k2
  have fN : FinD (maxNormIM (emRA R a)) := by
    rcases D_cases (maxNormIM (emRA R a)) with h | h | h | h
    · exact absurd h hN
    · have hv : val (maxNormIM (emRA R a)) = ⊤ := by rw [h, val_dPinf]
      rw [hv, show ((1 : ℝ) : EReal) - ⊤ = ⊥ from EReal.sub_top _] at k2
      exact absurd (k3.trans_le k2) (not_lt_of_ge bot_le)
    · rw [h, val_dNinf] at hN0; exact absurd hN0 (by simp)
    · exact h
  have iN := is_dbl' fN
  rw [iN.2] at hN0 k2
  have f1 : FinD (Rop.subDown (lit 1 : D) (maxNormIM (emRA R a))) := by
    rcases D_cases (Rop.subDown (lit 1 : D) (maxNormIM (emRA R a))) with h | h | h | h
    · exact absurd h k1
    · rw [h, val_dPinf, ← EReal.coe_sub] at k2; exact absurd (top_le_iff.1 k2) (EReal.coe_ne_top _)
    · rw [h, val_dNinf] at k3; exact absurd k3 (by simp)
    · exact h
  have i1 := is_dbl' f1
  rw [i1.2, ← EReal.coe_sub, EReal.coe_le_coe_iff] at k2
  rw [i1.2] at k3
  have k3' : 0 < dbl (Rop.subDown (lit 1 : D) (maxNormIM (emRA R a))) := by exact_mod_cast k3
  have hcol := fun j => column_fin (f1) ⟨0, hn⟩ fun i => hb i j
  have fR : ∀ i k, FinD (R i k) := fun i k => (mul_fin (sumS_fin ((hcol ⟨0, hm⟩).2.2.2 i) k)).1
  have hG : ∀ i j, kG (fun i k => dbl (R i k)) A i j ∈ emRA R a i j := fun i j => by
    refine sSub_mem (sumI_mem fun k => sMul_mem (hA k j) (is_dbl' (fR i k))) (eye_is i j)
  have hq : ∀ i, ∑ j, |kG (fun i k => dbl (R i k)) A i j| ≤ dbl (maxNormIM (emRA R a)) := fun i =>
    real_of_hi fN ((maxNormIM_hi hG).2 i)
  have hq1 : dbl (maxNormIM (emRA R a)) < 1 := by linarith
  refine ⟨(det_ne_zero_of_contr (κ := fun _ => dbl (maxNormIM (emRA R a))) (ω := fun _ => 1) (fun i => by simpa using hq i) (fun _ => hq1)
    (fun _ => one_pos)).2, fun B Z hB hZ i j => ?_⟩
  obtain ⟨f2, f3, fe, fx⟩ := hcol j
  set n1 := Rop.subDown (lit 1 : D) (maxNormIM (emRA R a))
  set n3 := maxNormIV fun i => Interval.sub (prodIV a (pointV (prodSS R fun k => (b k j).mid)) i) (b i j)
  set err := Rop.divUp (Rop.mulUp (maxNormSM R) n3) n1 with herr
  have hs : ∀ i, ∑ k, |dbl (R i k)| ≤ dbl (maxNormSM R) := fun i => real_of_hi f2 ((maxNormSM_hi fR).2 i)
  have ix : ∀ k, Is (prodSS R (fun k => (b k j).mid) k) (dbl (prodSS R (fun k => (b k j).mid) k)) := fun k => is_dbl' (fx k)
  have hr := maxNormIV_hi (x := fun i => Interval.sub (prodIV a (pointV (prodSS R fun k => (b k j).mid)) i) (b i j))
    (a := fun i => ∑ k, A i k * dbl (prodSS R (fun k => (b k j).mid) k) - B i j)
    (fun i => sub_mem (prodIV_mem (hA i) fun k => point_mem (ix k)) (hB i j))
  have he := residual_bound hq1 hq hs (t := dbl n3) (e := fun k => dbl (prodSS R (fun k => (b k j).mid) k) - Z k j) (fun i => real_of_hi f3 (hr.2 i))
    (fun i => by simp only [mul_sub, Finset.sum_sub_distrib, hZ]) i
  have h3 : 0 ≤ dbl n3 := real_of_hi f3 hr.1
  have h2 : 0 ≤ dbl (maxNormSM R) := real_of_hi f2 (maxNormSM_hi fR).1
  have hme : dbl (maxNormSM R) * dbl n3 / (1 - dbl (maxNormIM (emRA R a))) ≤ dbl err := by
    have i2 := is_dbl' f2
    have i3 := is_dbl' f3
    have fm := Fl.div_fin fe f1
    have im := is_dbl' fm
    have ie := is_dbl' fe
    obtain ⟨-, m2⟩ := RopSem.mul_up (maxNormSM R) n3 i2.1 i3.1 (fun _ => by rw [i3.2]; exact ⟨EReal.coe_ne_top _, EReal.coe_ne_bot _⟩)
      (fun _ => by rw [i2.2]; exact ⟨EReal.coe_ne_top _, EReal.coe_ne_bot _⟩)
    rw [i2.2, i3.2, im.2, ← EReal.coe_mul, EReal.coe_le_coe_iff] at m2
    obtain ⟨-, d2⟩ := RopSem.div_up (Rop.mulUp (maxNormSM R) n3) n1 im.1 i1.1 (by rw [i1.2]; exact_mod_cast k3'.ne')
      (fun _ => by rw [i1.2]; exact ⟨EReal.coe_ne_top _, EReal.coe_ne_bot _⟩)
    rw [im.2, i1.2, ← herr, ie.2, ← EReal.coe_div, EReal.coe_le_coe_iff] at d2
    refine le_trans ?_ d2
    exact (div_le_div_of_nonneg_left (mul_nonneg h2 h3) k3' k2).trans (div_le_div_of_nonneg_right m2 k3'.le)
  have ie := is_dbl' fe
  have hmem : Z i j - dbl (prodSS R (fun k => (b k j).mid) i) ∈ (⟨Rop.neg err, err⟩ : Interval D) := by
    have hab := abs_le.1 (he.trans hme)
    have hup : Hi err (Z i j - dbl (prodSS R (fun k => (b k j).mid) i)) := ⟨ie.1, by
      rw [ie.2]; exact EReal.coe_le_coe_iff.2 (by linarith [hab.1])⟩
    have hup' : Hi err (-(Z i j - dbl (prodSS R (fun k => (b k j).mid) i))) := ⟨ie.1, by
      rw [ie.2]; exact EReal.coe_le_coe_iff.2 (by linarith [hab.2])⟩
    have := hup'.neg
    rw [neg_neg] at this
    exact ⟨this, hup⟩
  have := add_mem (point_mem (ix i)) hmem
  rw [add_sub_cancel] at this
  exact this

end Vleq

/-- C27 for results with finite entries (missing: results with infinite or NaN entries, where it is false): every
matrix `A` in `a` is nonsingular, and for every right-hand side `B` in `b` the unique solution of `A Z = B` is in `x`. -/
theorem C27_partial {inv : Inverter n} {a : Mat n n (Interval D)} {b x : Mat n m (Interval D)} {r : Option (Mat n n D)}
    (h : vleq inv a b r = some x) (hm : 0 < m) (hb : ∀ i j, Bd (x i j)) {A : Fin n → Fin n → ℝ} (hA : ∀ i j, A i j ∈ a i j) :
    (Matrix.of A).det ≠ 0 ∧ ∀ B : Fin n → Fin m → ℝ, (∀ i j, B i j ∈ b i j) →
      ∃! Z : Fin n → Fin m → ℝ, (∀ i j, ∑ k, A i k * Z k j = B i j) ∧ ∀ i j, Z i j ∈ x i j := by
  have key : ∀ R, Vleq.run R a b = some x → _ := fun R hR => Vleq.run_sound hR hm hb hA
  have h1 : (Matrix.of A).det ≠ 0 ∧ ∀ (B Z : Fin n → Fin m → ℝ), (∀ i j, B i j ∈ b i j) → (∀ i j, ∑ k, A i k * Z k j = B i j) → ∀ i j, Z i j ∈ x i j := by
    unfold vleq at h
    split at h
    · exact key _ h
    · split at h
      · cases h
      · exact key _ h
  refine ⟨h1.1, fun B hB => ?_⟩
  have hu : IsUnit (Matrix.of A).det := isUnit_iff_ne_zero.2 h1.1
  have hZ : ∀ i j, ∑ k, A i k * ((Matrix.of A)⁻¹ * Matrix.of B) k j = B i j := fun i j => by
    have := congrFun (congrFun (Matrix.mul_nonsing_inv_cancel_left (Matrix.of A) (Matrix.of B) hu) i) j
    rw [Matrix.mul_apply] at this
    exact this
  refine ⟨fun i j => ((Matrix.of A)⁻¹ * Matrix.of B) i j, ⟨hZ, h1.2 B _ hB hZ⟩, fun Y hY => ?_⟩
  funext i j
  have hz := mulVec_zero_of_det h1.1 (v := fun k => Y k j - ((Matrix.of A)⁻¹ * Matrix.of B) k j) fun i => by
    simp only [mul_sub, Finset.sum_sub_distrib, hZ, hY.1, sub_self]
  exact sub_eq_zero.1 (congrFun hz i)

/-- C27 for a single right-hand side. -/
theorem C27_vector_partial {inv : Inverter n} {a : Mat n n (Interval D)} {b x : Vec n (Interval D)} {r : Option (Mat n n D)}
    (h : vleqV inv a b r = some x) (hb : ∀ i, Bd (x i)) {A : Fin n → Fin n → ℝ} (hA : ∀ i j, A i j ∈ a i j) :
    (Matrix.of A).det ≠ 0 ∧ ∀ B : Fin n → ℝ, (∀ i, B i ∈ b i) → ∃! z : Fin n → ℝ, (∀ i, ∑ k, A i k * z k = B i) ∧ ∀ i, z i ∈ x i := by
  unfold vleqV at h
  split at h
  · cases h
  · rename_i y hy
    cases h
    obtain ⟨h1, h2⟩ := C27_partial hy one_pos (fun i j => by rw [Subsingleton.elim j 0]; exact hb i) hA
    refine ⟨h1, fun B hB => ?_⟩
    obtain ⟨Z, ⟨h3, h4⟩, h5⟩ := h2 (fun i _ => B i) fun i j => hB i
    refine ⟨fun i => Z i 0, ⟨fun i => h3 i 0, fun i => h4 i 0⟩, fun z hz => ?_⟩
    have := h5 (fun i _ => z i) ⟨fun i _ => hz.1 i, fun i j => by rw [Subsingleton.elim j 0]; exact hz.2 i⟩
    funext i
    exact congrFun (congrFun this i) 0

/-! Concrete cases. -/

def exA : Mat 2 2 (Interval D) := fun i j => if i = j then ⟨lit 2, lit 3⟩ else if i = 0 then ⟨lit (-1), lit 1⟩ else ⟨lit 0, lit 1⟩
def exB : Vec 2 (Interval D) := fun i => if i = 0 then ⟨lit 1, lit 2⟩ else ⟨lit 4, lit 5⟩
/-- approximate inverse of the midpoint of `exA` -/
def exR : Mat 2 2 D := fun i j => if i = j then lit (2 / 5) else if i = 0 then lit 0 else lit (-2 / 25)

/-- the hypotheses of `C27_vector_partial` are met by a 2 × 2 system -/
example : ∃ x, vleqV (fun _ => some exR) exA exB none = some x ∧ (∀ i, Bd (x i)) ∧
    ∃ A : Fin 2 → Fin 2 → ℝ, ∀ i j, A i j ∈ exA i j := by
  obtain ⟨x, h1, h2⟩ := (Option.any_eq_true (x := vleqV (fun _ => some exR) exA exB none) (p := fun x : Vec 2 (Interval D) => decide (∀ i : Fin 2, Bd (x i)))).1 (by decide +kernel)
  refine ⟨x, h1, of_decide_eq_true h2, fun i j => if i = j then 2 else 0, Fin.forall_fin_two.2 ⟨Fin.forall_fin_two.2 ⟨?_, ?_⟩, Fin.forall_fin_two.2 ⟨?_, ?_⟩⟩⟩
  · exact mem_of_is is_two (by decide +kernel)
  · exact mem_of_is is_zero (by decide +kernel)
  · exact mem_of_is is_zero (by decide +kernel)
  · exact mem_of_is is_two (by decide +kernel)

/-! Violations. -/

/-- C27 is violated by an overflow: for the equation `2⁻¹⁰⁰⁰ z = 2¹⁰⁰` (solution `2¹¹⁰⁰`) `vleq` returns true, but nothing is in
the result `[NaN, ∞]`. -/
theorem C27_violated : ∃ x, vleqV inv1 (fun _ _ => Interval.point (lit (2 ^ (-1000 : ℤ)))) (fun _ => Interval.point (lit (2 ^ 100))) none = some x ∧
    ∀ z : ℝ, ¬ z ∈ x 0 := by
  obtain ⟨x, h1, h2⟩ := (Option.any_eq_true (x := vleqV inv1 (fun _ _ => Interval.point (lit (2 ^ (-1000 : ℤ))))
    (fun _ => Interval.point (lit (2 ^ 100))) none) (p := fun x => decide ((x 0).inf = dNaN))).1 (by decide +kernel)
  have h3 : (x 0).inf = dNaN := of_decide_eq_true h2
  exact ⟨x, h1, fun z hz => hz.1.1 h3⟩

/-- the matrix `diag(1, [0, 2⁻¹⁰⁵⁹])` -/
def sgA : Mat 2 2 (Interval D) := fun i j =>
  if i = j then (if i = 0 then Interval.point (lit 1) else ⟨lit 0, lit (2 ^ (-1059 : ℤ))⟩) else Interval.point (lit 0)
/-- what LU substitution with overflow gives for the inverse of the midpoint of `sgA` -/
def sgR : Mat 2 2 D := fun i j => if i = j then (if i = 0 then lit 1 else Rop.inf) else if i = 0 then dNaN else lit 0

/-- C27 is violated by an overflow in the approximate inverse: `vleq` returns true although `diag(1, 0)` is in the matrix. -/
theorem C27_singular : (∃ x, vleqV (fun _ => some sgR) sgA (fun _ => Interval.point (lit 1)) none = some x) ∧
    ∃ A : Fin 2 → Fin 2 → ℝ, (∀ i j, A i j ∈ sgA i j) ∧ (Matrix.of A).det = 0 := by
  refine ⟨Option.isSome_iff_exists.1 (by decide +kernel), fun i j => if i = 0 ∧ j = 0 then 1 else 0, Fin.forall_fin_two.2 ⟨Fin.forall_fin_two.2 ⟨?_, ?_⟩, Fin.forall_fin_two.2 ⟨?_, ?_⟩⟩, ?_⟩
  · exact point_mem is_one
  · exact point_mem is_zero
  · exact point_mem is_zero
  · exact mem_of_is is_zero (by decide +kernel)
  · simp [Matrix.det_fin_two]

end Kv
