import Verif.Analysis.NewtonCotes
import Mathlib.Analysis.Calculus.ContDiff.Comp
import Mathlib.Analysis.Calculus.Deriv.Pi
import Mathlib.MeasureTheory.Integral.DominatedConvergence

/-! # Newton–Cotes formulas in two dimensions -/

namespace Kv.NC
open Finset MeasureTheory

/-! ## partial derivatives -/

/-- the `d`-th derivative with respect to the `j`-th argument -/
noncomputable def pd {n : ℕ} (F : (Fin n → ℝ) → ℝ) (j : Fin n) (d : ℕ) (y : Fin n → ℝ) : ℝ :=
  iteratedDeriv d (fun t => F (Function.update y j t)) (y j)

theorem pd_smooth {n : ℕ} {F : (Fin n → ℝ) → ℝ} {j : Fin n} {x : Fin n → ℝ} (h : ∀ᶠ y in nhds x, ContDiffAt ℝ (⊤ : ℕ∞) F y) :
    ∀ d, ∀ᶠ y in nhds x, ContDiffAt ℝ (⊤ : ℕ∞) (pd F j d) y
  | 0 => by
    have : pd F j 0 = F := by
      funext y; unfold pd
      rw [iteratedDeriv_zero, Function.update_eq_self]
    rw [this]; exact h
  | d + 1 => by
    have ih := pd_smooth (j := j) h d
    have key : ∀ y, ContDiffAt ℝ (⊤ : ℕ∞) (pd F j d) y → pd F j (d + 1) y = fderiv ℝ (pd F j d) y (Pi.single j 1) := fun y hy => by
      unfold pd
      rw [iteratedDeriv_succ]
      have e1 : (iteratedDeriv d fun t => F (Function.update y j t)) = fun s => pd F j d (Function.update y j s) := by
        funext s
        unfold pd
        simp only [Function.update_idem, Function.update_self]
      rw [e1]
      have h1 : HasFDerivAt (pd F j d) (fderiv ℝ (pd F j d) y) (Function.update y j (y j)) := by
        rw [Function.update_eq_self]
        exact (hy.differentiableAt (by simp)).hasFDerivAt
      exact (h1.comp_hasDerivAt (y j) (hasDerivAt_update y j (y j))).deriv
    filter_upwards [ih.eventually_nhds] with y hy
    have e2 : pd F j (d + 1) =ᶠ[nhds y] fun z => fderiv ℝ (pd F j d) z (Pi.single j 1) := hy.mono fun z hz => key z hz
    refine ContDiffAt.congr_of_eventuallyEq ?_ e2
    exact (hy.self_of_nhds.fderiv_right (m := (⊤ : ℕ∞)) (by simp)).clm_apply contDiffAt_const

/-! ## mean values -/

theorem mean_integral_le {E : ℝ → ℝ} {a b m M A : ℝ} (hab : a ≤ b) (hE : ContinuousOn E (Set.uIcc a b))
    (h : ∀ x ∈ Set.uIcc a b, ∃ K, m ≤ K ∧ K ≤ M ∧ E x = K * A) : ∃ K, m ≤ K ∧ K ≤ M ∧ ∫ x in a..b, E x = K * A * (b - a) := by
  have hi : IntervalIntegrable E volume a b := hE.intervalIntegrable
  obtain ⟨K0, k1, k2, -⟩ := h a Set.left_mem_uIcc
  have hmM : m ≤ M := k1.trans k2
  rw [Set.uIcc_of_le hab] at h
  have hba : 0 ≤ b - a := by linarith
  rcases le_total 0 A with hA | hA
  · have h1 : m * (A * (b - a)) ≤ ∫ x in a..b, E x := by
      have := intervalIntegral.integral_mono_on hab (intervalIntegrable_const (c := m * A) (μ := volume)) hi fun x hx => by
        obtain ⟨K, h1, h2, h3⟩ := h x hx
        rw [h3]; exact mul_le_mul_of_nonneg_right h1 hA
      rw [intervalIntegral.integral_const, smul_eq_mul] at this
      linarith
    have h2 : ∫ x in a..b, E x ≤ M * (A * (b - a)) := by
      have := intervalIntegral.integral_mono_on hab hi (intervalIntegrable_const (c := M * A) (μ := volume)) fun x hx => by
        obtain ⟨K, h1, h2, h3⟩ := h x hx
        rw [h3]; exact mul_le_mul_of_nonneg_right h2 hA
      rw [intervalIntegral.integral_const, smul_eq_mul] at this
      linarith
    obtain ⟨K, h3, h4, h5⟩ := exists_between hmM (mul_nonneg hA hba) h1 h2
    exact ⟨K, h3, h4, by rw [h5]; ring⟩
  · have h1 : m * (-A * (b - a)) ≤ -∫ x in a..b, E x := by
      have := intervalIntegral.integral_mono_on hab hi (intervalIntegrable_const (c := m * A) (μ := volume)) fun x hx => by
        obtain ⟨K, h1, h2, h3⟩ := h x hx
        rw [h3]; exact mul_le_mul_of_nonpos_right h1 hA
      rw [intervalIntegral.integral_const, smul_eq_mul] at this
      linarith
    have h2 : -∫ x in a..b, E x ≤ M * (-A * (b - a)) := by
      have := intervalIntegral.integral_mono_on hab (intervalIntegrable_const (c := M * A) (μ := volume)) hi fun x hx => by
        obtain ⟨K, h1, h2, h3⟩ := h x hx
        rw [h3]; exact mul_le_mul_of_nonpos_right h2 hA
      rw [intervalIntegral.integral_const, smul_eq_mul] at this
      linarith
    obtain ⟨K, h3, h4, h5⟩ := exists_between hmM (mul_nonneg (by linarith) hba) h1 h2
    exact ⟨K, h3, h4, by linarith⟩

theorem mean_integral {E : ℝ → ℝ} {a b m M A : ℝ} (hE : ContinuousOn E (Set.uIcc a b))
    (h : ∀ x ∈ Set.uIcc a b, ∃ K, m ≤ K ∧ K ≤ M ∧ E x = K * A) : ∃ K, m ≤ K ∧ K ≤ M ∧ ∫ x in a..b, E x = K * A * (b - a) := by
  rcases le_total a b with hab | hab
  · exact mean_integral_le hab hE h
  · rw [Set.uIcc_comm] at hE h
    obtain ⟨K, h1, h2, h3⟩ := mean_integral_le hab hE h
    exact ⟨K, h1, h2, by rw [intervalIntegral.integral_symm, h3]; ring⟩

theorem mean_sum {w K : ℕ → ℝ} {s : Finset ℕ} {m M N : ℝ} (hmM : m ≤ M) (hw : ∀ i ∈ s, 0 ≤ w i) (hN : ∑ i ∈ s, w i = N) (h : ∀ i ∈ s, m ≤ K i ∧ K i ≤ M) :
    ∃ k, m ≤ k ∧ k ≤ M ∧ ∑ i ∈ s, w i * K i = k * N := by
  refine exists_between hmM (hN ▸ Finset.sum_nonneg hw) ?_ ?_
  · rw [← hN, Finset.mul_sum]
    exact Finset.sum_le_sum fun i hi => by rw [mul_comm]; exact mul_le_mul_of_nonneg_left (h i hi).1 (hw i hi)
  · rw [← hN, Finset.mul_sum]
    exact Finset.sum_le_sum fun i hi => by rw [mul_comm M]; exact mul_le_mul_of_nonneg_left (h i hi).2 (hw i hi)

/-! ## integrals with a parameter -/

theorem cont_param {F : ℝ → ℝ → ℝ} {a b c d : ℝ} (hF : ContinuousOn (fun p : ℝ × ℝ => F p.1 p.2) (Set.uIcc a b ×ˢ Set.uIcc c d)) :
    ContinuousOn (fun x => ∫ y in c..d, F x y) (Set.uIcc a b) := by
  let P : ℝ → ℝ := fun x => Set.projIcc (min a b) (max a b) min_le_max x
  let Q : ℝ → ℝ := fun x => Set.projIcc (min c d) (max c d) min_le_max x
  have hP : Continuous P := continuous_subtype_val.comp continuous_projIcc
  have hQ : Continuous Q := continuous_subtype_val.comp continuous_projIcc
  have hPm : ∀ x, P x ∈ Set.uIcc a b := fun x => (Set.projIcc (min a b) (max a b) min_le_max x).2
  have hQm : ∀ x, Q x ∈ Set.uIcc c d := fun x => (Set.projIcc (min c d) (max c d) min_le_max x).2
  have hPe : ∀ x ∈ Set.uIcc a b, P x = x := fun x hx => by
    show ((Set.projIcc (min a b) (max a b) min_le_max x : Set.Icc _ _) : ℝ) = x
    rw [Set.projIcc_of_mem _ hx]
  have hQe : ∀ x ∈ Set.uIcc c d, Q x = x := fun x hx => by
    show ((Set.projIcc (min c d) (max c d) min_le_max x : Set.Icc _ _) : ℝ) = x
    rw [Set.projIcc_of_mem _ hx]
  have hG : Continuous (fun x y => F (P x) (Q y)).uncurry :=
    hF.comp_continuous (f := fun p : ℝ × ℝ => (P p.1, Q p.2)) ((hP.comp continuous_fst).prodMk (hQ.comp continuous_snd)) fun p => ⟨hPm _, hQm _⟩
  have := intervalIntegral.continuous_parametric_intervalIntegral_of_continuous' (μ := volume) hG c d
  refine this.continuousOn.congr fun x hx => ?_
  refine intervalIntegral.integral_congr fun y hy => ?_
  show F x y = F (P x) (Q y)
  rw [hPe x hx, hQe y hy]

/-! ## the product rule -/

/-- A rule in two dimensions made of rules in each direction: if the rule with weights `w1 ≥ 0` (sum `N1`) integrates in the first direction from
`a` to `b` with an error `K B1`, that with `w2 ≥ 0` in the second one with an error `K B2`, then the error of the double sum is the sum of both. -/
theorem product {F : ℝ → ℝ → ℝ} {a b c d h1 h2 N2 B1 B2 m1 M1 m2 M2 : ℝ} {s1 s2 : Finset ℕ} {w1 w2 x y : ℕ → ℝ}
    (hF : ContinuousOn (fun p : ℝ × ℝ => F p.1 p.2) (Set.uIcc a b ×ˢ Set.uIcc c d)) (hy : ∀ j ∈ s2, y j ∈ Set.uIcc c d)
    (hw2 : ∀ j ∈ s2, 0 ≤ w2 j) (hN : ∑ j ∈ s2, w2 j = N2) (hd : h2 * N2 = d - c)
    (hm : m1 ≤ M1)
    (H1 : ∀ v ∈ Set.uIcc c d, ∃ K, m1 ≤ K ∧ K ≤ M1 ∧ h1 * ∑ i ∈ s1, w1 i * F (x i) v - (∫ u in a..b, F u v) = K * B1)
    (H2 : ∀ u ∈ Set.uIcc a b, ∃ K, m2 ≤ K ∧ K ≤ M2 ∧ h2 * ∑ j ∈ s2, w2 j * F u (y j) - (∫ v in c..d, F u v) = K * B2) :
    ∃ K1 K2, (m1 ≤ K1 ∧ K1 ≤ M1) ∧ (m2 ≤ K2 ∧ K2 ≤ M2) ∧
      (∑ i ∈ s1, ∑ j ∈ s2, w1 i * w2 j * F (x i) (y j)) * (h1 * h2) - (∫ u in a..b, ∫ v in c..d, F u v) = K1 * B1 * (d - c) + K2 * B2 * (b - a) := by
  have hc1 : ∀ j ∈ s2, ContinuousOn (fun u => F u (y j)) (Set.uIcc a b) := fun j hj =>
    hF.comp (f := fun u => (u, y j)) (by fun_prop) fun u hu => ⟨hu, hy j hj⟩
  have hcs : ContinuousOn (fun u => h2 * ∑ j ∈ s2, w2 j * F u (y j)) (Set.uIcc a b) :=
    continuousOn_const.mul (continuousOn_finsetSum _ fun j hj => continuousOn_const.mul (hc1 j hj))
  have hci := cont_param hF
  obtain ⟨K2, k1, k2, hE⟩ := mean_integral (hcs.sub hci) H2
  simp only [Pi.sub_apply] at hE
  rw [intervalIntegral.integral_sub hcs.intervalIntegrable hci.intervalIntegrable, intervalIntegral.integral_const_mul,
    intervalIntegral.integral_finsetSum fun j hj => ((hc1 j hj).intervalIntegrable).const_mul _] at hE
  choose! K hK using H1
  obtain ⟨K1, l1, l2, hS⟩ := mean_sum (K := fun j => K (y j)) hm hw2 hN fun j hj => ⟨(hK _ (hy j hj)).1, (hK _ (hy j hj)).2.1⟩
  refine ⟨K1, K2, ⟨l1, l2⟩, ⟨k1, k2⟩, ?_⟩
  have e1 : ∑ j ∈ s2, ∫ u in a..b, w2 j * F u (y j) = h1 * (∑ j ∈ s2, ∑ i ∈ s1, w1 i * w2 j * F (x i) (y j)) - K1 * N2 * B1 := by
    rw [← hS, Finset.mul_sum, Finset.sum_mul, ← Finset.sum_sub_distrib]
    refine Finset.sum_congr rfl fun j hj => ?_
    rw [intervalIntegral.integral_const_mul, show ∫ u in a..b, F u (y j) = h1 * ∑ i ∈ s1, w1 i * F (x i) (y j) - K (y j) * B1 by linarith [(hK _ (hy j hj)).2.2],
      mul_sub, Finset.mul_sum, Finset.mul_sum, Finset.mul_sum]
    congr 1
    · exact Finset.sum_congr rfl fun i _ => by ring
    · ring
  rw [e1] at hE
  rw [Finset.sum_comm]
  linear_combination hE + K1 * B1 * hd

end Kv.NC
