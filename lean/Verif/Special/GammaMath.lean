import Mathlib.Analysis.SpecialFunctions.Gamma.BohrMollerup
import Mathlib.MeasureTheory.Integral.IntegralEqImproper
import Mathlib.Analysis.Convex.Deriv

/-!
# Facts on the Gamma function
-/

namespace Kv.GammaFn
open MeasureTheory Filter Topology Set

/-- antiderivative of `t exp(-t)` -/
theorem tail_int {θ : ℝ} (h0 : 0 ≤ θ) : IntegrableOn (fun t : ℝ => t * Real.exp (-t)) (Ioi θ) ∧ ∫ t in Ioi θ, t * Real.exp (-t) = Real.exp (-θ) * (θ + 1) := by
  have hd : ∀ t ∈ Ici θ, HasDerivAt (fun t : ℝ => -(Real.exp (-t) * (t + 1))) (t * Real.exp (-t)) t := fun t _ => by
    have h1 : HasDerivAt (fun t : ℝ => Real.exp (-t)) (Real.exp (-t) * -1) t := (hasDerivAt_id t).neg.exp
    have h2 : HasDerivAt (fun t : ℝ => t + 1) 1 t := (hasDerivAt_id t).add_const 1
    have := (h1.mul h2).neg
    refine this.congr_deriv ?_
    ring
  have hp : ∀ t ∈ Ioi θ, 0 ≤ t * Real.exp (-t) := fun t ht => by
    have : 0 ≤ t := h0.trans (le_of_lt ht)
    positivity
  have hl : Tendsto (fun t : ℝ => -(Real.exp (-t) * (t + 1))) atTop (𝓝 0) := by
    have h1 := Real.tendsto_pow_mul_exp_neg_atTop_nhds_zero 1
    have h2 := Real.tendsto_pow_mul_exp_neg_atTop_nhds_zero 0
    have := (h1.add h2).neg
    simp only [add_zero, neg_zero] at this
    refine this.congr fun t => ?_
    simp only [pow_one, pow_zero]
    ring
  exact ⟨integrableOn_Ioi_deriv_of_nonneg' hd hp hl, by rw [integral_Ioi_of_hasDerivAt_of_nonneg' hd hp hl]; ring⟩

theorem gamma_split {x θ : ℝ} (h0 : 0 < x) (h2 : x ≤ 2) (hθ : 1 ≤ θ) :
    ∃ r, 0 ≤ r ∧ r ≤ Real.exp (-θ) * (θ + 1) ∧ Real.Gamma x = (∫ t in (0 : ℝ)..θ, t ^ (x - 1) * Real.exp (-t)) + r := by
  have hi : IntegrableOn (fun t : ℝ => t ^ (x - 1) * Real.exp (-t)) (Ioi 0) := by
    refine (Real.GammaIntegral_convergent h0).congr_fun (fun t _ => mul_comm _ _) measurableSet_Ioi
  have hs := intervalIntegral.integral_interval_add_Ioi (a := 0) (b := θ) hi (hi.mono_set (Ioi_subset_Ioi (by linarith)))
  refine ⟨∫ t in Ioi θ, t ^ (x - 1) * Real.exp (-t), ?_, ?_, ?_⟩
  · refine setIntegral_nonneg measurableSet_Ioi fun t ht => ?_
    have : (0 : ℝ) < t := lt_trans (by linarith) ht
    positivity
  · rw [← (tail_int (zero_le_one.trans hθ)).2]
    refine setIntegral_mono_on (hi.mono_set (Ioi_subset_Ioi (by linarith))) (tail_int (zero_le_one.trans hθ)).1 measurableSet_Ioi fun t ht => ?_
    have h1 : (1 : ℝ) ≤ t := hθ.trans (le_of_lt ht)
    refine mul_le_mul_of_nonneg_right ?_ (Real.exp_pos _).le
    calc t ^ (x - 1) ≤ t ^ (1 : ℝ) := Real.rpow_le_rpow_of_exponent_le h1 (by linarith)
      _ = t := Real.rpow_one t
  · rw [hs, Real.Gamma_eq_integral h0]
    exact setIntegral_congr_fun measurableSet_Ioi fun t _ => mul_comm _ _

/-! ## recurrence -/

theorem gamma_mul (x : ℝ) : ∀ k : ℕ, 0 < x - k → Real.Gamma x = Real.Gamma (x - k) * ∏ i ∈ Finset.range k, (x - (i + 1 : ℕ))
  | 0, _ => by simp
  | k + 1, h => by
    have h' : 0 < x - (k + 1) := by push_cast at h; linarith
    have e := gamma_mul x k (by linarith)
    rw [e, Finset.prod_range_succ, show x - (k : ℝ) = x - (k + 1) + 1 by ring, Real.Gamma_add_one h'.ne']
    push_cast
    ring

theorem gamma_div (x : ℝ) : ∀ k : ℕ, (∀ i < k, x + i ≠ 0) → Real.Gamma x * ∏ i ∈ Finset.range k, (x + i) = Real.Gamma (x + k)
  | 0, _ => by simp
  | k + 1, h => by
    have e := gamma_div x k fun i hi => h i (by omega)
    rw [Finset.prod_range_succ, ← mul_assoc, e]
    push_cast
    rw [show x + ((k : ℝ) + 1) = x + k + 1 by ring, Real.Gamma_add_one (h k (by omega))]
    ring

/-! ## convexity between the poles -/

theorem sign_convex : ∀ k : ℕ, (∀ x ∈ Ioo (-(k : ℝ)) (-k + 1), 0 < (-1) ^ k * Real.Gamma x) ∧
    ConvexOn ℝ (Ioo (-(k : ℝ)) (-k + 1)) fun x => Real.log (Real.Gamma x)
  | 0 => by
    refine ⟨fun x hx => ?_, (Real.convexOn_log_Gamma.subset (fun x hx => ?_) (convex_Ioo _ _))⟩
    · have : 0 < x := by simpa using hx.1
      simpa using Real.Gamma_pos_of_pos this
    · simpa using hx.1
  | k + 1 => by
    obtain ⟨h1, h2⟩ := sign_convex k
    have hm : ∀ x ∈ Ioo (-((k + 1 : ℕ) : ℝ)) (-((k + 1 : ℕ) : ℝ) + 1), x < 0 ∧ x + 1 ∈ Ioo (-(k : ℝ)) (-k + 1) := fun x hx => by
      obtain ⟨a, b⟩ := hx
      push_cast at a b
      have : (0 : ℝ) ≤ k := Nat.cast_nonneg k
      exact ⟨by linarith, by linarith, by linarith⟩
    refine ⟨fun x hx => ?_, ?_⟩
    · obtain ⟨h0, hx'⟩ := hm x hx
      have := h1 _ hx'
      rw [Real.Gamma_add_one h0.ne] at this
      rw [pow_succ]
      have e : (-1) ^ k * -1 * Real.Gamma x = ((-1) ^ k * (x * Real.Gamma x)) / -x := by
        rw [eq_div_iff (by linarith)]; ring
      rw [e]
      exact div_pos this (by linarith)
    · have e : EqOn (fun x => Real.log (Real.Gamma (x + 1)) + -Real.log x) (fun x => Real.log (Real.Gamma x)) (Ioo (-((k + 1 : ℕ) : ℝ)) (-((k + 1 : ℕ) : ℝ) + 1)) := fun x hx => by
        obtain ⟨h0, hx'⟩ := hm x hx
        have hg : Real.Gamma x ≠ 0 := fun hz => by
          have := h1 _ hx'
          rw [Real.Gamma_add_one h0.ne, hz] at this
          simp at this
        simp only
        rw [Real.Gamma_add_one h0.ne, Real.log_mul h0.ne hg]
        ring
      refine ConvexOn.congr ?_ e
      refine ConvexOn.add ?_ ?_
      · have := h2.translate_left (c := 1)
        refine this.subset (fun x hx => ?_) (convex_Ioo _ _)
        show 1 + x ∈ Ioo (-(k : ℝ)) (-k + 1)
        rw [add_comm 1 x]
        exact (hm x hx).2
      · exact (strictConcaveOn_log_Iio.concaveOn.neg).subset (fun x hx => (hm x hx).1) (convex_Ioo _ _)

/-- critical points of convex functions -/
theorem min_of_deriv {R : Set ℝ} {F : ℝ → ℝ} (hF : ConvexOn ℝ R F) {γ : ℝ} (hγ : γ ∈ R) (hd : DifferentiableAt ℝ F γ) (h : deriv F γ = 0) : ∀ x ∈ R, F γ ≤ F x := fun x hx => by
  rcases lt_trichotomy x γ with hlt | rfl | hlt
  · have := hF.slope_le_deriv hx hγ hlt hd
    rw [h, slope_def_field, div_le_iff₀ (by linarith)] at this
    linarith
  · exact le_rfl
  · have := hF.deriv_le_slope hγ hx hlt hd
    rw [h, slope_def_field, le_div_iff₀ (by linarith)] at this
    linarith

/-- the values of a convex function between two points -/
theorem convex_between {R : Set ℝ} {F : ℝ → ℝ} (hF : ConvexOn ℝ R F) {u v x : ℝ} (hu : u ∈ R) (hv : v ∈ R) (h1 : u ≤ x) (h2 : x ≤ v) :
    F x ≤ max (F u) (F v) := hF.le_max_of_mem_Icc hu hv ⟨h1, h2⟩

/-- a convex function with the minimum `γ` takes values above the smaller value at the ends, if `γ` is outside -/
theorem convex_outside {R : Set ℝ} {F : ℝ → ℝ} (hF : ConvexOn ℝ R F) {u v x γ : ℝ} (hx : x ∈ R) (h1 : u ≤ x) (h2 : x ≤ v) (hγ : γ ∈ R)
    (hm : ∀ x ∈ R, F γ ≤ F x) (ho : γ < u ∨ v < γ) : min (F u) (F v) ≤ F x := by
  rcases ho with h | h
  · have := convex_between hF hγ hx h.le h1
    rw [max_eq_right (hm x hx)] at this
    exact (min_le_left _ _).trans this
  · have := convex_between hF hx hγ h2 h.le
    rw [max_eq_left (hm x hx)] at this
    exact (min_le_right _ _).trans this

end Kv.GammaFn
