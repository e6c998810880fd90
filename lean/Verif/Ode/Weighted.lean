import Mathlib.Analysis.SpecialFunctions.Integrals.Basic
import Mathlib.Analysis.SpecialFunctions.ImproperIntegrals
import Mathlib.Topology.Order.OrderClosed

/-! # Weighted integrals of functions given by polynomials with unknown coefficients -/

namespace Kv
open MeasureTheory Filter Topology

namespace Weighted

/-- a choice with a small sum -/
theorem choose_le {m : ℕ} {A : ℕ → Set ℝ} (hc : ∀ k < m, IsClosed (A k)) (hn : ∀ k < m, (A k).Nonempty)
    {W : ℕ → ℝ} (hW : ∀ k < m, 0 < W k) {I : ℝ}
    (hI : ∀ lo : ℕ → ℝ, (∀ k < m, ∀ x ∈ A k, lo k ≤ x) → ∑ k ∈ Finset.range m, lo k * W k ≤ I) :
    ∃ s : ℕ → ℝ, (∀ k < m, s k ∈ A k) ∧ ∑ k ∈ Finset.range m, s k * W k ≤ I := by
  classical
  by_cases hb : ∀ k < m, BddBelow (A k)
  · refine ⟨fun k => sInf (A k), fun k hk => (hc k hk).csInf_mem (hn k hk) (hb k hk), hI _ fun k hk x hx => csInf_le (hb k hk) hx⟩
  · push Not at hb
    obtain ⟨j, hj, hub⟩ := hb
    choose! s hs using hn
    have hlow : ∃ x ∈ A j, x ≤ s j + (I - ∑ k ∈ Finset.range m, s k * W k) / W j := by
      by_contra hcon
      push Not at hcon
      exact hub ⟨_, fun x hx => (hcon x hx).le⟩
    obtain ⟨x, hx, hxle⟩ := hlow
    refine ⟨Function.update s j x, fun k hk => ?_, ?_⟩
    · by_cases e : k = j
      · subst e; simpa using hx
      · rw [Function.update_of_ne e]; exact hs k hk
    · have e1 := Finset.add_sum_erase (Finset.range m) (fun k => Function.update s j x k * W k) (Finset.mem_range.2 hj)
      have e2 := Finset.add_sum_erase (Finset.range m) (fun k => s k * W k) (Finset.mem_range.2 hj)
      have e3 : ∑ k ∈ (Finset.range m).erase j, Function.update s j x k * W k = ∑ k ∈ (Finset.range m).erase j, s k * W k :=
        Finset.sum_congr rfl fun k hk => by rw [Function.update_of_ne (Finset.ne_of_mem_erase hk)]
      simp only [Function.update_self] at e1
      rw [← e1, e3]
      have := mul_le_mul_of_nonneg_right hxle (hW j hj).le
      rw [add_mul, div_mul_cancel₀ _ (hW j hj).ne'] at this
      linarith

/-- a choice with the right sum -/
theorem choose_eq {m : ℕ} {A : ℕ → Set ℝ} (hc : ∀ k < m, IsClosed (A k)) (ho : ∀ k < m, (A k).OrdConnected) (hn : ∀ k < m, (A k).Nonempty)
    {W : ℕ → ℝ} (hW : ∀ k < m, 0 < W k) {I : ℝ}
    (hlo : ∀ lo : ℕ → ℝ, (∀ k < m, ∀ x ∈ A k, lo k ≤ x) → ∑ k ∈ Finset.range m, lo k * W k ≤ I)
    (hup : ∀ up : ℕ → ℝ, (∀ k < m, ∀ x ∈ A k, x ≤ up k) → I ≤ ∑ k ∈ Finset.range m, up k * W k) :
    ∃ s : ℕ → ℝ, (∀ k < m, s k ∈ A k) ∧ ∑ k ∈ Finset.range m, s k * W k = I := by
  obtain ⟨s, hs, hsI⟩ := choose_le hc hn hW hlo
  obtain ⟨u, hu, huI⟩ : ∃ u : ℕ → ℝ, (∀ k < m, u k ∈ A k) ∧ I ≤ ∑ k ∈ Finset.range m, u k * W k := by
    obtain ⟨u, hu, huI⟩ := choose_le (A := fun k => -(A k)) (I := -I) (fun k hk => (hc k hk).neg) (fun k hk => (hn k hk).neg) hW
      (fun lo h => by
        have := hup (fun k => - lo k) (fun k hk x hx => by
          have := h k hk (-x) (by simpa using hx); linarith)
        have e : ∑ k ∈ Finset.range m, -lo k * W k = - ∑ k ∈ Finset.range m, lo k * W k := by
          rw [← Finset.sum_neg_distrib]; exact Finset.sum_congr rfl fun k _ => by ring
        linarith)
    refine ⟨fun k => - u k, fun k hk => hu k hk, ?_⟩
    have e : ∑ k ∈ Finset.range m, -u k * W k = - ∑ k ∈ Finset.range m, u k * W k := by
      rw [← Finset.sum_neg_distrib]; exact Finset.sum_congr rfl fun k _ => by ring
    linarith
  set S := ∑ k ∈ Finset.range m, s k * W k with hS
  set U := ∑ k ∈ Finset.range m, u k * W k with hU
  rcases eq_or_lt_of_le (le_trans hsI huI) with e | hlt
  · exact ⟨s, hs, le_antisymm hsI (by linarith)⟩
  · have hd : 0 < U - S := by linarith
    set l := (I - S) / (U - S) with hl
    have hl0 : 0 ≤ l := div_nonneg (by linarith) hd.le
    have hl1 : l ≤ 1 := by rw [hl, div_le_one hd]; linarith
    refine ⟨fun k => s k + l * (u k - s k), fun k hk => ?_, ?_⟩
    · refine (ho k hk).uIcc_subset (hs k hk) (hu k hk) ?_
      rw [Set.mem_uIcc]
      rcases le_total (s k) (u k) with h | h
      · exact Or.inl ⟨by nlinarith, by nlinarith⟩
      · exact Or.inr ⟨by nlinarith, by nlinarith⟩
    · have e : ∑ k ∈ Finset.range m, (s k + l * (u k - s k)) * W k = S + l * (U - S) := by
        rw [hS, hU, ← Finset.sum_sub_distrib, Finset.mul_sum, ← Finset.sum_add_distrib]
        exact Finset.sum_congr rfl fun k _ => by ring
      rw [e, hl, div_mul_cancel₀ _ hd.ne']; ring

/-- the integral of a function with a nonnegative weight, where the coefficients depend on the point -/
theorem integral {m : ℕ} {A : ℕ → Set ℝ} (hc : ∀ k < m, IsClosed (A k)) (ho : ∀ k < m, (A k).OrdConnected)
    {T : ℝ} (hT : 0 < T) {w φ : ℝ → ℝ} (hw : ∀ t, 0 < t → t ≤ T → 0 ≤ w t) {W : ℕ → ℝ} (hW : ∀ k < m, 0 < W k)
    (hwi : ∀ k < m, IntervalIntegrable (fun t => w t * t ^ k) volume 0 T) (hWi : ∀ k < m, ∫ t in (0 : ℝ)..T, w t * t ^ k = W k)
    (hφi : IntervalIntegrable (fun t => w t * φ t) volume 0 T)
    (hφ : ∀ t, 0 < t → t ≤ T → ∃ r : ℕ → ℝ, (∀ k < m, r k ∈ A k) ∧ φ t = ∑ k ∈ Finset.range m, r k * t ^ k) :
    ∃ s : ℕ → ℝ, (∀ k < m, s k ∈ A k) ∧ ∫ t in (0 : ℝ)..T, w t * φ t = ∑ k ∈ Finset.range m, s k * W k := by
  have hsum : ∀ c : ℕ → ℝ, ∫ t in (0 : ℝ)..T, ∑ k ∈ Finset.range m, c k * (w t * t ^ k) = ∑ k ∈ Finset.range m, c k * W k := by
    intro c
    rw [intervalIntegral.integral_finsetSum fun k hk => (hwi k (Finset.mem_range.1 hk)).const_mul (c k)]
    refine Finset.sum_congr rfl fun k hk => ?_
    rw [intervalIntegral.integral_const_mul, hWi k (Finset.mem_range.1 hk)]
  have hsi : ∀ c : ℕ → ℝ, IntervalIntegrable (fun t => ∑ k ∈ Finset.range m, c k * (w t * t ^ k)) volume 0 T := by
    intro c
    have := IntervalIntegrable.sum (Finset.range m) (f := fun k t => c k * (w t * t ^ k)) (μ := volume) (a := 0) (b := T)
      fun k hk => (hwi k (Finset.mem_range.1 hk)).const_mul (c k)
    refine this.congr ?_
    intro t _; simp [Finset.sum_apply]
  suffices h : ∃ s : ℕ → ℝ, (∀ k < m, s k ∈ A k) ∧ ∑ k ∈ Finset.range m, s k * W k = ∫ t in (0 : ℝ)..T, w t * φ t by
    obtain ⟨s, h1, h2⟩ := h
    exact ⟨s, h1, h2.symm⟩
  refine choose_eq hc ho (fun k hk => by
      obtain ⟨r, hr, -⟩ := hφ T hT le_rfl
      exact ⟨r k, hr k hk⟩) hW (fun lo hlo => ?_) (fun up hup => ?_)
  · rw [← hsum lo]
    refine intervalIntegral.integral_mono_on_of_le_Ioo hT.le (hsi lo) hφi fun t ht => ?_
    obtain ⟨r, hr, e⟩ := hφ t ht.1 ht.2.le
    rw [e, Finset.mul_sum]
    refine Finset.sum_le_sum fun k hk => ?_
    have hk := Finset.mem_range.1 hk
    have := mul_le_mul_of_nonneg_right (hlo k hk _ (hr k hk)) (mul_nonneg (hw t ht.1 ht.2.le) (pow_nonneg ht.1.le k))
    linarith [this]
  · rw [← hsum up]
    refine intervalIntegral.integral_mono_on_of_le_Ioo hT.le hφi (hsi up) fun t ht => ?_
    obtain ⟨r, hr, e⟩ := hφ t ht.1 ht.2.le
    rw [e, Finset.mul_sum]
    refine Finset.sum_le_sum fun k hk => ?_
    have hk := Finset.mem_range.1 hk
    have := mul_le_mul_of_nonneg_right (hup k hk _ (hr k hk)) (mul_nonneg (hw t ht.1 ht.2.le) (pow_nonneg ht.1.le k))
    linarith [this]

/-! ## the weight `t ^ ω` -/

theorem rpow_mul_pow {ω t : ℝ} (ht : 0 < t) (k : ℕ) : t ^ ω * t ^ k = t ^ (ω + k) := by
  rw [Real.rpow_add ht, Real.rpow_natCast]

theorem power_integrable {ω T : ℝ} (hω : -1 < ω) (hT : 0 < T) (k : ℕ) : IntervalIntegrable (fun t => t ^ ω * t ^ k) volume 0 T := by
  have h : -1 < ω + k := by have : (0 : ℝ) ≤ k := Nat.cast_nonneg k; linarith
  refine (intervalIntegral.intervalIntegrable_rpow' (a := 0) (b := T) h).congr ?_
  intro t ht
  rw [Set.uIoc_of_le hT.le] at ht
  exact (rpow_mul_pow ht.1 k).symm

theorem power_integral {ω T : ℝ} (hω : -1 < ω) (hT : 0 < T) (k : ℕ) :
    ∫ t in (0 : ℝ)..T, t ^ ω * t ^ k = T ^ (ω + 1 + k) / (ω + 1 + k) := by
  have h : -1 < ω + k := by have : (0 : ℝ) ≤ k := Nat.cast_nonneg k; linarith
  rw [intervalIntegral.integral_congr_ae (g := fun t => t ^ (ω + k))]
  · rw [integral_rpow (Or.inl h), Real.zero_rpow (by linarith), sub_zero]
    rw [show ω + k + 1 = ω + 1 + k by ring]
  · refine Filter.Eventually.of_forall fun t ht => ?_
    rw [Set.uIoc_of_le hT.le] at ht
    exact rpow_mul_pow ht.1 k

theorem power {m : ℕ} {A : ℕ → Set ℝ} (hc : ∀ k < m, IsClosed (A k)) (ho : ∀ k < m, (A k).OrdConnected)
    {T ω : ℝ} (hT : 0 < T) (hω : -1 < ω) {φ : ℝ → ℝ} (hφi : IntervalIntegrable (fun t => t ^ ω * φ t) volume 0 T)
    (hφ : ∀ t, 0 < t → t ≤ T → ∃ r : ℕ → ℝ, (∀ k < m, r k ∈ A k) ∧ φ t = ∑ k ∈ Finset.range m, r k * t ^ k) :
    ∃ s : ℕ → ℝ, (∀ k < m, s k ∈ A k) ∧ ∫ t in (0 : ℝ)..T, t ^ ω * φ t = ∑ k ∈ Finset.range m, s k * (T ^ (ω + 1 + k) / (ω + 1 + k)) :=
  integral hc ho hT (fun t h _ => Real.rpow_nonneg h.le _) (fun k _ => div_pos (Real.rpow_pos_of_pos hT _) (by
    have : (0 : ℝ) ≤ k := Nat.cast_nonneg k
    linarith)) (fun k _ => power_integrable hω hT k) (fun k _ => power_integral hω hT k) hφi hφ

/-! ## the weight `log t` -/

theorem log_integrable {T : ℝ} (k : ℕ) : IntervalIntegrable (fun t => Real.log t * t ^ k) volume 0 T :=
  intervalIntegral.intervalIntegrable_log'.mul_continuousOn (continuous_pow k).continuousOn

theorem log_integral {T : ℝ} (hT : 0 < T) (k : ℕ) :
    ∫ t in (0 : ℝ)..T, Real.log t * t ^ k = T ^ (k + 1) * ((k + 1) * Real.log T - 1) / ((k + 1) * (k + 1)) := by
  have hk : (0 : ℝ) < k + 1 := by positivity
  have hc : Continuous fun t : ℝ => t ^ k * (t * Real.log t) / (k + 1) - t ^ (k + 1) / ((k + 1) * (k + 1)) :=
    (((continuous_pow k).mul Real.continuous_mul_log).div_const _).sub ((continuous_pow (k + 1)).div_const _)
  have hd : ∀ t ∈ Set.Ioo 0 T, HasDerivAt (fun t : ℝ => t ^ k * (t * Real.log t) / (k + 1) - t ^ (k + 1) / ((k + 1) * (k + 1)))
      (Real.log t * t ^ k) t := by
    intro t ht
    have ht0 : t ≠ 0 := ht.1.ne'
    have h1 : HasDerivAt (fun t : ℝ => t ^ (k + 1) * Real.log t / (k + 1) - t ^ (k + 1) / ((k + 1) * (k + 1)))
        ((((k + 1 : ℕ) : ℝ) * t ^ k * Real.log t + t ^ (k + 1) * t⁻¹) / (k + 1) - ((k + 1 : ℕ) : ℝ) * t ^ k / ((k + 1) * (k + 1))) t := by
      have a := hasDerivAt_pow (k + 1) t
      simp only [Nat.add_sub_cancel] at a
      exact ((a.mul (Real.hasDerivAt_log ht0)).div_const _).sub (a.div_const _)
    have e1 : (fun t : ℝ => t ^ k * (t * Real.log t) / (k + 1) - t ^ (k + 1) / ((k + 1) * (k + 1))) =
        fun t : ℝ => t ^ (k + 1) * Real.log t / (k + 1) - t ^ (k + 1) / ((k + 1) * (k + 1)) := by
      funext t; rw [pow_succ]; ring
    rw [e1]
    refine h1.congr_deriv ?_
    push_cast
    rw [pow_succ]
    field_simp
    ring
  rw [intervalIntegral.integral_eq_sub_of_hasDerivAt_of_le hT.le hc.continuousOn hd (log_integrable k)]
  simp only [zero_mul, mul_zero, zero_div, ne_eq, Nat.add_eq_zero_iff, one_ne_zero, and_false, not_false_eq_true, zero_pow, sub_zero]
  rw [pow_succ]
  field_simp

theorem log {m : ℕ} {A : ℕ → Set ℝ} (hc : ∀ k < m, IsClosed (A k)) (ho : ∀ k < m, (A k).OrdConnected)
    {T : ℝ} (hT : 0 < T) (hT1 : T ≤ 1) {φ : ℝ → ℝ} (hφi : IntervalIntegrable (fun t => Real.log t * φ t) volume 0 T)
    (hφ : ∀ t, 0 < t → t ≤ T → ∃ r : ℕ → ℝ, (∀ k < m, r k ∈ A k) ∧ φ t = ∑ k ∈ Finset.range m, r k * t ^ k) :
    ∃ s : ℕ → ℝ, (∀ k < m, s k ∈ A k) ∧ ∫ t in (0 : ℝ)..T, Real.log t * φ t =
      ∑ k ∈ Finset.range m, s k * (T ^ (k + 1) * ((k + 1) * Real.log T - 1) / ((k + 1) * (k + 1))) := by
  have hlog : Real.log T ≤ 0 := Real.log_nonpos hT.le hT1
  obtain ⟨s, h1, h2⟩ := integral (w := fun t => -Real.log t) (W := fun k => -(T ^ (k + 1) * ((k + 1) * Real.log T - 1) / ((k + 1) * (k + 1))))
    hc ho hT (fun t h0 h1 => neg_nonneg.2 (Real.log_nonpos h0.le (h1.trans hT1))) (fun k _ => by
      have hk : (0 : ℝ) < k + 1 := by positivity
      have : 0 < T ^ (k + 1) * (1 - (k + 1) * Real.log T) / ((k + 1) * (k + 1)) := by
        refine div_pos (mul_pos (pow_pos hT _) ?_) (mul_pos hk hk)
        nlinarith
      have e : -(T ^ (k + 1) * ((k + 1) * Real.log T - 1) / ((k + 1) * (k + 1))) = T ^ (k + 1) * (1 - (k + 1) * Real.log T) / ((k + 1) * (k + 1)) := by ring
      rw [e]; exact this) (fun k _ => (log_integrable k).neg.congr fun t _ => by simp) (fun k _ => by
        simp only [neg_mul, intervalIntegral.integral_neg, log_integral hT k]) (φ := φ) (hφi.neg.congr fun t _ => by simp) hφ
  refine ⟨s, h1, ?_⟩
  simp only [neg_mul, intervalIntegral.integral_neg, mul_neg, Finset.sum_neg_distrib, neg_inj] at h2
  exact h2

end Weighted
end Kv
