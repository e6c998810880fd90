import Mathlib.Analysis.SpecialFunctions.Integrals.LogTrigonometric
import Mathlib.MeasureTheory.Integral.IntervalIntegral.Periodic

/-!
# The Lobachevsky function
-/

namespace Kv
open Real Set

/-- the Lobachevsky function: minus the integral of `log |2 sin u|` from 0 to `t` -/
noncomputable def lobaR (t : ℝ) : ℝ := -∫ u in (0 : ℝ)..t, log |2 * sin u|

namespace Loba

theorem integrable (a b : ℝ) : IntervalIntegrable (fun u => log |2 * sin u|) MeasureTheory.volume a b := by
  have : MeromorphicOn (fun u : ℝ => 2 * sin u) (uIcc a b) := AnalyticOnNhd.meromorphicOn fun x _ => analyticAt_const.mul analyticAt_sin
  exact this.intervalIntegrable_log_norm

theorem diff (a b : ℝ) : lobaR b - lobaR a = -∫ u in a..b, log |2 * sin u| := by
  unfold lobaR
  rw [← intervalIntegral.integral_add_adjacent_intervals (integrable 0 a) (integrable a b)]
  ring

theorem zero : lobaR 0 = 0 := by simp [lobaR]

theorem odd (t : ℝ) : lobaR (-t) = -lobaR t := by
  unfold lobaR
  have := intervalIntegral.integral_comp_neg (a := 0) (b := t) (fun u => log |2 * sin u|)
  rw [neg_zero] at this
  rw [intervalIntegral.integral_symm, ← this]
  simp only [sin_neg, mul_neg, abs_neg]

theorem period (t : ℝ) : lobaR (t + π) = lobaR t := by
  have hp : Function.Periodic (fun u => log |2 * sin u|) π := fun u => by
    show log |2 * sin (u + π)| = log |2 * sin u|
    rw [sin_add_pi, mul_neg, abs_neg]
  have h := hp.intervalIntegral_add_eq t 0
  rw [zero_add] at h
  have h0 : ∫ u in (0 : ℝ)..π, log |2 * sin u| = 0 := by
    have : ∫ u in (0 : ℝ)..π, log |2 * sin u| = ∫ u in (0 : ℝ)..π, (log 2 + log (sin u)) := by
      apply intervalIntegral.integral_congr_codiscreteWithin
      apply Filter.codiscreteWithin_mono (by tauto : uIoc 0 π ⊆ Set.univ)
      have t₀ : sin ⁻¹' {0}ᶜ ∈ Filter.codiscrete ℝ := by
        apply analyticOnNhd_sin.preimage_zero_mem_codiscrete (x := π / 2)
        simp
      filter_upwards [t₀] with y hy
      have hy' : sin y ≠ 0 := by simpa using hy
      rw [log_abs, log_mul (by norm_num) hy']
    have hi : IntervalIntegrable (fun u => log (sin u)) MeasureTheory.volume 0 π := intervalIntegrable_log_sin
    rw [this, intervalIntegral.integral_add intervalIntegrable_const hi, integral_log_sin_zero_pi]
    simp
    ring
  have := diff t (t + π)
  rw [h, h0] at this
  linarith

theorem period_int (k : ℤ) (t : ℝ) : lobaR (t - k * π) = lobaR t := by
  have hp : Function.Periodic lobaR π := period
  exact hp.sub_int_mul_eq k

theorem mono {a b : ℝ} (h : ∀ u ∈ Icc a b, |sin u| ≤ 1 / 2) (hab : a ≤ b) : lobaR a ≤ lobaR b := by
  have := intervalIntegral.integral_nonneg (f := fun u => -log |2 * sin u|) (μ := MeasureTheory.volume) hab fun u hu => by
    have := h u hu
    have h2 : |2 * sin u| ≤ 1 := by rw [abs_mul, abs_of_pos (by norm_num : (0 : ℝ) < 2)]; linarith
    have := log_nonpos (abs_nonneg _) h2
    linarith
  rw [intervalIntegral.integral_neg, ← diff] at this
  linarith

theorem anti {a b : ℝ} (h : ∀ u ∈ Icc a b, 1 / 2 ≤ |sin u|) (hab : a ≤ b) : lobaR b ≤ lobaR a := by
  have := intervalIntegral.integral_nonneg (f := fun u => log |2 * sin u|) (μ := MeasureTheory.volume) hab fun u hu => by
    have := h u hu
    have h2 : 1 ≤ |2 * sin u| := by rw [abs_mul, abs_of_pos (by norm_num : (0 : ℝ) < 2)]; linarith
    exact log_nonneg h2
  have h2 := diff a b
  linarith

/-! the pieces -/

theorem sin_small {u : ℝ} (h1 : -(π / 6) ≤ u) (h2 : u ≤ π / 6) : |sin u| ≤ 1 / 2 := by
  have p := pi_pos
  rw [abs_le]
  constructor
  · rw [← sin_pi_div_six, ← sin_neg]
    exact sin_le_sin_of_le_of_le_pi_div_two (by linarith) (by linarith) h1
  · rw [← sin_pi_div_six]
    exact sin_le_sin_of_le_of_le_pi_div_two (by linarith) (by linarith) h2

theorem sin_large {u : ℝ} (h1 : π / 6 ≤ u) (h2 : u ≤ 5 * (π / 6)) : 1 / 2 ≤ |sin u| := by
  have p := pi_pos
  refine le_trans ?_ (le_abs_self _)
  rw [← sin_pi_div_six]
  by_cases h : u ≤ π / 2
  · exact sin_le_sin_of_le_of_le_pi_div_two (by linarith) h h1
  · rw [← sin_pi_sub u]
    exact sin_le_sin_of_le_of_le_pi_div_two (by linarith) (by linarith) (by linarith)

theorem abs_sin_shift (u : ℝ) : |sin (u - π)| = |sin u| := by rw [sin_sub_pi, abs_neg]
theorem abs_sin_shift' (u : ℝ) : |sin (u + π)| = |sin u| := by rw [sin_add_pi, abs_neg]

theorem inc0 {a b : ℝ} (h1 : -(π / 6) ≤ a) (h2 : b ≤ π / 6) (h : a ≤ b) : lobaR a ≤ lobaR b :=
  mono (fun u hu => sin_small (by linarith [hu.1]) (by linarith [hu.2])) h
theorem inc1 {a b : ℝ} (h1 : 5 * (π / 6) ≤ a) (h2 : b ≤ 7 * (π / 6)) (h : a ≤ b) : lobaR a ≤ lobaR b :=
  mono (fun u hu => by rw [← abs_sin_shift]; exact sin_small (by linarith [hu.1]) (by linarith [hu.2])) h
theorem dec0 {a b : ℝ} (h1 : π / 6 ≤ a) (h2 : b ≤ 5 * (π / 6)) (h : a ≤ b) : lobaR b ≤ lobaR a :=
  anti (fun u hu => sin_large (by linarith [hu.1]) (by linarith [hu.2])) h
theorem dec1 {a b : ℝ} (h1 : 7 * (π / 6) ≤ a) (h2 : b ≤ 11 * (π / 6)) (h : a ≤ b) : lobaR b ≤ lobaR a :=
  anti (fun u hu => by rw [← abs_sin_shift]; exact sin_large (by linarith [hu.1]) (by linarith [hu.2])) h
theorem decm {a b : ℝ} (h1 : -(5 * (π / 6)) ≤ a) (h2 : b ≤ -(π / 6)) (h : a ≤ b) : lobaR b ≤ lobaR a :=
  anti (fun u hu => by rw [← abs_sin_shift']; exact sin_large (by linarith [hu.1]) (by linarith [hu.2])) h

theorem half_pi : lobaR (π / 2) = 0 := by
  have h1 := odd (π / 2)
  have h2 := period (-(π / 2))
  rw [show -(π / 2) + π = π / 2 by ring] at h2
  linarith

/-- the largest value is at `π/6` -/
theorem abs_le_max (t : ℝ) : |lobaR t| ≤ lobaR (π / 6) := by
  have p := pi_pos
  have key : ∀ s, 0 ≤ s → s ≤ π / 2 → |lobaR s| ≤ lobaR (π / 6) := fun s h0 h1 => by
    rw [abs_le]
    by_cases h : s ≤ π / 6
    · have a := inc0 (a := 0) (b := s) (by linarith) h h0
      have b := inc0 (a := s) (b := π / 6) (by linarith) le_rfl h
      rw [zero] at a
      constructor <;> linarith
    · have a := dec0 (a := π / 6) (b := s) le_rfl (by linarith) (by linarith)
      have b := dec0 (a := s) (b := π / 2) (by linarith) (by linarith) h1
      rw [half_pi] at b
      constructor <;> linarith
  have h := period_int ⌊t / π + 1 / 2⌋ t
  rw [← h]
  have f1 := Int.floor_le (t / π + 1 / 2)
  have f2 := Int.lt_floor_add_one (t / π + 1 / 2)
  have e : t = t / π * π := by field_simp
  set s := t - ⌊t / π + 1 / 2⌋ * π with hs
  have g1 : -(π / 2) ≤ s := by nlinarith
  have g2 : s ≤ π / 2 := by nlinarith
  by_cases h0 : 0 ≤ s
  · exact key s h0 g2
  · have := key (-s) (by linarith) (by linarith)
    rwa [odd, abs_neg] at this

/-- the values on an interval lie between those at its ends and at the extrema in it -/
theorem range {R : Set ℝ} (hR : R.OrdConnected) {l u t : ℝ} (hl : -(5 * (π / 6)) ≤ l) (hu : u ≤ 11 * (π / 6)) (h1 : l ≤ t) (h2 : t ≤ u) (rl : lobaR l ∈ R) (ru : lobaR u ∈ R)
    (rc : ∀ c : ℝ, c = -(π / 6) ∨ c = π / 6 ∨ c = 5 * (π / 6) ∨ c = 7 * (π / 6) → l ≤ c → c ≤ u → lobaR c ∈ R) : lobaR t ∈ R := by
  have p := pi_pos
  have key : ∀ A B : ℝ, A ≤ t → t ≤ B → (l ≤ A → lobaR A ∈ R) → (B ≤ u → lobaR B ∈ R) →
      ((∀ a b, A ≤ a → b ≤ B → a ≤ b → lobaR a ≤ lobaR b) ∨ (∀ a b, A ≤ a → b ≤ B → a ≤ b → lobaR b ≤ lobaR a)) → lobaR t ∈ R := by
    intro A B hA hB rA rB h
    have hp : lobaR (max l A) ∈ R := by
      rcases max_cases l A with ⟨e, -⟩ | ⟨e, e'⟩ <;> rw [e]
      · exact rl
      · exact rA e'.le
    have hq : lobaR (min u B) ∈ R := by
      rcases min_cases u B with ⟨e, -⟩ | ⟨e, e'⟩ <;> rw [e]
      · exact ru
      · exact rB e'.le
    rcases h with h | h
    · exact hR.out hp hq ⟨h _ _ (le_max_right _ _) hB (max_le h1 hA), h _ _ hA (min_le_right _ _) (le_min h2 hB)⟩
    · exact hR.out hq hp ⟨h _ _ hA (min_le_right _ _) (le_min h2 hB), h _ _ (le_max_right _ _) hB (max_le h1 hA)⟩
  by_cases c1 : t ≤ -(π / 6)
  · exact key l (-(π / 6)) h1 c1 (fun _ => rl) (fun h => rc _ (by simp) (by linarith) h) (.inr fun a b ha hb => decm (by linarith) hb)
  by_cases c2 : t ≤ π / 6
  · exact key (-(π / 6)) (π / 6) (by linarith) c2 (fun h => rc _ (by simp) h (by linarith)) (fun h => rc _ (by simp) (by linarith) h) (.inl fun a b ha hb => inc0 ha hb)
  by_cases c3 : t ≤ 5 * (π / 6)
  · exact key (π / 6) (5 * (π / 6)) (by linarith) c3 (fun h => rc _ (by simp) h (by linarith)) (fun h => rc _ (by simp) (by linarith) h) (.inr fun a b ha hb => dec0 ha hb)
  by_cases c4 : t ≤ 7 * (π / 6)
  · exact key (5 * (π / 6)) (7 * (π / 6)) (by linarith) c4 (fun h => rc _ (by simp) h (by linarith)) (fun h => rc _ (by simp) (by linarith) h) (.inl fun a b ha hb => inc1 ha hb)
  · exact key (7 * (π / 6)) u (by linarith) h2 (fun h => rc _ (by simp) h (by linarith)) (fun _ => ru) (.inr fun a b ha hb => dec1 ha (by linarith))

end Loba
end Kv
