import Verif.Ode.Sound

/-! # Every solution stays in the tube, also if the tube is unbounded -/

namespace Kv
open PowerSeries Psa PM Set Topology
open Rop (lit)
set_option linter.unusedVariables false

namespace Ode
variable {n : ℕ} {P : Problem n} {q : Param} {ρ : ℕ → ℝ} {x0 : Fin n → ℝ} {t0 : ℝ} {fuel N : ℕ}

theorem lo_fin {a : D} (h : FinD a) {x : ℝ} : Lo a x ↔ dbl a ≤ x := by
  have h1 := is_dbl' h
  constructor
  · intro h2; have := h2.2; rw [h1.2] at this; exact_mod_cast this
  · intro h2; exact ⟨h1.1, by rw [h1.2]; exact_mod_cast h2⟩

theorem hi_fin {a : D} (h : FinD a) {x : ℝ} : Hi a x ↔ x ≤ dbl a := by
  have h1 := is_dbl' h
  constructor
  · intro h2; have := h2.2; rw [h1.2] at this; exact_mod_cast this
  · intro h2; exact ⟨h1.1, by rw [h1.2]; exact_mod_cast h2⟩

theorem mem_bounds {A : Interval D} {c : ℝ} (hc : c ∈ A) {r : ℝ} : r ∈ A ↔ (FinD A.inf → dbl A.inf ≤ r) ∧ (FinD A.sup → r ≤ dbl A.sup) := by
  constructor
  · rintro ⟨h1, h2⟩
    exact ⟨fun h => (lo_fin h).1 h1, fun h => (hi_fin h).1 h2⟩
  · rintro ⟨h1, h2⟩
    constructor
    · rcases D_cases A.inf with h' | h' | h' | h'
      · exact absurd h' hc.1.1
      · have := hc.1.2; rw [h', val_dPinf] at this; exact absurd (top_le_iff.1 this) (EReal.coe_ne_top _)
      · exact ⟨hc.1.1, by rw [h', val_dNinf]; exact bot_le⟩
      · exact (lo_fin h').2 (h1 h')
    · rcases D_cases A.sup with h' | h' | h' | h'
      · exact absurd h' hc.2.1
      · exact ⟨hc.2.1, by rw [h', val_dPinf]; exact le_top⟩
      · have := hc.2.2; rw [h', val_dNinf] at this; exact absurd (le_bot_iff.1 this) (EReal.coe_ne_bot _)
      · exact (hi_fin h').2 (h2 h')

/-- the tube as intersection of half spaces -/
theorem inTube_iff (hN : 1 ≤ N) {w : Fin n → Ser} (hw : SerOk P ρ x0 t0 N w) {A : Fin n → Interval D} (hA : ∀ i, (w i)[N]? = some (A i))
    (hAm : ∀ i, coeff N (fsol P.f ρ x0 t0 i) ∈ A i) {τ : ℝ} (hτ : 0 ≤ τ) {v : Fin n → ℝ} : InTube P ρ x0 t0 N w τ v ↔ (τ = 0 → v = x0) ∧
      ∀ i, (FinD (A i).inf → bound P ρ x0 t0 N (fun i => dbl (A i).inf) τ i ≤ v i) ∧ (FinD (A i).sup → v i ≤ bound P ρ x0 t0 N (fun i => dbl (A i).sup) τ i) := by
  constructor
  · intro h
    refine ⟨fun h0 => (h0 ▸ h : InTube P ρ x0 t0 N w 0 v).zero hN, fun i => ?_⟩
    obtain ⟨r, B, h1, h2, h3⟩ := h i
    rw [hA i] at h1; cases h1
    have := (mem_bounds (hAm i)).1 h2
    have hp : 0 ≤ τ ^ N := pow_nonneg hτ N
    rw [h3]
    unfold bound
    exact ⟨fun hf => by linarith [mul_le_mul_of_nonneg_right (this.1 hf) hp], fun hf => by linarith [mul_le_mul_of_nonneg_right (this.2 hf) hp]⟩
  · rintro ⟨hz, h⟩
    rcases hτ.eq_or_lt with rfl | h0
    · rw [hz rfl]; exact hw.tube0 hN
    · intro i
      obtain ⟨h1, h2⟩ := h i
      have hp : 0 < τ ^ N := pow_pos h0 N
      unfold bound at h1 h2
      refine ⟨(v i - ∑ k ∈ Finset.range N, coeff k (fsol P.f ρ x0 t0 i) * τ ^ k) / τ ^ N, A i, hA i, (mem_bounds (hAm i)).2 ⟨fun hf => ?_, fun hf => ?_⟩, ?_⟩
      · rw [le_div_iff₀ hp]; linarith [h1 hf]
      · rw [div_le_iff₀ hp]; linarith [h2 hf]
      · rw [div_mul_cancel₀ _ hp.ne']; ring

theorem bound_deriv (c : Fin n → ℝ) : Differentiable ℝ (bound P ρ x0 t0 N c) := by
  unfold bound
  refine differentiable_pi.2 fun i => ?_
  fun_prop

open Classical in
/-- a solution stays in a tube that is mapped to itself -/
theorem sol_inTube (hN : 1 ≤ N) {T : ℝ} (hT : 0 ≤ T) {w : Fin n → Ser} (hw : SerOk P ρ x0 t0 N w) (hM : Maps P ρ x0 t0 N T w w)
    {y : ℝ → Fin n → ℝ} (hy0 : y 0 = x0) (hy : ∀ τ ∈ Icc 0 T, HasDerivWithinAt y (field P ρ t0 τ (y τ)) (Icc 0 T) τ) :
    ∀ τ ∈ Icc 0 T, InTube P ρ x0 t0 N w τ (y τ) := by
  choose A hA hAm using fun i => hw.last i
  have hbox := fun {τ : ℝ} (hτ : 0 ≤ τ) (v : Fin n → ℝ) => inTube_iff hN hw hA hAm hτ (v := v)
  set p := bound P ρ x0 t0 N fun i => coeff N (fsol P.f ρ x0 t0 i) with hp
  have hpt : ∀ τ, 0 ≤ τ → InTube P ρ x0 t0 N w τ (p τ) := fun τ hτ i => ⟨_, A i, hA i, hAm i, rfl⟩
  have hp0 : p 0 = x0 := (hpt 0 le_rfl).zero hN
  have hyc : ContinuousOn y (Icc 0 T) := fun τ hτ => (hy τ hτ).continuousWithinAt
  obtain ⟨K1, hK1⟩ := exists_cone hyc (hy 0 ⟨le_rfl, hT⟩)
  obtain ⟨K2, hK2⟩ := exists_cone (T := T) (g := p) (bound_continuous _ _).continuousOn
    (((bound_deriv (P := P) _).differentiableAt (x := 0)).hasDerivAt.hasDerivWithinAt)
  rw [hy0] at hK1
  rw [hp0] at hK2
  obtain ⟨K, k1, k2, k3⟩ : ∃ K : ℝ, K1 < K ∧ K2 < K ∧ ‖field P ρ t0 0 x0‖ < K :=
    ⟨max (max K1 K2) ‖field P ρ t0 0 x0‖ + 1, by linarith [le_max_left (max K1 K2) ‖field P ρ t0 0 x0‖, le_max_left K1 K2],
      by linarith [le_max_left (max K1 K2) ‖field P ρ t0 0 x0‖, le_max_right K1 K2], by linarith [le_max_right (max K1 K2) ‖field P ρ t0 0 x0‖]⟩
  let lo : ℝ → Fin n → ℝ := fun τ i => if FinD (A i).inf then max (bound P ρ x0 t0 N (fun i => dbl (A i).inf) τ i) (x0 i - K * τ) else x0 i - K * τ
  let hi : ℝ → Fin n → ℝ := fun τ i => if FinD (A i).sup then min (bound P ρ x0 t0 N (fun i => dbl (A i).sup) τ i) (x0 i + K * τ) else x0 i + K * τ
  have hlo : Continuous lo := by
    refine continuous_pi fun i => ?_
    have := continuous_pi_iff.1 (bound_continuous (P := P) (ρ := ρ) (x0 := x0) (t0 := t0) N fun i => dbl (A i).inf) i
    by_cases h : FinD (A i).inf
    · simp only [lo, if_pos h]; fun_prop
    · simp only [lo, if_neg h]; fun_prop
  have hhi : Continuous hi := by
    refine continuous_pi fun i => ?_
    have := continuous_pi_iff.1 (bound_continuous (P := P) (ρ := ρ) (x0 := x0) (t0 := t0) N fun i => dbl (A i).sup) i
    by_cases h : FinD (A i).sup
    · simp only [hi, if_pos h]; fun_prop
    · simp only [hi, if_neg h]; fun_prop
  -- membership in the smaller tube
  have hmem : ∀ τ, 0 ≤ τ → ∀ v, v ∈ Icc (lo τ) (hi τ) ↔ InTube P ρ x0 t0 N w τ v ∧ ∀ i, |v i - x0 i| ≤ K * τ := by
    intro τ hτ v
    rw [hbox hτ]
    constructor
    · rintro ⟨h1, h2⟩
      have hk : ∀ i, |v i - x0 i| ≤ K * τ := fun i => by
        have a1 := h1 i; have a2 := h2 i
        have b1 : x0 i - K * τ ≤ lo τ i := by simp only [lo]; split_ifs; exacts [le_max_right _ _, le_rfl]
        have b2 : hi τ i ≤ x0 i + K * τ := by simp only [hi]; split_ifs; exacts [min_le_right _ _, le_rfl]
        rw [abs_le]; constructor <;> linarith
      refine ⟨⟨fun h0 => ?_, fun i => ⟨fun hf => ?_, fun hf => ?_⟩⟩, hk⟩
      · funext i
        have := hk i
        rw [h0, mul_zero] at this
        exact sub_eq_zero.1 (abs_eq_zero.1 (le_antisymm this (abs_nonneg _)))
      · have a1 := h1 i
        simp only [lo, if_pos hf] at a1
        exact (le_max_left _ _).trans a1
      · have a1 := h2 i
        simp only [hi, if_pos hf] at a1
        exact a1.trans (min_le_left _ _)
    · rintro ⟨⟨-, h⟩, hk⟩
      constructor <;> intro i
      · have := abs_le.1 (hk i)
        simp only [lo]
        split_ifs with hf
        · exact max_le ((h i).1 hf) (by linarith)
        · linarith
      · have := abs_le.1 (hk i)
        simp only [hi]
        split_ifs with hf
        · exact le_min ((h i).2 hf) (by linarith)
        · linarith
  have hpin : ∀ τ ∈ Icc 0 T, p τ ∈ Icc (lo τ) (hi τ) := fun τ hτ => (hmem τ hτ.1 _).2 ⟨hpt τ hτ.1, fun i =>
    (norm_le_pi_norm (p τ - x0) i).trans ((hK2 τ hτ).trans (mul_le_mul_of_nonneg_right k2.le hτ.1))⟩
  have hle : ∀ τ ∈ Icc 0 T, lo τ ≤ hi τ := fun τ hτ => (hpin τ hτ).1.trans (hpin τ hτ).2
  obtain ⟨z, hz0, hz⟩ := tube_clamped (f := field P ρ t0) (x0 := x0) hT hlo.continuousOn hhi.continuousOn hle
    (fun τ hτ v hv => field_contDiffAt (hM.smooth τ hτ v ((hmem τ hτ.1 v).1 hv).1))
  have hzc : ContinuousOn z (Icc 0 T) := fun τ hτ => (hz τ hτ).continuousWithinAt
  have hzt : ∀ τ ∈ Icc 0 T, InTube P ρ x0 t0 N w τ (z τ) :=
    hM.maps (fun τ => clamp (lo τ) (hi τ) (z τ)) z (fun τ hτ => ((hmem τ hτ.1 _).1 (clamp_mem (hle τ hτ) _)).1) hz0 hz
  have heq : EqOn y z (Icc 0 T) := by
    refine ode_unique_of (f := field P ρ t0) (hy0.trans hz0.symm) hy hz fun a ha hya => ?_
    have haI := Ico_subset_Icc_self ha
    have hle' : 𝓝[≥] a ≤ 𝓝[Icc 0 T] a := by
      refine nhdsWithin_le_iff.2 ?_
      filter_upwards [Icc_mem_nhdsGE_of_mem ha] with s hs using hs
    refine ⟨field_contDiffAt (hM.smooth a haI _ (hya ▸ hzt a haI)), ?_⟩
    have hev : ∀ᶠ σ in 𝓝[Icc 0 T] a, ∀ i, |z σ i - x0 i| ≤ K * σ := by
      rcases haI.1.eq_or_lt with rfl | h0
      · have hd := hz 0 haI
        rw [clamp_of_mem ((hmem 0 le_rfl _).2 ⟨hzt 0 haI, fun i => by rw [hz0]; simp⟩), hz0] at hd
        have := hasDerivWithinAt_iff_isLittleO.1 hd
        have := this.def (sub_pos.2 k3)
        filter_upwards [this, self_mem_nhdsWithin] with σ h1 h2 i
        rw [sub_zero, Real.norm_of_nonneg h2.1, hz0] at h1
        have h3 := norm_le_pi_norm (z σ - x0 - σ • field P ρ t0 0 x0) i
        have h4 := norm_le_pi_norm (field P ρ t0 0 x0) i
        have h5 := h3.trans h1
        simp only [Pi.sub_apply, Pi.smul_apply, smul_eq_mul, Real.norm_eq_abs] at h5 h4
        have h6 : |z σ i - x0 i| ≤ |z σ i - x0 i - σ * field P ρ t0 0 x0 i| + |σ * field P ρ t0 0 x0 i| := by
          have := abs_add_le (z σ i - x0 i - σ * field P ρ t0 0 x0 i) (σ * field P ρ t0 0 x0 i)
          simpa using this
        rw [abs_mul, abs_of_nonneg h2.1] at h6
        nlinarith [mul_le_mul_of_nonneg_left h4 h2.1]
      · have h1 : ∀ i, |z a i - x0 i| < K * a := fun i => by
          rw [← hya]
          exact (norm_le_pi_norm (y a - x0) i).trans_lt ((hK1 a haI).trans_lt (mul_lt_mul_of_pos_right k1 h0))
        have hc := hzc a haI
        rw [Filter.eventually_all]
        intro i
        have hci : ContinuousWithinAt (fun σ => z σ i) (Icc 0 T) a := (continuous_apply i).continuousAt.comp_continuousWithinAt hc
        have h2 := ((hci.sub (continuousWithinAt_const (b := x0 i))).abs).eventually_lt (g := fun σ => K * σ)
          ((continuous_const.mul continuous_id).continuousWithinAt) (h1 i)
        exact h2.mono fun σ h => h.le
    filter_upwards [hev.filter_mono hle', hle' self_mem_nhdsWithin] with σ h1 h2
    rw [clamp_of_mem ((hmem σ h2.1 _).2 ⟨hzt σ h2, h1⟩)]
  intro τ hτ
  rw [heq hτ]; exact hzt τ hτ

end Ode
end Kv
