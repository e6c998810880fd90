import Mathlib.Analysis.ODE.ExistUnique
import Mathlib.Analysis.Calculus.MeanValue
import Mathlib.Analysis.Calculus.ContDiff.RCLike
import Mathlib.Topology.Order.IntermediateValue

/-!
# A Picard–Lindelöf theorem for tubes

If the Picard operator maps the curves in a tube of boxes into the tube, the initial value problem has a solution in it.
-/

namespace Kv
open Set Metric
open scoped NNReal Topology

variable {n : ℕ}

/-- nearest point of a box -/
def clamp (l h v : Fin n → ℝ) : Fin n → ℝ := fun i => max (l i) (min (v i) (h i))

theorem clamp_mem {l h : Fin n → ℝ} (hl : l ≤ h) (v : Fin n → ℝ) : clamp l h v ∈ Icc l h :=
  ⟨fun _ => le_max_left _ _, fun i => max_le (hl i) (min_le_right _ _)⟩

theorem clamp_of_mem {l h v : Fin n → ℝ} (hv : v ∈ Icc l h) : clamp l h v = v := by
  funext i
  unfold clamp
  rw [min_eq_left (hv.2 i), max_eq_right (hv.1 i)]

theorem clamp_lipschitz (l h : Fin n → ℝ) : LipschitzWith 1 (clamp l h) := by
  refine LipschitzWith.of_dist_le_mul fun v w => ?_
  rw [NNReal.coe_one, one_mul, dist_pi_le_iff dist_nonneg]
  intro i
  rw [Real.dist_eq]
  refine le_trans ?_ (dist_le_pi_dist v w i)
  rw [Real.dist_eq]
  unfold clamp
  refine (abs_max_sub_max_le_max _ _ _ _).trans ?_
  rw [sub_self, abs_zero, max_eq_right (abs_nonneg _)]
  refine (abs_min_sub_min_le_max _ _ _ _).trans ?_
  rw [sub_self, abs_zero, max_eq_left (abs_nonneg _)]

section
variable {T : ℝ} {lo hi : ℝ → Fin n → ℝ} {f : ℝ → (Fin n → ℝ) → Fin n → ℝ} {x0 : Fin n → ℝ}

/-- the graph of the tube -/
def tubeG (T : ℝ) (lo hi : ℝ → Fin n → ℝ) : Set (ℝ × (Fin n → ℝ)) := {z | z.1 ∈ Icc 0 T ∧ z.2 ∈ Icc (lo z.1) (hi z.1)}

theorem tubeG_compact (hlo : ContinuousOn lo (Icc 0 T)) (hhi : ContinuousOn hi (Icc 0 T)) (hle : ∀ τ ∈ Icc (0 : ℝ) T, lo τ ≤ hi τ) :
    IsCompact (tubeG T lo hi) := by
  obtain ⟨B, hB⟩ := (isCompact_Icc.image_of_continuousOn hlo).isBounded.exists_norm_le
  obtain ⟨B', hB'⟩ := (isCompact_Icc.image_of_continuousOn hhi).isBounded.exists_norm_le
  -- image of the compact `[0,T] × [-M,M]^n` under the clamping map
  set M : ℝ := max B B'
  have hK : IsCompact (Icc (0 : ℝ) T ×ˢ closedBall (0 : Fin n → ℝ) M) := isCompact_Icc.prod (isCompact_closedBall _ _)
  have hc : ContinuousOn (fun z : ℝ × (Fin n → ℝ) => (z.1, clamp (lo z.1) (hi z.1) z.2)) (Icc (0 : ℝ) T ×ˢ closedBall (0 : Fin n → ℝ) M) := by
    refine continuousOn_fst.prodMk (continuousOn_pi.2 fun i => ?_)
    unfold clamp
    have h1 : ContinuousOn (fun z : ℝ × (Fin n → ℝ) => lo z.1 i) (Icc (0 : ℝ) T ×ˢ closedBall (0 : Fin n → ℝ) M) :=
      (continuousOn_pi.1 hlo i).comp continuousOn_fst fun z hz => hz.1
    have h2 : ContinuousOn (fun z : ℝ × (Fin n → ℝ) => hi z.1 i) (Icc (0 : ℝ) T ×ˢ closedBall (0 : Fin n → ℝ) M) :=
      (continuousOn_pi.1 hhi i).comp continuousOn_fst fun z hz => hz.1
    have h3 : ContinuousOn (fun z : ℝ × (Fin n → ℝ) => z.2 i) (Icc (0 : ℝ) T ×ˢ closedBall (0 : Fin n → ℝ) M) :=
      ((continuous_apply i).comp continuous_snd).continuousOn
    exact h1.sup (h3.inf h2)
  have := hK.image_of_continuousOn hc
  convert this using 1
  ext z
  constructor
  · rintro ⟨h1, h2⟩
    refine ⟨z, ⟨h1, ?_⟩, by dsimp only; rw [clamp_of_mem h2]⟩
    rw [mem_closedBall, dist_zero_right]
    rcases le_or_gt 0 M with hM | hM
    · rw [pi_norm_le_iff_of_nonneg hM]
      intro i
      rw [Real.norm_eq_abs, abs_le]
      have a1 := (norm_le_pi_norm (lo z.1) i).trans (hB _ ⟨_, h1, rfl⟩)
      have a2 := (norm_le_pi_norm (hi z.1) i).trans (hB' _ ⟨_, h1, rfl⟩)
      rw [Real.norm_eq_abs, abs_le] at a1 a2
      have b1 := h2.1 i
      have b2 := h2.2 i
      have c1 : B ≤ M := le_max_left _ _
      have c2 : B' ≤ M := le_max_right _ _
      constructor <;> linarith
    · have := (norm_nonneg (lo z.1)).trans ((hB _ ⟨_, h1, rfl⟩).trans (le_max_left B B'))
      exact absurd this (not_le.2 hM)
  · rintro ⟨w, ⟨h1, -⟩, rfl⟩
    exact ⟨h1, clamp_mem (hle _ h1) _⟩

/-- existence for the right-hand side behind a projection to the tube -/
theorem tube_clamped (hT : 0 ≤ T) (hlo : ContinuousOn lo (Icc 0 T)) (hhi : ContinuousOn hi (Icc 0 T))
    (hle : ∀ τ ∈ Icc (0 : ℝ) T, lo τ ≤ hi τ)
    (hf : ∀ τ ∈ Icc (0 : ℝ) T, ∀ v ∈ Icc (lo τ) (hi τ), ContDiffAt ℝ 1 (fun z : ℝ × (Fin n → ℝ) => f z.1 z.2) (τ, v)) :
    ∃ y : ℝ → Fin n → ℝ, y 0 = x0 ∧ ∀ τ ∈ Icc (0 : ℝ) T, HasDerivWithinAt y (f τ (clamp (lo τ) (hi τ) (y τ))) (Icc 0 T) τ := by
  have hG := tubeG_compact hlo hhi hle
  set F : ℝ × (Fin n → ℝ) → Fin n → ℝ := fun z => f z.1 z.2 with hF
  have hFG : ∀ z ∈ tubeG T lo hi, ContDiffAt ℝ 1 F z := fun z hz => hf z.1 hz.1 z.2 hz.2
  have hFc : ContinuousOn F (tubeG T lo hi) := fun z hz => (hFG z hz).continuousAt.continuousWithinAt
  have hDc : ContinuousOn (fderiv ℝ F) (tubeG T lo hi) := fun z hz =>
    ((hFG z hz).fderiv_right (m := 0) (by simp)).continuousAt.continuousWithinAt
  obtain ⟨L, hL⟩ := hG.exists_bound_of_continuousOn hFc
  obtain ⟨C, hC⟩ := hG.exists_bound_of_continuousOn hDc
  have hLip : ∀ τ ∈ Icc (0 : ℝ) T, LipschitzOnWith C.toNNReal (f τ) (Icc (lo τ) (hi τ)) := by
    intro τ hτ
    refine (convex_Icc (lo τ) (hi τ)).lipschitzOnWith_of_nnnorm_hasFDerivWithin_le
      (f' := fun v => (fderiv ℝ F (τ, v)).comp (ContinuousLinearMap.inr ℝ ℝ (Fin n → ℝ))) ?_ ?_
    · intro v hv
      have h1 := ((hFG (τ, v) ⟨hτ, hv⟩).differentiableAt (by simp)).hasFDerivAt
      have h2 : HasFDerivAt (fun w : Fin n → ℝ => (τ, w)) (ContinuousLinearMap.inr ℝ ℝ (Fin n → ℝ)) v :=
        hasFDerivAt_prodMk_right τ v
      exact (h1.comp v h2).hasFDerivWithinAt
    · intro v hv
      rw [← NNReal.coe_le_coe, coe_nnnorm]
      refine (ContinuousLinearMap.opNorm_comp_le _ _).trans ?_
      refine (mul_le_of_le_one_right (norm_nonneg _) (ContinuousLinearMap.norm_inr_le_one ℝ ℝ (Fin n → ℝ))).trans ?_
      exact (hC (τ, v) ⟨hτ, hv⟩).trans (Real.le_coe_toNNReal C)
  set g : ℝ → (Fin n → ℝ) → Fin n → ℝ := fun τ v => f τ (clamp (lo τ) (hi τ) v) with hg
  have hgb : ∀ τ ∈ Icc (0 : ℝ) T, ∀ v, ‖g τ v‖ ≤ L := fun τ hτ v => hL (τ, _) ⟨hτ, clamp_mem (hle τ hτ) v⟩
  have hPL : IsPicardLindelof g (⟨0, le_refl 0, hT⟩ : Icc (0 : ℝ) T) x0 (L.toNNReal * T.toNNReal) 0 L.toNNReal C.toNNReal := by
    refine ⟨fun τ hτ => ?_, fun v _ => ?_, fun τ hτ v _ => ?_, ?_⟩
    · have := (hLip τ hτ).comp ((clamp_lipschitz (lo τ) (hi τ)).lipschitzOnWith (s := univ)) fun v _ => clamp_mem (hle τ hτ) v
      rw [mul_one] at this
      exact this.mono (subset_univ _)
    · refine hFc.comp (f := fun τ => (τ, clamp (lo τ) (hi τ) v)) (continuousOn_id.prodMk (continuousOn_pi.2 fun i => ?_))
        fun τ hτ => ⟨hτ, clamp_mem (hle τ hτ) v⟩
      exact (continuousOn_pi.1 hlo i).sup (continuousOn_const.inf (continuousOn_pi.1 hhi i))
    · exact (hgb τ hτ v).trans (Real.le_coe_toNNReal L)
    · simp [hT]
  exact hPL.exists_eq_forall_mem_Icc_hasDerivWithinAt₀

/-- existence in a tube -/
theorem tube_exists (hT : 0 ≤ T) (hlo : ContinuousOn lo (Icc 0 T)) (hhi : ContinuousOn hi (Icc 0 T))
    (hle : ∀ τ ∈ Icc (0 : ℝ) T, lo τ ≤ hi τ)
    (hf : ∀ τ ∈ Icc (0 : ℝ) T, ∀ v ∈ Icc (lo τ) (hi τ), ContDiffAt ℝ 1 (fun z : ℝ × (Fin n → ℝ) => f z.1 z.2) (τ, v))
    (hself : ∀ v P : ℝ → Fin n → ℝ, ContinuousOn v (Icc 0 T) → (∀ τ ∈ Icc (0 : ℝ) T, v τ ∈ Icc (lo τ) (hi τ)) → P 0 = x0 →
      (∀ τ ∈ Icc (0 : ℝ) T, HasDerivWithinAt P (f τ (v τ)) (Icc 0 T) τ) → ∀ τ ∈ Icc (0 : ℝ) T, P τ ∈ Icc (lo τ) (hi τ)) :
    ∃ y : ℝ → Fin n → ℝ, y 0 = x0 ∧ ∀ τ ∈ Icc (0 : ℝ) T, HasDerivWithinAt y (f τ (y τ)) (Icc 0 T) τ ∧ y τ ∈ Icc (lo τ) (hi τ) := by
  obtain ⟨y, hy0, hy⟩ := tube_clamped (x0 := x0) hT hlo hhi hle hf
  have hyc : ContinuousOn y (Icc 0 T) := fun τ hτ => (hy τ hτ).continuousWithinAt
  have hin := hself (fun τ => clamp (lo τ) (hi τ) (y τ)) y (continuousOn_pi.2 fun i =>
      (continuousOn_pi.1 hlo i).sup ((continuousOn_pi.1 hyc i).inf (continuousOn_pi.1 hhi i)))
    (fun τ hτ => clamp_mem (hle τ hτ) _) hy0 hy
  refine ⟨y, hy0, fun τ hτ => ⟨?_, hin τ hτ⟩⟩
  have := hy τ hτ
  rwa [clamp_of_mem (hin τ hτ)] at this

/-- uniqueness, for a curve that solves the equation where it meets the solution -/
theorem ode_unique_of {y z : ℝ → Fin n → ℝ} {dz : ℝ → Fin n → ℝ} (h0 : y 0 = z 0) (hy : ∀ τ ∈ Icc (0 : ℝ) T, HasDerivWithinAt y (f τ (y τ)) (Icc 0 T) τ)
    (hz : ∀ τ ∈ Icc (0 : ℝ) T, HasDerivWithinAt z (dz τ) (Icc 0 T) τ)
    (hf : ∀ τ ∈ Ico (0 : ℝ) T, y τ = z τ → ContDiffAt ℝ 1 (fun z : ℝ × (Fin n → ℝ) => f z.1 z.2) (τ, y τ) ∧
      ∀ᶠ σ in 𝓝[≥] τ, dz σ = f σ (z σ)) : EqOn y z (Icc 0 T) := by
  have hyc : ContinuousOn y (Icc 0 T) := fun τ hτ => (hy τ hτ).continuousWithinAt
  have hzc : ContinuousOn z (Icc 0 T) := fun τ hτ => (hz τ hτ).continuousWithinAt
  set s : Set ℝ := {τ | y τ = z τ} with hs
  have hcl : IsClosed (s ∩ Icc 0 T) := by
    have := (hyc.prodMk hzc).preimage_isClosed_of_isClosed isClosed_Icc (isClosed_diagonal (X := Fin n → ℝ))
    convert this using 1
    ext τ
    simp [hs, mem_diagonal_iff, and_comm]
  refine fun τ hτ => IsClosed.Icc_subset_of_forall_mem_nhdsWithin hcl (show y 0 = z 0 from h0) ?_ hτ
  intro a ⟨ha, haT⟩
  have haI : a ∈ Icc (0 : ℝ) T := Ico_subset_Icc_self haT
  obtain ⟨hfa, hdz⟩ := hf a haT ha
  obtain ⟨K, U, hU, hK⟩ := hfa.exists_lipschitzOnWith
  have hay : ∀ᶠ τ in 𝓝[Icc 0 T] a, (τ, y τ) ∈ U :=
    (continuousWithinAt_id.prodMk (hyc a haI)).eventually (show U ∈ 𝓝 (id a, y a) from hU)
  have haz : ∀ᶠ τ in 𝓝[Icc 0 T] a, (τ, z τ) ∈ U :=
    (continuousWithinAt_id.prodMk (hzc a haI)).eventually (show U ∈ 𝓝 (id a, z a) by rw [← show y a = z a from ha]; exact hU)
  have hr : ∀ᶠ τ in 𝓝[≥] a, ((τ, y τ) ∈ U ∧ (τ, z τ) ∈ U) ∧ dz τ = f τ (z τ) := by
    have hle : 𝓝[≥] a ≤ 𝓝[Icc 0 T] a := by
      rw [nhdsWithin_le_iff]
      filter_upwards [Icc_mem_nhdsGE haT.2] with τ hτ using ⟨haT.1.trans hτ.1, hτ.2⟩
    exact ((hay.and haz).filter_mono hle).and hdz
  obtain ⟨b, hab, hb⟩ := (mem_nhdsGE_iff_exists_mem_Ioc_Ico_subset haT.2).1 hr
  have hsub : Icc a ((a + b) / 2) ⊆ Icc 0 T := fun τ hτ => ⟨haT.1.trans hτ.1, by have := hab.1; have := hab.2; linarith [hτ.2]⟩
  have hder : ∀ {w dw : ℝ → Fin n → ℝ}, (∀ τ ∈ Icc (0 : ℝ) T, HasDerivWithinAt w (dw τ) (Icc 0 T) τ) →
      ∀ τ ∈ Ico a ((a + b) / 2), HasDerivWithinAt w (dw τ) (Ici τ) τ := by
    intro w dw hw τ hτ
    have hτT : τ < T := by have := hab.1; have := hab.2; linarith [hτ.2]
    have h0τ : 0 ≤ τ := haT.1.trans hτ.1
    refine (hw τ ⟨h0τ, hτT.le⟩).mono_of_mem_nhdsWithin ?_
    filter_upwards [Icc_mem_nhdsGE hτT] with σ hσ using ⟨h0τ.trans hσ.1, hσ.2⟩
  have hmid : ∀ τ ∈ Ico a ((a + b) / 2), τ ∈ Ico a b := fun τ hτ => ⟨hτ.1, by have := hab.1; linarith [hτ.2]⟩
  have := ODE_solution_unique_of_mem_Icc_right (v := f) (K := K) (s := fun τ => {v | (τ, v) ∈ U}) (a := a) (b := (a + b) / 2) (f := y) (g := z)
    (fun τ _ v hv w hw => by
      have := hK hv hw
      rwa [Prod.edist_eq, edist_self, max_eq_right (zero_le)] at this)
    (hyc.mono hsub) (hder hy) (fun τ hτ => (hb (hmid τ hτ)).1.1) (hzc.mono hsub)
    (fun τ hτ => (hb (hmid τ hτ)).2 ▸ hder hz τ hτ) (fun τ hτ => (hb (hmid τ hτ)).1.2) ha
  have hab' := hab.1
  filter_upwards [Ioc_mem_nhdsGT (show a < (a + b) / 2 by linarith)] with τ hτ
  exact this ⟨hτ.1.le, hτ.2⟩

/-- uniqueness -/
theorem ode_unique {y z : ℝ → Fin n → ℝ} (h0 : y 0 = z 0) (hy : ∀ τ ∈ Icc (0 : ℝ) T, HasDerivWithinAt y (f τ (y τ)) (Icc 0 T) τ)
    (hz : ∀ τ ∈ Icc (0 : ℝ) T, HasDerivWithinAt z (f τ (z τ)) (Icc 0 T) τ)
    (hf : ∀ τ ∈ Icc (0 : ℝ) T, ContDiffAt ℝ 1 (fun z : ℝ × (Fin n → ℝ) => f z.1 z.2) (τ, y τ)) : EqOn y z (Icc 0 T) :=
  ode_unique_of h0 hy hz fun τ hτ _ => ⟨hf τ (Ico_subset_Icc_self hτ), Filter.Eventually.of_forall fun _ => rfl⟩

/-- a differentiable curve stays in a cone -/
theorem exists_cone {g : ℝ → Fin n → ℝ} {g' : Fin n → ℝ} (hc : ContinuousOn g (Icc 0 T)) (hg : HasDerivWithinAt g g' (Icc 0 T) 0) :
    ∃ K, ∀ τ ∈ Icc (0 : ℝ) T, ‖g τ - g 0‖ ≤ K * τ := by
  obtain ⟨B, hB⟩ := isCompact_Icc.exists_bound_of_continuousOn (hc.sub (continuousOn_const (c := g 0)))
  obtain ⟨C, hC⟩ := hg.hasFDerivWithinAt.isBigO_sub.bound
  obtain ⟨ε, hε, hE⟩ := Metric.mem_nhdsWithin_iff.1 hC
  refine ⟨max C (B / ε), fun τ hτ => ?_⟩
  by_cases h : τ < ε
  · have : ‖g τ - g 0‖ ≤ C * ‖τ - 0‖ := hE ⟨by rw [Metric.mem_ball, Real.dist_eq, sub_zero, abs_of_nonneg hτ.1]; exact h, hτ⟩
    rw [sub_zero, Real.norm_of_nonneg hτ.1] at this
    exact this.trans (mul_le_mul_of_nonneg_right (le_max_left _ _) hτ.1)
  · have h1 := hB τ hτ
    have hB0 : 0 ≤ B := (norm_nonneg _).trans h1
    have h2 : B ≤ B / ε * τ := by
      rw [div_mul_eq_mul_div, le_div_iff₀ hε]
      exact mul_le_mul_of_nonneg_left (not_lt.1 h) hB0
    exact (h1.trans h2).trans (mul_le_mul_of_nonneg_right (le_max_right _ _) hτ.1)

end
end Kv
