import Verif.Psa.Eval
import Mathlib.Analysis.Asymptotics.Lemmas
import Mathlib.Analysis.Calculus.MeanValue
import Mathlib.Analysis.SpecialFunctions.Trigonometric.InverseDeriv
import Mathlib.Analysis.SpecialFunctions.Trigonometric.ArctanDeriv
import Mathlib.Analysis.SpecialFunctions.Arsinh

/-! # Taylor coefficients of composed functions -/

namespace Kv
open PowerSeries Asymptotics Filter Topology
open scoped Nat

/-- `a₀, ..., a_{m-1}` are the Taylor coefficients of `g` at 0 -/
def HasT (m : ℕ) (g : ℝ → ℝ) (a : ℕ → ℝ) : Prop :=
  (fun t => g t - ∑ k ∈ Finset.range m, a k * t ^ k) =O[𝓝 0] fun t => t ^ m

namespace HasT
variable {m : ℕ} {f g : ℝ → ℝ} {a b : ℕ → ℝ}

theorem congr_fun (h : HasT m f a) (e : f =ᶠ[𝓝 0] g) : HasT m g a := by
  unfold HasT at *
  refine h.congr' (e.mono fun t ht => by simp only [ht]) EventuallyEq.rfl

theorem congr_co (h : HasT m f a) (e : ∀ k < m, a k = b k) : HasT m f b := by
  unfold HasT at *
  refine h.congr (fun t => ?_) (fun _ => rfl)
  congr 1
  exact Finset.sum_congr rfl fun k hk => by rw [e k (Finset.mem_range.1 hk)]

theorem poly (m : ℕ) (a : ℕ → ℝ) : HasT m (fun t => ∑ k ∈ Finset.range m, a k * t ^ k) a := by
  unfold HasT
  simpa using isBigO_zero (fun t : ℝ => t ^ m) (𝓝 0)

/-- a longer polynomial -/
theorem poly' (m N : ℕ) (a : ℕ → ℝ) (hN : m ≤ N) : HasT m (fun t => ∑ k ∈ Finset.range N, a k * t ^ k) a := by
  unfold HasT
  obtain ⟨j, rfl⟩ := Nat.exists_eq_add_of_le hN
  have e : (fun t : ℝ => ∑ k ∈ Finset.range (m + j), a k * t ^ k - ∑ k ∈ Finset.range m, a k * t ^ k) =
      fun t => t ^ m * ∑ k ∈ Finset.range j, a (m + k) * t ^ k := by
    funext t
    rw [Finset.sum_range_add, add_sub_cancel_left, Finset.mul_sum]
    exact Finset.sum_congr rfl fun k _ => by rw [pow_add]; ring
  rw [e]
  have hc : (fun t : ℝ => ∑ k ∈ Finset.range j, a (m + k) * t ^ k) =O[𝓝 0] fun _ => (1 : ℝ) := by
    have : ContinuousAt (fun t : ℝ => ∑ k ∈ Finset.range j, a (m + k) * t ^ k) 0 := by fun_prop
    exact this.isBigO_one ℝ
  simpa using (isBigO_refl (fun t : ℝ => t ^ m) (𝓝 0)).mul hc

theorem add (hf : HasT m f a) (hg : HasT m g b) : HasT m (fun t => f t + g t) (fun k => a k + b k) := by
  unfold HasT at *
  refine (IsBigO.add hf hg).congr (fun t => ?_) (fun _ => rfl)
  simp only [add_mul, Finset.sum_add_distrib]; ring

theorem smul (γ : ℝ) (hf : HasT m f a) : HasT m (fun t => γ * f t) (fun k => γ * a k) := by
  unfold HasT at *
  refine (IsBigO.const_mul_left hf γ).congr (fun t => ?_) (fun _ => rfl)
  simp only [mul_sub, Finset.mul_sum, mul_assoc]

theorem neg (hf : HasT m f a) : HasT m (fun t => -f t) (fun k => -a k) := by
  simpa using hf.smul (-1)

theorem sum {ι : Type} {s : Finset ι} {f : ι → ℝ → ℝ} {a : ι → ℕ → ℝ} (h : ∀ i ∈ s, HasT m (f i) (a i)) :
    HasT m (fun t => ∑ i ∈ s, f i t) (fun k => ∑ i ∈ s, a i k) := by
  unfold HasT at *
  refine (IsBigO.sum h).congr (fun t => ?_) (fun _ => rfl)
  rw [Finset.sum_apply, Finset.sum_sub_distrib]
  congr 1
  rw [Finset.sum_comm]
  exact Finset.sum_congr rfl fun k _ => by rw [Finset.sum_mul]

theorem bdd (hf : HasT m f a) : f =O[𝓝 0] fun _ => (1 : ℝ) := by
  unfold HasT at hf
  have h1 : (fun t : ℝ => t ^ m) =O[𝓝 0] fun _ => (1 : ℝ) := by
    have : ContinuousAt (fun t : ℝ => t ^ m) 0 := by fun_prop
    exact this.isBigO_one ℝ
  have h2 : (fun t : ℝ => ∑ k ∈ Finset.range m, a k * t ^ k) =O[𝓝 0] fun _ => (1 : ℝ) := by
    have : ContinuousAt (fun t : ℝ => ∑ k ∈ Finset.range m, a k * t ^ k) 0 := by fun_prop
    exact this.isBigO_one ℝ
  refine ((hf.trans h1).add h2).congr (fun t => by ring) (fun _ => rfl)

theorem mul {ca cb : PowerSeries ℝ} (hf : HasT m f fun k => coeff k ca) (hg : HasT m g fun k => coeff k cb) :
    HasT m (fun t => f t * g t) (fun k => coeff k (ca * cb)) := by
  -- the product of the polynomials
  let p := Psa.cut m fun k => coeff k ca
  let q := Psa.cut m fun k => coeff k cb
  have hp : ∀ j, m ≤ j → p j = 0 := fun j hj => by simp only [p, Psa.cut]; rw [if_neg (by omega)]
  have hq : ∀ j, m ≤ j → q j = 0 := fun j hj => by simp only [q, Psa.cut]; rw [if_neg (by omega)]
  have ep : ∀ t : ℝ, ∑ k ∈ Finset.range m, p k * t ^ k = ∑ k ∈ Finset.range m, coeff k ca * t ^ k := fun t =>
    Finset.sum_congr rfl fun k hk => by simp only [p, Psa.cut]; rw [if_pos (Finset.mem_range.1 hk)]
  have eq : ∀ t : ℝ, ∑ k ∈ Finset.range m, q k * t ^ k = ∑ k ∈ Finset.range m, coeff k cb * t ^ k := fun t =>
    Finset.sum_congr rfl fun k hk => by simp only [q, Psa.cut]; rw [if_pos (Finset.mem_range.1 hk)]
  have hpoly := poly' m (2 * m) (Psa.cv p q) (by omega)
  have hc : ∀ k < m, Psa.cv p q k = coeff k (ca * cb) := fun k hk => by
    refine Psa.cv_coeff (fun i hi => ?_) (fun i hi => ?_)
    · simp only [p, Psa.cut]; rw [if_pos (by omega)]
    · simp only [q, Psa.cut]; rw [if_pos (by omega)]
  have hpoly := hpoly.congr_co hc
  have hbB : (fun t : ℝ => ∑ k ∈ Finset.range m, coeff k ca * t ^ k) =O[𝓝 0] fun _ => (1 : ℝ) :=
    (poly m fun k => coeff k ca).bdd
  have h1 := (show (fun t => f t - ∑ k ∈ Finset.range m, coeff k ca * t ^ k) =O[𝓝 0] fun t => t ^ m from hf).mul hg.bdd
  have h2 := hbB.mul (show (fun t => g t - ∑ k ∈ Finset.range m, coeff k cb * t ^ k) =O[𝓝 0] fun t => t ^ m from hg)
  simp only [mul_one, one_mul] at h1 h2
  unfold HasT at hpoly ⊢
  refine ((h1.add h2).add hpoly).congr (fun t => ?_) (fun _ => rfl)
  have := Psa.sum_mul_poly hp hq t
  rw [ep, eq] at this
  simp only
  rw [← this]
  ring

theorem const (m : ℕ) (γ : ℝ) : HasT m (fun _ => γ) (fun k => coeff k (C γ)) := by
  rcases m with _ | m
  · unfold HasT
    simpa using isBigO_const_const γ (one_ne_zero (α := ℝ)) (𝓝 (0 : ℝ))
  · refine (poly (m + 1) fun k => coeff k (C γ)).congr_fun (Eventually.of_forall fun t => ?_)
    simp only
    rw [Finset.sum_eq_single 0]
    · simp
    · intro k _ hk; rw [PowerSeries.coeff_C, if_neg hk, zero_mul]
    · intro h; simp at h

theorem pow {c : PowerSeries ℝ} (hf : HasT m f fun k => coeff k c) : ∀ i, HasT m (fun t => f t ^ i) (fun k => coeff k (c ^ i))
  | 0 => by
    have := const m 1
    simpa using this
  | i + 1 => by
    have := (pow hf i).mul hf
    simpa only [pow_succ] using this

/-- coefficients are determined -/
theorem unique (hf : HasT m f a) (hg : HasT m f b) : ∀ k < m, a k = b k := by
  have h := hf.add hg.neg
  have e : (fun t => f t + -f t) = fun _ : ℝ => (0 : ℝ) := by funext t; ring
  rw [e] at h
  intro k
  induction k using Nat.strong_induction_on with
  | _ k ih =>
    intro hk
    -- the lowest coefficient that could differ
    have h1 : (fun t : ℝ => (a k - b k) * t ^ k) =O[𝓝 0] fun t => t ^ (k + 1) := by
      unfold HasT at h
      have h2 : (fun t : ℝ => ∑ j ∈ Finset.range m, (a j + -b j) * t ^ j) =O[𝓝 0] fun t => t ^ m := by
        simpa using h.neg_left
      have h3 : (fun t : ℝ => t ^ m) =O[𝓝 0] fun t => t ^ (k + 1) := by
        obtain ⟨j, rfl⟩ := Nat.exists_eq_add_of_le (show k + 1 ≤ m by omega)
        have hc : (fun t : ℝ => t ^ j) =O[𝓝 0] fun _ => (1 : ℝ) := by
          have : ContinuousAt (fun t : ℝ => t ^ j) 0 := by fun_prop
          exact this.isBigO_one ℝ
        simpa [pow_add] using (isBigO_refl (fun t : ℝ => t ^ (k + 1)) (𝓝 0)).mul hc
      have h4 := h2.trans h3
      have h5 := poly' (k + 1) m (fun j => a j + -b j) (by omega)
      unfold HasT at h5
      refine (h4.sub h5).congr (fun t => ?_) (fun _ => rfl)
      rw [sub_sub_cancel, Finset.sum_range_succ, Finset.sum_eq_zero]
      · ring
      · intro j hj
        have := Finset.mem_range.1 hj
        simp only
        rw [ih j this (by omega)]; ring
    by_contra hne
    have hne' : a k - b k ≠ 0 := sub_ne_zero.2 hne
    have h2 : (fun t : ℝ => t ^ k) =O[𝓝[≠] 0] fun t => t ^ (k + 1) := by
      have := (h1.mono (nhdsWithin_le_nhds (s := {0}ᶜ))).const_mul_left (a k - b k)⁻¹
      refine this.congr (fun t => ?_) (fun _ => rfl)
      field_simp
    have h3 : (fun t : ℝ => (1 : ℝ)) =O[𝓝[≠] 0] fun t => t := by
      have hm : (fun t : ℝ => (t ^ k)⁻¹) =O[𝓝[≠] 0] fun t => (t ^ k)⁻¹ := isBigO_refl _ _
      refine (h2.mul hm).congr' ?_ ?_
      · filter_upwards [self_mem_nhdsWithin] with t ht
        exact mul_inv_cancel₀ (pow_ne_zero k ht)
      · filter_upwards [self_mem_nhdsWithin] with t ht
        rw [pow_succ]
        have := pow_ne_zero k ht
        field_simp
    have h4 : Tendsto (fun t : ℝ => t) (𝓝[≠] 0) (𝓝 0) := tendsto_id.mono_left nhdsWithin_le_nhds
    have h5 := h3.trans_tendsto h4
    have := tendsto_nhds_unique h5 tendsto_const_nhds
    exact one_ne_zero this.symm

theorem tendsto (hf : HasT m f a) (hm : 1 ≤ m) : Tendsto f (𝓝 0) (𝓝 (a 0)) := by
  have h1 : Tendsto (fun t => f t - ∑ k ∈ Finset.range m, a k * t ^ k) (𝓝 0) (𝓝 0) := by
    refine IsBigO.trans_tendsto hf ?_
    have : ContinuousAt (fun t : ℝ => t ^ m) 0 := by fun_prop
    have h := this.tendsto
    rwa [zero_pow (by omega)] at h
  have h2 : Tendsto (fun t : ℝ => ∑ k ∈ Finset.range m, a k * t ^ k) (𝓝 0) (𝓝 (a 0)) := by
    have : ContinuousAt (fun t : ℝ => ∑ k ∈ Finset.range m, a k * t ^ k) 0 := by fun_prop
    have h := this.tendsto
    convert h using 2
    rw [Finset.sum_eq_single 0]
    · simp
    · intro k _ hk; rw [zero_pow hk, mul_zero]
    · intro h0; exact absurd (Finset.mem_range.2 (by omega)) h0
  simpa using h1.add h2

/-- the first-order part -/
theorem sub_isBigO (hf : HasT m f a) (hm : 1 ≤ m) : (fun t => f t - a 0) =O[𝓝 0] fun t => t := by
  have h3 : (fun t : ℝ => t ^ m) =O[𝓝 0] fun t => t := by
    obtain ⟨j, rfl⟩ := Nat.exists_eq_add_of_le hm
    have hc : (fun t : ℝ => t ^ j) =O[𝓝 0] fun _ => (1 : ℝ) := by
      have : ContinuousAt (fun t : ℝ => t ^ j) 0 := by fun_prop
      exact this.isBigO_one ℝ
    simpa [pow_add] using (isBigO_refl (fun t : ℝ => t) (𝓝 0)).mul hc
  have h5 := poly' 1 m a hm
  unfold HasT at hf h5
  refine ((hf.trans h3).add (by simpa using h5)).congr (fun t => ?_) (fun _ => rfl)
  simp

/-- composition -/
theorem comp {c : PowerSeries ℝ} {F : ℝ → ℝ} (hf : HasT m f fun k => coeff k c) (hm : 1 ≤ m)
    (hF : HasT m (fun h => F (coeff 0 c + h)) a) : HasT m (fun t => F (f t)) (fun k => coeff k (Psa.comp a (c - C (coeff 0 c)))) := by
  have h0 : coeff 0 (c - C (coeff 0 c)) = 0 := by simp
  have hsub : HasT m (fun t => f t - coeff 0 c) (fun k => coeff k (c - C (coeff 0 c))) := by
    have := hf.add (const m (coeff 0 c)).neg
    refine (this.congr_fun (Eventually.of_forall fun t => by simp only; ring)).congr_co fun k _ => ?_
    rw [map_sub]; ring
  have ht : Tendsto (fun t => f t - coeff 0 c) (𝓝 0) (𝓝 0) := by
    simpa using (hf.tendsto hm).sub_const (coeff 0 c)
  have hb : (fun t => f t - coeff 0 c) =O[𝓝 0] fun t => t := hf.sub_isBigO hm
  have h1 : (fun t => F (f t) - ∑ k ∈ Finset.range m, a k * (f t - coeff 0 c) ^ k) =O[𝓝 0] fun t => t ^ m := by
    unfold HasT at hF
    have := (hF.comp_tendsto ht).trans (hb.pow m)
    refine this.congr (fun t => ?_) (fun _ => rfl)
    simp
  have h2 : HasT m (fun t => ∑ k ∈ Finset.range m, a k * (f t - coeff 0 c) ^ k)
      (fun k => ∑ i ∈ Finset.range m, a i * coeff k ((c - C (coeff 0 c)) ^ i)) :=
    HasT.sum fun i _ => (hsub.pow i).smul (a i)
  have h3 : HasT m (fun t => F (f t)) (fun k => ∑ i ∈ Finset.range m, a i * coeff k ((c - C (coeff 0 c)) ^ i)) := by
    unfold HasT at h2 ⊢
    exact (h1.add h2).congr (fun t => by ring) (fun _ => rfl)
  refine h3.congr_co fun k hk => ?_
  rw [← Psa.coeff_psum h0 (show k ≤ m - 1 by omega), Psa.psum, map_sum, show m - 1 + 1 = m by omega]
  exact Finset.sum_congr rfl fun i _ => by rw [PowerSeries.coeff_C_mul]

/-- Taylor's theorem -/
theorem taylor {F : ℕ → ℝ → ℝ} {D : Set ℝ} (hD : IsOpen D) (hF : ∀ k, ∀ t ∈ D, HasDerivAt (F k) (F (k + 1) t) t) {c0 : ℝ}
    (h0 : c0 ∈ D) (m : ℕ) : HasT m (fun h => F 0 (c0 + h)) (Psa.tcf F c0) := by
  obtain ⟨ε, hε, hball⟩ := Metric.isOpen_iff.1 hD c0 h0
  have hbd : (F m) =O[𝓝 c0] fun _ => (1 : ℝ) := (hF m c0 h0).continuousAt.isBigO_one ℝ
  obtain ⟨K, hK⟩ := hbd.bound
  obtain ⟨δ, hδ, hKδ⟩ := Metric.eventually_nhds_iff_ball.1 hK
  unfold HasT
  refine IsBigO.of_bound (K / m !) ?_
  have hmin : 0 < min ε δ := lt_min hε hδ
  filter_upwards [Metric.ball_mem_nhds (0 : ℝ) hmin] with h hh
  have hh' : |h| < min ε δ := by simpa using hh
  have hin : ∀ t ∈ Set.uIcc c0 (c0 + h), |t - c0| < min ε δ := by
    intro t ht
    refine lt_of_le_of_lt ?_ hh'
    rcases Set.mem_uIcc.1 ht with ⟨h1, h2⟩ | ⟨h1, h2⟩
    · rw [abs_of_nonneg (by linarith)]; exact le_trans (by linarith) (le_abs_self h)
    · rw [abs_of_nonpos (by linarith)]; exact le_trans (by linarith) (neg_le_abs h)
  obtain ⟨ξ, hξ, e⟩ := Psa.lagrange' (F := F) (c := c0) (v := c0 + h)
    (fun k t ht => hF k t (hball (by simpa [Real.dist_eq] using lt_of_lt_of_le (hin t ht) (min_le_left _ _)))) m
  rw [add_sub_cancel_left] at e
  rw [e, add_sub_cancel_left, Psa.tcf, norm_mul, norm_div]
  have h2 : ‖F m ξ‖ ≤ K := by
    have := hKδ ξ (by simpa [Real.dist_eq] using lt_of_lt_of_le (hin ξ hξ) (min_le_right _ _))
    simpa using this
  have h3 : ‖(m ! : ℝ)‖ = m ! := by simp
  rw [h3]
  gcongr

/-- integration -/
theorem integrate {f' : ℝ → ℝ} (hd : ∀ᶠ t in 𝓝 0, HasDerivAt f (f' t) t) (hf : HasT m f' b) :
    HasT (m + 1) f (fun k => match k with | 0 => f 0 | k + 1 => b k / (k + 1 : ℕ)) := by
  unfold HasT at hf ⊢
  obtain ⟨K, hK⟩ := hf.bound
  obtain ⟨δ, hδ, hball⟩ := Metric.eventually_nhds_iff_ball.1 (hd.and hK)
  refine IsBigO.of_bound K ?_
  filter_upwards [Metric.ball_mem_nhds (0 : ℝ) hδ] with t ht
  have ht' : |t| < δ := by simpa using ht
  rw [Finset.sum_range_succ']
  simp only [pow_zero, mul_one]
  let P : ℝ → ℝ := fun s => f s - ∑ k ∈ Finset.range m, b k / (k + 1 : ℕ) * s ^ (k + 1)
  have hP : ∀ s ∈ Set.uIcc 0 t, HasDerivAt P (f' s - ∑ k ∈ Finset.range m, b k * s ^ k) s := by
    intro s hs
    have hs' : s ∈ Metric.ball (0 : ℝ) δ := by
      rw [Metric.mem_ball, dist_zero_right, Real.norm_eq_abs]
      refine lt_of_le_of_lt ?_ ht'
      rcases Set.mem_uIcc.1 hs with ⟨h1, h2⟩ | ⟨h1, h2⟩
      · rw [abs_of_nonneg h1]; exact h2.trans (le_abs_self t)
      · rw [abs_of_nonpos h2]; exact le_trans (by linarith) (neg_le_abs t)
    refine (hball s hs').1.sub (HasDerivAt.fun_sum fun k _ => ?_)
    have := (hasDerivAt_pow (k + 1) s).const_mul (b k / (k + 1 : ℕ))
    refine this.congr_deriv ?_
    rw [Nat.add_sub_cancel]
    have : ((k + 1 : ℕ) : ℝ) ≠ 0 := by positivity
    field_simp
  have hbound : ∀ s ∈ Set.uIcc 0 t, ‖f' s - ∑ k ∈ Finset.range m, b k * s ^ k‖ ≤ K * ‖t‖ ^ m := by
    intro s hs
    have hst : |s| ≤ |t| := by
      rcases Set.mem_uIcc.1 hs with ⟨h1, h2⟩ | ⟨h1, h2⟩
      · rw [abs_of_nonneg h1]; exact h2.trans (le_abs_self t)
      · rw [abs_of_nonpos h2]; exact le_trans (by linarith) (neg_le_abs t)
    have hs' : s ∈ Metric.ball (0 : ℝ) δ := by
      rw [Metric.mem_ball, dist_zero_right, Real.norm_eq_abs]
      exact lt_of_le_of_lt hst ht'
    have h1 := (hball s hs').2
    rw [norm_pow] at h1
    rcases le_or_gt 0 K with hK | hK
    · refine h1.trans ?_
      gcongr
      exact hst
    · -- a negative bound forces everything to vanish
      have hn : 0 ≤ K * ‖s‖ ^ m := (norm_nonneg _).trans h1
      have hz : ‖s‖ ^ m = 0 := by
        by_contra hne
        have : 0 < ‖s‖ ^ m := lt_of_le_of_ne (by positivity) (Ne.symm hne)
        nlinarith
      have htb := (hball t ht).2
      rw [norm_pow] at htb
      have hn' : 0 ≤ K * ‖t‖ ^ m := (norm_nonneg _).trans htb
      rw [hz, mul_zero] at h1
      exact h1.trans hn'
  have hmv := (convex_uIcc (0 : ℝ) t).norm_image_sub_le_of_norm_hasDerivWithin_le (f := P)
    (fun s hs => (hP s hs).hasDerivWithinAt) hbound Set.left_mem_uIcc Set.right_mem_uIcc
  have e0 : P 0 = f 0 := by simp [P]
  rw [e0, sub_zero] at hmv
  rw [norm_pow, pow_succ, ← mul_assoc]
  refine le_trans (le_of_eq ?_) hmv
  congr 1
  simp only [P]
  ring

end HasT

end Kv
