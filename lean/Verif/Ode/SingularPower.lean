import Verif.Ode.SingularLemmas
import Verif.Props.Psa
import Mathlib.Topology.Piecewise

/-! # `defint_power3`: from the series to the integral -/

namespace Kv
open PowerSeries Psa PM MeasureTheory Filter Topology
open Rop (lit)
set_option linter.unusedVariables false

namespace Defint
variable {fuel : ℕ} {ρ : ℕ → ℝ} {p : ℕ → Interval D} {N n : ℕ} {a : ℝ}

/-! ## Taylor coefficients and limits -/

/-- the quotient by a power tends to the coefficient if the ones before are 0 -/
theorem taylor_tendsto {m : ℕ} {g : ℝ → ℝ} {b : ℕ → ℝ} (h : IsTaylor m g b) {i : ℕ} (hi : i < m) (hb : ∀ k < i, b k = 0) :
    Tendsto (fun t => g t / t ^ i) (𝓝[>] 0) (𝓝 (b i)) := by
  obtain ⟨K, δ, hδ, hK⟩ := h
  let P : ℝ → ℝ := fun t => ∑ k ∈ Finset.range (m - i), b (i + k) * t ^ k
  have hP : Tendsto P (𝓝[>] 0) (𝓝 (b i)) := by
    have hc : Continuous P := continuous_finsetSum _ fun k _ => (continuous_pow k).const_mul _ |>.congr fun t => rfl
    have h0 : P 0 = b i := by
      obtain ⟨j, hj⟩ : ∃ j, m - i = j + 1 := ⟨m - i - 1, by omega⟩
      simp only [P, hj, Finset.sum_range_succ']
      simp
    rw [← h0]
    exact hc.continuousAt.tendsto.mono_left nhdsWithin_le_nhds
  have hE : Tendsto (fun t : ℝ => K * |t| ^ (m - i)) (𝓝[>] 0) (𝓝 0) := by
    have hc : Continuous fun t : ℝ => K * |t| ^ (m - i) := by fun_prop
    have := hc.continuousAt.tendsto (x := 0) |>.mono_left (nhdsWithin_le_nhds (s := Set.Ioi 0))
    simpa [zero_pow (show m - i ≠ 0 by omega)] using this
  have hdiff : Tendsto (fun t => g t / t ^ i - P t) (𝓝[>] 0) (𝓝 0) := by
    refine squeeze_zero_norm' ?_ hE
    have hmem : Set.Ioo (0 : ℝ) δ ∈ 𝓝[>] (0 : ℝ) := Ioo_mem_nhdsGT hδ
    filter_upwards [hmem] with t ht
    have ht0 : (0 : ℝ) < t := ht.1
    have h1 := hK t (by rw [abs_of_pos ht0]; exact ht.2)
    have e1 : ∑ k ∈ Finset.range m, b k * t ^ k = t ^ i * P t := by
      have e2 := Finset.sum_range_add (fun k => b k * t ^ k) i (m - i)
      rw [show i + (m - i) = m by omega] at e2
      rw [e2, Finset.sum_eq_zero (fun k hk => by rw [hb k (Finset.mem_range.1 hk), zero_mul]), zero_add, Finset.mul_sum]
      exact Finset.sum_congr rfl fun k _ => by rw [pow_add]; ring
    rw [e1] at h1
    have hti : 0 < t ^ i := pow_pos ht0 i
    rw [Real.norm_eq_abs]
    have e3 : g t / t ^ i - P t = (g t - t ^ i * P t) / t ^ i := by field_simp
    rw [e3, abs_div, abs_of_pos hti, div_le_iff₀ hti]
    have e4 : K * |t| ^ (m - i) * t ^ i = K * |t| ^ m := by
      rw [abs_of_pos ht0, mul_assoc, ← pow_add, show m - i + i = m by omega]
    rw [e4]; exact h1
  have := hdiff.add hP
  simpa using this

theorem taylor_zero {m : ℕ} {g : ℝ → ℝ} {b : ℕ → ℝ} (h : IsTaylor m g b) (hn : n ≤ m)
    (hz : ∀ i < n, Tendsto (fun t => g t / t ^ i) (𝓝[>] 0) (𝓝 0)) : ∀ i < n, b i = 0 := by
  intro i
  induction i using Nat.strong_induction_on with
  | _ i ih =>
    intro hi
    exact tendsto_nhds_unique (taylor_tendsto h (by omega) fun k hk => ih k hk (by omega)) (hz i hi)

theorem isTaylor_fn {e : Expr 1} (hS : Smooth e ρ a) {m : ℕ} (hm : 1 ≤ m) : IsTaylor m (fun t => fn e ρ (a + t)) (co e ρ a) := by
  have := Expr.hasP (n := 1) (m := m) (ρ := ρ) (x := fun _ t => a + t) (c := fun _ => idPs a) hm (fun i => by
    show HasT m (fun t => a + t) fun k => coeff k (idPs a)
    refine isTaylor_iff.1 ?_
    rcases Nat.lt_or_ge 1 m with h2 | h2
    · refine ⟨0, 1, one_pos, fun t _ => ?_⟩
      obtain ⟨j, rfl⟩ : ∃ j, m = j + 2 := ⟨m - 2, by omega⟩
      have : ∑ k ∈ Finset.range (j + 2), coeff k (idPs a) * t ^ k = a + t := by
        rw [Finset.sum_range_succ', Finset.sum_range_succ', Finset.sum_eq_zero (fun k _ => by rw [idCo_idPs]; simp [idCo])]
        simp only [idCo_idPs]
        simp [idCo]; ring
      rw [this]; simp
    · obtain rfl : m = 1 := by omega
      refine ⟨1, 1, one_pos, fun t _ => ?_⟩
      have : ∑ k ∈ Finset.range 1, coeff k (idPs a) * t ^ k = a := by
        simp only [idCo_idPs]; simp [idCo]
      rw [this]; simp) (e := e) (by simp only [coeff_idPs]; exact hS)
  exact isTaylor_iff.2 this

/-- limits at `a` from the right -/
theorem tendsto_shift {g : ℝ → ℝ} {l : ℝ} (h : Tendsto g (𝓝[>] a) (𝓝 l)) : Tendsto (fun t => g (a + t)) (𝓝[>] 0) (𝓝 l) := by
  refine h.comp ?_
  refine tendsto_nhdsWithin_iff.2 ⟨?_, ?_⟩
  · have : Tendsto (fun t : ℝ => a + t) (𝓝 0) (𝓝 (a + 0)) := (continuous_const.add continuous_id).continuousAt.tendsto
    rw [add_zero] at this
    exact this.mono_left nhdsWithin_le_nhds
  · filter_upwards [self_mem_nhdsWithin] with t ht
    have : (0 : ℝ) < t := ht
    show a < a + t; linarith

/-! ## integrability -/

/-- a weight times a function with a limit at the end is integrable -/
theorem weighted_integrable {T : ℝ} (hT : 0 < T) {w φ : ℝ → ℝ} {l : ℝ} (hw : IntervalIntegrable w volume 0 T)
    (hc : ∀ t, 0 < t → t ≤ T → ContinuousAt φ t) (hl : Tendsto φ (𝓝[>] 0) (𝓝 l)) : IntervalIntegrable (fun t => w t * φ t) volume 0 T := by
  have h1 : ContinuousOn (Function.update φ 0 l) (Set.uIcc 0 T) := by
    rw [Set.uIcc_of_le hT.le]
    intro t ht
    by_cases h0 : t = 0
    · subst h0
      rw [continuousWithinAt_update_same]
      refine hl.mono_left (nhdsWithin_mono _ ?_)
      rintro y ⟨hy, hy0⟩
      exact lt_of_le_of_ne hy.1 (Ne.symm hy0)
    · have ht0 : 0 < t := lt_of_le_of_ne ht.1 (Ne.symm h0)
      refine ContinuousAt.continuousWithinAt ?_
      refine (hc t ht0 ht.2).congr ?_
      filter_upwards [isOpen_ne.mem_nhds h0] with y hy
      rw [Function.update_of_ne hy]
  refine (hw.mul_continuousOn h1).congr ?_
  intro t ht
  rw [Set.uIoc_of_le hT.le] at ht
  simp only [Function.update_of_ne ht.1.ne']

/-! ## the run -/

/-- `defint_power3` in terms of the integrand without its first Taylor terms -/
theorem power3_core {f g : Expr 1} (hf : Fun f ρ a) (hg : Fun g ρ a) (hfc : f.isC = false) (hp : ∀ i, ρ i ∈ p i)
    (hN : 1 ≤ N) (hN' : N + 1 < 2 ^ 31) {start stop power Z : Interval D} {b π : ℝ} (ha : a ∈ start) (hb : b ∈ stop) (hab : a < b)
    (hπ : π ∈ power) (hω : -1 < π * n) {st st' : PSt (Interval D)}
    (h : (letI := scalI fuel; defintPower3 fuel f g p start stop (N : ℤ) power (n : ℤ)) st = (.ok Z, st')) :
    n ≤ N ∧ (∀ t, 0 ≤ t → t ≤ b - a → Smooth f ρ (a + t) ∧ Smooth g ρ (a + t)) ∧ (∀ t, 0 < t → t ≤ b - a → 0 < tail f ρ a n t) ∧
    (∀ l, 0 < l → Tendsto (fun t => tail f ρ a n t / t ^ n) (𝓝[>] 0) (𝓝 l) →
      IntervalIntegrable (fun t => tail f ρ a n t ^ π * fn g ρ (a + t)) volume 0 (b - a) ∧
      (∫ t in (0 : ℝ)..b - a, tail f ρ a n t ^ π * fn g ρ (a + t)) ∈ Z) := by
  let _ := semI fuel
  have hT : 0 < b - a := by linarith
  change defintPower3 fuel f g p start stop (N : ℤ) power (n : ℤ) st = (.ok Z, st') at h
  unfold defintPower3 at h
  obtain ⟨s1, h⟩ := inMode2_run h
  set step := Interval.sub stop start with hstep
  have hs : b - a ∈ step := Interval.sub_mem hb ha
  obtain ⟨hd0, hdT⟩ := sHull_mem hs
  obtain ⟨x, sx, e1, h1⟩ := bind_run h
  obtain ⟨rfl, hxl, hx⟩ := startAt_spec (fuel := fuel) hN ha e1
  obtain ⟨y, sy, e2, h2⟩ := bind_run h1
  obtain ⟨rfl, hyl, hnN, key⟩ := powerTerm_at (fuel := fuel) hf hg hfc hp hN hN' (st := st2 st step) rfl rfl rfl hd0 hxl hx hπ e2
  obtain ⟨y', sy', e3, h3⟩ := bind_run h2
  obtain ⟨rfl, rfl⟩ := setorder_same (fuel := fuel) hyl e3
  obtain ⟨h4, -⟩ := lift_run h3
  have hdom : ∀ t, 0 ≤ t → t ≤ b - a → t ∈ (st2 st step).domain := fun t h0 h1 =>
    convI fuel _ 0 (b - a) t hd0 hdT (by rw [Set.mem_uIcc]; exact Or.inl ⟨h0, h1⟩)
  have hpos : ∀ t, 0 < t → t ≤ b - a → 0 < tail f ρ a n t := fun t h0 h1 => by
    obtain ⟨-, -, r, v, -, hv, e, -⟩ := key t (hdom t h0.le h1)
    rw [← e]; exact mul_pos hv (pow_pos h0 n)
  have hsm : ∀ t, 0 ≤ t → t ≤ b - a → Smooth f ρ (a + t) ∧ Smooth g ρ (a + t) := fun t h0 h1 => by
    obtain ⟨q1, q2, -⟩ := key t (hdom t h0 h1)
    exact ⟨q1, q2⟩
  refine ⟨hnN, hsm, hpos, fun l hl hlim => ?_⟩
  let φ : ℝ → ℝ := fun t => (tail f ρ a n t / t ^ n) ^ π * fn g ρ (a + t)
  have hcont : ∀ {e : Expr 1} {t : ℝ}, Smooth e ρ (a + t) → ContinuousAt (fun t => fn e ρ (a + t)) t := fun {e t} hS =>
    ContinuousAt.comp (f := fun t : ℝ => a + t) hS.continuousAt (by fun_prop)
  have hφc : ∀ t, 0 < t → t ≤ b - a → ContinuousAt φ t := fun t h0 h1 => by
    obtain ⟨q1, q2⟩ := hsm t h0.le h1
    refine ContinuousAt.mul (ContinuousAt.rpow_const (ContinuousAt.div ?_ (by fun_prop) (pow_pos h0 n).ne') (Or.inl ?_)) (hcont q2)
    · unfold tail
      exact (hcont q1).sub (by fun_prop)
    · exact (div_pos (hpos t h0 h1) (pow_pos h0 n)).ne'
  have hφl : Tendsto φ (𝓝[>] 0) (𝓝 (l ^ π * fn g ρ a)) := by
    refine Tendsto.mul (hlim.rpow_const (Or.inl hl.ne')) ?_
    have := (hcont (hsm 0 le_rfl hT.le).2).tendsto
    rw [add_zero] at this
    exact this.mono_left nhdsWithin_le_nhds
  have hwi : IntervalIntegrable (fun t : ℝ => t ^ (π * n)) volume 0 (b - a) := intervalIntegral.intervalIntegrable_rpow' hω
  have hφi := weighted_integrable hT hwi hφc hφl
  have hcongr : ∀ t ∈ Set.uIoc 0 (b - a), t ^ (π * n) * φ t = tail f ρ a n t ^ π * fn g ρ (a + t) := by
    intro t ht
    rw [Set.uIoc_of_le hT.le] at ht
    have hpt := hpos t ht.1 ht.2
    have htn := pow_pos ht.1 n
    show t ^ (π * n) * ((tail f ρ a n t / t ^ n) ^ π * fn g ρ (a + t)) = _
    rw [← mul_assoc]
    congr 1
    rw [Real.div_rpow hpt.le htn.le, ← Real.rpow_natCast t n, ← Real.rpow_mul ht.1.le, mul_comm (n : ℝ) π]
    have := Real.rpow_pos_of_pos ht.1 (π * n)
    field_simp
  refine ⟨hφi.congr hcongr, ?_⟩
  obtain ⟨s, k1, k2⟩ := Weighted.power (m := N + 1) (A := sets y') (fun k _ => sets_closed y' k) (fun k _ => sets_ord y' k) hT hω hφi
    (fun t h0 h1 => by
      obtain ⟨-, -, r, v, hr, hv, e, hsum⟩ := key t (hdom t h0.le h1)
      refine ⟨r, fun k _ A hA => hr k A hA, ?_⟩
      rw [← hsum]
      show (tail f ρ a n t / t ^ n) ^ π * fn g ρ (a + t) = _
      rw [← e, mul_div_cancel_right₀ _ (pow_pos h0 n).ne'])
  have hres := powerResult_mem (fuel := fuel) hT hs hπ (by omega) (contains_iff fun k hk => k1 k (by omega)) h4
  rw [hyl, ← k2] at hres
  rwa [intervalIntegral.integral_congr_ae (Filter.Eventually.of_forall hcongr)] at hres

end Defint
end Kv
