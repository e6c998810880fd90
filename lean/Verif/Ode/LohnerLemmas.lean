import Verif.Ode.Lohner
import Verif.Ode.Long
import Verif.Ode.NewtonCotesLemmas
import Verif.Solver.AllsolTrim

/-! # The box of `ode_lohner` contains every solution -/

namespace Kv
open PowerSeries Psa PM Set Topology
open Rop (lit)
set_option linter.unusedVariables false

namespace Ode
namespace Lohner
variable {n : ℕ} {P : Problem n} {q : Param} {ρ : ℕ → ℝ} {x0 : Fin n → ℝ} {t0 T : ℝ} {fuel : ℕ}

/-- The data of a call: the constants, the initial value, the finite literals; the right-hand side is smooth. -/
structure Hyp (P : Problem n) (ρ : ℕ → ℝ) (x0 : Fin n → ℝ) : Prop where
  par : ∀ i, ρ i ∈ P.p i
  init : ∀ i, x0 i ∈ P.init i
  fin : ∀ i, (P.f i).FinCst
  smooth : ∀ i v, (P.f i).SDom ρ v

/-- a step from `t0` of length `T` -/
structure Step (P : Problem n) (t0 T : ℝ) (tste deltat : Interval D) : Prop where
  pos : 0 ≤ T
  time : ∀ τ ∈ Icc 0 T, t0 + τ ∈ tste
  len : T ∈ deltat

theorem box_mem (hd : Hyp P ρ x0) {V Y : Fin n → Interval D} {tste : Interval D} (h : (letI := scalI fuel; box P V tste) = .ok Y)
    {v : Fin n → ℝ} {t : ℝ} (hv : ∀ i, v i ∈ V i) (ht : t ∈ tste) (i : Fin n) : (P.f i).real ρ (withT v t) ∈ Y i := by
  have h1 := @evalVec_ok _ (scalI fuel) (n + 1) P.p (withT V tste) n P.f Y h i
  refine @eval_mem _ (semI fuel) (n + 1) P.p (withT V tste) ρ (withT v t) hd.par (fun j => ?_) (P.f i) (Y i) (hd.fin i) (hd.smooth i _).dom h1
  refine Fin.lastCases ?_ (fun j => ?_) j
  · simpa [withT] using ht
  · simpa [withT] using hv j

theorem zero_mem {tste deltat : Interval D} (hs : Step P t0 T tste deltat) {τ : ℝ} (hτ : τ ∈ Icc 0 T) : τ ∈ (⟨lit 0, deltat.sup⟩ : Interval D) := by
  have h0 : Is (lit 0 : D) 0 := Interval.is_zero
  refine ⟨⟨h0.1, by rw [h0.2]; exact_mod_cast hτ.1⟩, hs.len.2.1, le_trans ?_ hs.len.2.2⟩
  exact_mod_cast hτ.2

theorem slope (hd : Hyp P ρ x0) {y c : ℝ → Fin n → ℝ} (hy0 : y 0 = x0)
    (hy : ∀ τ ∈ Icc 0 T, HasDerivWithinAt y (field P ρ t0 τ (c τ)) (Icc 0 T) τ) {τ : ℝ} (hτ : τ ∈ Icc 0 T) (i : Fin n) :
    ∃ σ ∈ Icc 0 T, y τ i = x0 i + field P ρ t0 σ (c σ) i * τ := by
  have hi : ∀ σ ∈ Icc 0 T, HasDerivWithinAt (fun σ => y σ i) (field P ρ t0 σ (c σ) i) (Icc 0 T) σ := fun σ hσ => (hasDerivWithinAt_pi.1 (hy σ hσ)) i
  rcases hτ.1.eq_or_lt with rfl | h0
  · exact ⟨0, hτ, by rw [hy0]; ring⟩
  · have hsub : Icc 0 τ ⊆ Icc 0 T := fun u hu => ⟨hu.1, hu.2.trans hτ.2⟩
    obtain ⟨σ, hσ, e⟩ := exists_hasDerivAt_eq_slope (fun σ => y σ i) (fun σ => field P ρ t0 σ (c σ) i) h0
      (fun u hu => ((hi u (hsub hu)).continuousWithinAt).mono hsub)
      (fun u hu => (hi u (hsub (Ioo_subset_Icc_self hu))).hasDerivAt (Icc_mem_nhds hu.1 (hu.2.trans_le hτ.2)))
    refine ⟨σ, hsub (Ioo_subset_Icc_self hσ), ?_⟩
    have : field P ρ t0 σ (c σ) i * τ = y τ i - y 0 i := by
      have e' : field P ρ t0 σ (c σ) i = (y τ i - y 0 i) / (τ - 0) := e
      rw [e', sub_zero, div_mul_cancel₀ _ h0.ne']
    rw [this, hy0]; ring

/-- a curve whose derivatives are values of the right-hand side on a box -/
theorem picard_mem (hd : Hyp P ρ x0) {tste deltat : Interval D} (hs : Step P t0 T tste deltat) {V W : Fin n → Interval D}
    (h : (letI := scalI fuel; picard P V tste deltat) = .ok W) {y c : ℝ → Fin n → ℝ} (hy0 : y 0 = x0)
    (hy : ∀ τ ∈ Icc 0 T, HasDerivWithinAt y (field P ρ t0 τ (c τ)) (Icc 0 T) τ) (hc : ∀ τ ∈ Icc 0 T, ∀ i, c τ i ∈ V i)
    {τ : ℝ} (hτ : τ ∈ Icc 0 T) (i : Fin n) : y τ i ∈ W i := by
  unfold picard boxStep at h
  obtain ⟨Z, hZ, h1⟩ := bind_ok.1 h
  obtain ⟨Y, hY, h2⟩ := bind_ok.1 hZ
  cases h2; cases h1
  obtain ⟨σ, hσ, e⟩ := slope hd hy0 hy hτ i
  rw [e]
  exact Interval.add_mem (hd.init i) (Interval.mul_mem (box_mem hd hY (hc σ hσ) (hs.time σ hσ) i) (zero_mem hs hτ))

/-- if the candidate is mapped into itself, then every solution stays in it -/
theorem sol_box (hd : Hyp P ρ x0) {tste deltat : Interval D} (hs : Step P t0 T tste deltat) {V W : Fin n → Interval D}
    (h : (letI := scalI fuel; picard P V tste deltat) = .ok W) (hx : ∀ i, x0 i ∈ V i) (hsub : ∀ i, ∀ x : ℝ, x ∈ W i → x ∈ V i)
    {y : ℝ → Fin n → ℝ} (hy0 : y 0 = x0) (hy : ∀ τ ∈ Icc 0 T, HasDerivWithinAt y (field P ρ t0 τ (y τ)) (Icc 0 T) τ) :
    ∀ τ ∈ Icc 0 T, ∀ i, y τ i ∈ V i ∧ y τ i ∈ W i := by
  have hyc : ContinuousOn y (Icc 0 T) := fun τ hτ => (hy τ hτ).continuousWithinAt
  obtain ⟨K0, hK0⟩ := isCompact_Icc.exists_bound_of_continuousOn hyc
  set K := K0 + 1 with hK
  have hyK : ∀ τ ∈ Icc 0 T, ∀ i, |y τ i| < K := fun τ hτ i => by
    have h1 := norm_le_pi_norm (y τ) i
    rw [Real.norm_eq_abs] at h1
    have := hK0 τ hτ
    linarith
  have hx0 : ∀ i, |x0 i| < K := fun i => by rw [← hy0]; exact hyK 0 ⟨le_rfl, hs.pos⟩ i
  let lo : Fin n → ℝ := fun i => if FinD (V i).inf then max (dbl (V i).inf) (-K) else -K
  let hi : Fin n → ℝ := fun i => if FinD (V i).sup then min (dbl (V i).sup) K else K
  have hmem : ∀ v : Fin n → ℝ, v ∈ Icc lo hi ↔ ∀ i, v i ∈ V i ∧ |v i| ≤ K := by
    intro v
    rw [mem_Icc, Pi.le_def, Pi.le_def, ← forall_and]
    refine forall_congr' fun i => ?_
    rw [mem_bounds (hx i), abs_le]
    simp only [lo, hi]
    by_cases h1 : FinD (V i).inf <;> by_cases h2 : FinD (V i).sup <;>
      simp only [h1, h2, if_true, if_false, true_imp_iff, false_imp_iff, max_le_iff, le_min_iff, true_and, and_true] <;> tauto
  have hxm : x0 ∈ Icc lo hi := (hmem x0).2 fun i => ⟨hx i, (hx0 i).le⟩
  have hle : lo ≤ hi := hxm.1.trans hxm.2
  obtain ⟨z, hz0, hz⟩ := tube_clamped (f := field P ρ t0) (x0 := x0) (lo := fun _ => lo) (hi := fun _ => hi) hs.pos continuousOn_const continuousOn_const
    (fun _ _ => hle) (fun τ _ v _ => field_contDiffAt fun i => hd.smooth i _)
  have hcm : ∀ τ i, clamp lo hi (z τ) i ∈ V i := fun τ i => ((hmem _).1 (clamp_mem hle (z τ)) i).1
  have hzW : ∀ τ ∈ Icc 0 T, ∀ i, z τ i ∈ W i := fun τ hτ i => picard_mem hd hs h hz0 hz (fun σ _ => hcm σ) hτ i
  have heq : EqOn y z (Icc 0 T) := by
    refine ode_unique_of (f := field P ρ t0) (by rw [hy0, hz0]) hy hz fun τ hτ e => ⟨field_contDiffAt fun i => hd.smooth i _, ?_⟩
    have hzc : ContinuousWithinAt z (Icc 0 T) τ := (hz τ (Ico_subset_Icc_self hτ)).continuousWithinAt
    have h1 : ∀ᶠ σ in 𝓝[Icc 0 T] τ, ∀ i, |z σ i| < K := by
      rw [Filter.eventually_all]
      intro i
      have hci : ContinuousWithinAt (fun σ => |z σ i|) (Icc 0 T) τ := ((continuous_apply i).continuousAt.comp_continuousWithinAt hzc).abs
      exact hci.eventually (Iio_mem_nhds (by show |z τ i| < K; rw [← e]; exact hyK τ (Ico_subset_Icc_self hτ) i))
    have h2 : ∀ᶠ σ in 𝓝[≥] τ, σ ∈ Icc 0 T := Icc_mem_nhdsGE_of_mem hτ
    have h3 : ∀ᶠ σ in 𝓝[≥] τ, σ ∈ Icc 0 T → ∀ i, |z σ i| < K := by
      have := eventually_nhdsWithin_iff.1 h1
      exact this.filter_mono nhdsWithin_le_nhds
    filter_upwards [h2, h3] with σ g1 g2
    show field P ρ t0 σ (clamp lo hi (z σ)) = _
    rw [clamp_of_mem ((hmem _).2 fun i => ⟨hsub i _ (hzW σ g1 i), (g2 g1 i).le⟩)]
  intro τ hτ i
  rw [heq hτ]
  exact ⟨hsub i _ (hzW τ hτ i), hzW τ hτ i⟩

theorem loop_stop : ∀ {k : ℕ} {radius : D} {c : ℕ} {o : Out n}, (letI := scalI fuel; loop P q k radius c) = .ok o →
    o.ret ≠ 0 → (if o.ret = 1 then o.end2 else P.stop) = o.end2
  | 0, radius, c, o, h, _ => by cases h
  | k + 1, radius, c, o, h, hr => by
    let _ := scalI fuel
    unfold loop at h
    obtain ⟨⟨end2, radius', ret⟩, hce⟩ : ∃ c, c = chooseEnd P q radius := ⟨_, rfl⟩
    rw [← hce] at h
    dsimp only at h
    obtain ⟨V, hV, h1⟩ := bind_ok.1 h
    obtain ⟨W, hW, h2⟩ := bind_ok.1 h1
    by_cases hi : included W V = true
    · rw [if_pos hi] at h2
      cases h2
      exact (chooseEnd_stop hce.symm).1
    · rw [if_neg hi] at h2
      rw [ite_eq_iff] at h2
      rcases h2 with ⟨-, h2⟩ | ⟨-, h2⟩
      · cases h2; exact absurd rfl hr
      · obtain ⟨r, hr', h3⟩ := bind_ok.1 h2
        exact loop_stop h3 hr

/-- the main loop -/
theorem loop_sol (hd : Hyp P ρ x0) (ht0 : t0 ∈ P.start) : ∀ {k : ℕ} {radius : D} {c : ℕ} {o : Out n}, (letI := scalI fuel; loop P q k radius c) = .ok o →
    o.ret ≠ 0 → ∀ t1, t1 ∈ o.end2 → t0 ≤ t1 → Step P t0 (t1 - t0) o.tste o.deltat ∧
      ∀ y : ℝ → Fin n → ℝ, y 0 = x0 → (∀ τ ∈ Icc 0 (t1 - t0), HasDerivWithinAt y (field P ρ t0 τ (y τ)) (Icc 0 (t1 - t0)) τ) →
        ∀ τ ∈ Icc 0 (t1 - t0), ∀ i, y τ i ∈ o.V i
  | 0, radius, c, o, h, _, _, _, _ => by cases h
  | k + 1, radius, c, o, h, hr, t1, ht1, hle => by
    let _ := scalI fuel
    unfold loop at h
    obtain ⟨⟨end2, radius', ret⟩, hce⟩ : ∃ c, c = chooseEnd P q radius := ⟨_, rfl⟩
    rw [← hce] at h
    dsimp only at h
    obtain ⟨V, hV, h1⟩ := bind_ok.1 h
    obtain ⟨W, hW, h2⟩ := bind_ok.1 h1
    by_cases hi : included W V = true
    · rw [if_pos hi] at h2
      cases h2
      dsimp only at hr ht1 ⊢
      refine ⟨?_, ?_⟩
      swap
      · have hs : Step P t0 (t1 - t0) ⟨P.start.inf, end2.sup⟩ (Interval.sub end2 P.start) := ⟨sub_nonneg.2 hle, fun τ hτ => ⟨⟨ht0.1.1, le_trans ht0.1.2 (by exact_mod_cast (by linarith [hτ.1] : t0 ≤ t0 + τ))⟩, ht1.2.1,
          le_trans (by exact_mod_cast (by linarith [hτ.2] : t0 + τ ≤ t1)) ht1.2.2⟩, Interval.sub_mem ht1 ht0⟩
        intro y hy0 hy τ hτ i
        have hsub : ∀ i, ∀ x : ℝ, x ∈ W i → x ∈ V i := fun i x hx => by
          unfold included at hi
          rw [List.all_eq_true] at hi
          exact subset_sub (hi _ (List.mem_ofFn.2 ⟨i, rfl⟩)) hx
        refine (sol_box hd hs hW (fun i => ?_) hsub hy0 hy τ hτ i).2
        unfold guess at hV
        obtain ⟨Y, -, hV⟩ := bind_ok.1 hV
        cases hV
        have := Interval.add_mem (hd.init i) (zero_mem_sMul (Kraw.makeCandidate (fun i => Interval.mag (Y i)) i))
        rwa [add_zero] at this
      · exact ⟨sub_nonneg.2 hle, fun τ hτ => ⟨⟨ht0.1.1, le_trans ht0.1.2 (by exact_mod_cast (by linarith [hτ.1] : t0 ≤ t0 + τ))⟩, ht1.2.1,
          le_trans (by exact_mod_cast (by linarith [hτ.2] : t0 + τ ≤ t1)) ht1.2.2⟩, Interval.sub_mem ht1 ht0⟩
    · rw [if_neg hi] at h2
      rw [ite_eq_iff] at h2
      rcases h2 with ⟨-, h2⟩ | ⟨-, h2⟩
      · cases h2; exact absurd rfl hr
      · obtain ⟨r, hr', h3⟩ := bind_ok.1 h2
        exact loop_sol hd ht0 h3 hr t1 ht1 hle

/-- the refinement -/
theorem refine_sol (hd : Hyp P ρ x0) {tste deltat : Interval D} (hs : Step P t0 T tste deltat) {y : ℝ → Fin n → ℝ} (hy0 : y 0 = x0)
    (hy : ∀ τ ∈ Icc 0 T, HasDerivWithinAt y (field P ρ t0 τ (y τ)) (Icc 0 T) τ) : ∀ {k : ℕ} {V V' : Fin n → Interval D},
    (letI := scalI fuel; refine P tste deltat k V) = .ok V' → (∀ τ ∈ Icc 0 T, ∀ i, y τ i ∈ V i) → ∀ τ ∈ Icc 0 T, ∀ i, y τ i ∈ V' i
  | 0, V, V', h, hV => by cases h; exact hV
  | k + 1, V, V', h, hV => by
    let _ := scalI fuel
    unfold refine at h
    obtain ⟨W, hW, h1⟩ := bind_ok.1 h
    refine refine_sol hd hs hy0 hy h1 fun τ hτ => ?_
    have hm : ∀ m : ℕ, ∀ i, y τ i ∈ ((fun (U : Fin n → Interval D) i => Interval.intersect (U i) (V i))^[m] W) i := by
      intro m
      induction m with
      | zero => exact fun i => picard_mem hd hs hW hy0 hy hV hτ i
      | succ m ih =>
        rw [Function.iterate_succ_apply']
        exact fun i => Allsol.intersect_mem (ih i) (hV τ hτ i)
    exact hm n

/-- the coefficients of first order over the box -/
theorem coeffs1_mem (hd : Hyp P ρ x0) {V : Fin n → Interval D} {tste : Interval D} {st st' : PSt (Interval D)} (hmode : st.mode = 1) (huse : st.use = false)
    {z : Fin n → Ser} (h : (letI := scalI fuel; coeffs P V tste 1) st = (.ok z, st')) {v : Fin n → ℝ} {t : ℝ} (hv : ∀ i, v i ∈ V i) (ht : t ∈ tste) (i : Fin n) :
    (z i).length = 2 ∧ ∀ A, (z i)[1]? = some A → (P.f i).real ρ (withT v t) ∈ A := by
  let _ := semI fuel
  change (coeffs P V tste 0 >>= fun x => switchUse 0 >>= fun _ => Psa.setorder [tste, Psa.one] ((0 : ℕ) : ℤ) >>= fun t => evalF P x t >>= fun y => update P y 1) st = (.ok z, st') at h
  obtain ⟨x, s1, h1, h2⟩ := bind_run h
  obtain ⟨rfl, rfl⟩ := pure_run h1
  obtain ⟨u, s2, h3, h4⟩ := bind_run h2
  obtain ⟨-, rfl⟩ : u = () ∧ s2 = s1 := by
    unfold switchUse at h3
    rw [if_neg (by decide)] at h3
    exact ⟨rfl, (pure_run h3).2⟩
  obtain ⟨tt, s3, h5, h6⟩ := bind_run h4
  obtain ⟨y, s4, h7, h8⟩ := bind_run h6
  have htm : Psa.Mem (S := Interval D) (idCo t) [tste, Psa.one] := by
    intro k A hA
    match k with
    | 0 => simp at hA; subst hA; exact ht
    | 1 => simp at hA; subst hA; exact ScalSem.ofC_mem (S := Interval D) Interval.is_one
    | k + 2 => simp at hA
  obtain ⟨rfl, htl, htc⟩ := setorder1 (S := Interval D) hmode htm h5
  let c : Fin (n + 1) → PowerSeries ℝ := withT (fun i => C (v i)) (C t)
  have hc0 : (fun j => coeff 0 (c j)) = withT v t := by
    funext j
    refine Fin.lastCases ?_ (fun j => ?_) j
    · simp [c, withT]
    · simp [c, withT]
  have key := vec_inv (J := fun s => s.mode = 1 ∧ s.use = false) (f := fun i => (P.f i).evalP P.p (withT (fun i => [V i]) tt))
    (Q := fun i y => y.length = 1 ∧ Psa.Mem (S := Interval D) (fun k => coeff k ((P.f i).ps ρ c)) y) (fun i s hs y s' hy => by
      have := run1 (S := Interval D) (hd.fin i) (ρ := ρ) (p := P.p) (c := c) (m := 1) le_rfl (by norm_num) hs.1 hs.2 hd.par (fun j => by
          refine Fin.lastCases ?_ (fun j => ?_) j
          · simpa [withT] using htl
          · simp [withT]) (fun j => by
          refine Fin.lastCases ?_ (fun j => ?_) j
          · simp only [c, withT, Fin.snoc_last]
            intro k A hA
            have hk := getElem?_lt hA
            rw [htl] at hk
            obtain rfl : k = 0 := by omega
            have := htc 0 A hA
            simp only [coeff_zero_C]
            exact this
          · simp only [c, withT, Fin.snoc_castSucc]
            intro k A hA
            match k with
            | 0 => simp at hA; subst hA; simp only [coeff_zero_C]; exact hv j
            | k + 1 => simp at hA) (by rw [hc0]; exact (hd.smooth i _).lDom) hy
      obtain ⟨a1, a2, a3, a4⟩ := this
      refine ⟨⟨?_, ?_⟩, ?_, a2⟩
      · rw [a4.1]; exact hs.1
      · rw [a4.2.2.1]; exact hs.2
      · rcases a3 with a | ⟨a, -⟩ <;> exact a) _ ⟨hmode, huse⟩ _ _ h7
  obtain ⟨⟨m1, m2⟩, hy⟩ := key
  unfold update at h8
  obtain ⟨w, s5, hw, h9⟩ := bind_run h8
  have hw' := vec_inv (J := fun s => s.mode = 1) (Q := fun i w => w.length = 2 ∧ Psa.Mem (S := Interval D) (antiCo fun k => coeff k ((P.f i).ps ρ c)) w) (fun i s hs w s' hw => by
    obtain ⟨a, s6, g1, g2⟩ := bind_run hw
    obtain ⟨g3, rfl⟩ := lift_run g1
    obtain ⟨g4, g5⟩ := integrate_contains (fuel := fuel) (by rw [(hy i).1]; norm_num) (hy i).2 g3
    obtain ⟨rfl, e2, e3⟩ := setorder1 (S := Interval D) (N := 1) hs g5 g2
    refine ⟨hs, e2, fun k A hA => ?_⟩
    have hk := getElem?_lt hA
    have := e3 k A hA
    dsimp only at this
    rw [if_pos (by rw [g4, (hy i).1]; omega)] at this
    exact this) _ m1 _ _ hw
  obtain ⟨rfl, h10⟩ := vec_lift h9
  obtain ⟨e1, e2⟩ := addHead_mem (S := Interval D) (hw'.2 i).2 (hd.init i) (h10 i)
  refine ⟨by rw [e1]; exact (hw'.2 i).1, fun A hA => ?_⟩
  have := e2 1 A hA
  dsimp only at this
  rw [if_neg one_ne_zero] at this
  have e : antiCo (fun k => coeff k ((P.f i).ps ρ c)) 1 = (P.f i).real ρ (withT v t) := by
    simp only [antiCo]
    rw [Expr.ps_zero (by rw [hc0]; exact hd.smooth i _), hc0]
    simp
  rw [e] at this
  exact this

end Lohner
end Ode
end Kv
