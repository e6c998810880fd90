import Verif.Ode.Odescale
import Verif.Props.Ode
import Mathlib.Analysis.Calculus.FDeriv.OfCompLeft
import Mathlib.Analysis.Calculus.Deriv.MeanValue
import Mathlib.Analysis.Calculus.Deriv.Inverse
import Mathlib.Topology.Order.IntermediateValue

/-!
# C92: `Odescale`

Main theorems: `C92_rhs`, `C92_dom`, `C92_solutions`, `C92_encloses_partial`.
-/

namespace Kv
open RopSem
open Rop (lit)

theorem rename_real {n m : ℕ} (σ : Fin n → Fin m) (ρ : ℕ → ℝ) (x : Fin m → ℝ) (e : Expr n) : (e.rename σ).real ρ x = e.real ρ (fun i => x (σ i)) := by
  induction e with
  | var | par | cst => rfl
  | un f a ha => simp [Expr.rename, Expr.real, ha]
  | bin o a b ha hb => simp [Expr.rename, Expr.real, ha, hb]
  | binC o a k ha => simp [Expr.rename, Expr.real, ha]
  | cBin o k b hb => simp [Expr.rename, Expr.real, hb]
  | powI a y ha => simp [Expr.rename, Expr.real, ha]
  | pow a b ha hb => simp [Expr.rename, Expr.real, ha, hb]

theorem rename_dom {n m : ℕ} (σ : Fin n → Fin m) (ρ : ℕ → ℝ) (x : Fin m → ℝ) (e : Expr n) : (e.rename σ).Dom ρ x ↔ e.Dom ρ (fun i => x (σ i)) := by
  induction e with
  | var | par | cst => rfl
  | un f a ha => simp [Expr.rename, Expr.Dom, ha, rename_real]
  | bin o a b ha hb => simp [Expr.rename, Expr.Dom, ha, hb, rename_real]
  | binC o a k ha => simp [Expr.rename, Expr.Dom, ha]
  | cBin o k b hb => simp [Expr.rename, Expr.Dom, hb, rename_real]
  | powI a y ha => simp [Expr.rename, Expr.Dom, ha, rename_real]
  | pow a b ha hb => simp [Expr.rename, Expr.Dom, ha, hb, rename_real]

theorem withT_castSucc {n : ℕ} (x : Fin n → ℝ) (t s : ℝ) : (fun i : Fin (n + 1) => Ode.withT (Ode.withT x t) s (Fin.castSucc i)) = Ode.withT x t := by
  funext i
  simp [Ode.withT]

namespace Odescale
variable {n : ℕ}

theorem sumSq_real (f : Fin n → Expr (n + 1)) (ρ : ℕ → ℝ) (x : Fin (n + 2) → ℝ) : (sumSq f).real ρ x = 1 + ∑ i, (ty f i).real ρ x ^ 2 := by
  have key : ∀ (L : List (Expr (n + 2))) (g : Expr (n + 2)), (L.foldl (fun g u => Expr.bin .add g (.bin .mul u u)) g).real ρ x = g.real ρ x + (L.map fun u => u.real ρ x ^ 2).sum := by
    intro L
    induction L with
    | nil => intro g; simp
    | cons u L ih =>
      intro g
      simp only [List.foldl_cons, ih, List.map_cons, List.sum_cons, Expr.real, Bin.real]
      ring
  unfold sumSq
  rw [key, List.map_ofFn, List.sum_ofFn]
  simp only [Expr.real, is_dbl Interval.is_one, Function.comp]

theorem sumSq_dom (f : Fin n → Expr (n + 1)) (ρ : ℕ → ℝ) (x : Fin (n + 2) → ℝ) : (sumSq f).Dom ρ x ↔ ∀ i, (ty f i).Dom ρ x := by
  have key : ∀ (L : List (Expr (n + 2))) (g : Expr (n + 2)), (L.foldl (fun g u => Expr.bin .add g (.bin .mul u u)) g).Dom ρ x ↔ g.Dom ρ x ∧ ∀ u ∈ L, u.Dom ρ x := by
    intro L
    induction L with
    | nil => intro g; simp
    | cons u L ih =>
      intro g
      simp only [List.foldl_cons, ih, Expr.Dom, Bin.Dom, List.mem_cons]
      constructor
      · rintro ⟨⟨h1, ⟨h2, -⟩, -⟩, h3⟩
        exact ⟨h1, fun v hv => hv.elim (fun e => e ▸ h2) (h3 v)⟩
      · rintro ⟨h1, h2⟩
        exact ⟨⟨h1, ⟨h2 u (.inl rfl), h2 u (.inl rfl), trivial⟩, trivial⟩, fun v hv => h2 v (.inr hv)⟩
  unfold sumSq
  rw [key]
  simp [Expr.Dom, List.mem_ofFn]

theorem g0_real (f : Fin n → Expr (n + 1)) (ρ : ℕ → ℝ) (x : Fin (n + 2) → ℝ) : (g0 f).real ρ x = 1 / Real.sqrt (1 + ∑ i, (ty f i).real ρ x ^ 2) := by
  simp only [g0, Expr.real, Bin.real, Un.real, sumSq_real, is_dbl Interval.is_one]

end Odescale

open Odescale

variable {n : ℕ} {f : Fin n → Expr (n + 1)} {ρ : ℕ → ℝ}

/-- C92: the right-hand side of the new system: that of `f` at the unknowns and the last unknown as time, times a positive factor `c`, and the factor
itself; the new system moves with speed 1. -/
theorem C92_rhs (x : Fin n → ℝ) (t s : ℝ) : ∃ c : ℝ, 0 < c ∧ c ≤ 1 ∧
    (∀ i : Fin n, (odescale f i.castSucc).real ρ (Ode.withT (Ode.withT x t) s) = (f i).real ρ (Ode.withT x t) * c) ∧
    (odescale f (Fin.last n)).real ρ (Ode.withT (Ode.withT x t) s) = c ∧
    ∑ i, (odescale f i).real ρ (Ode.withT (Ode.withT x t) s) ^ 2 = 1 := by
  have ht : ∀ i, (ty f i).real ρ (Ode.withT (Ode.withT x t) s) = (f i).real ρ (Ode.withT x t) := fun i => by
    rw [ty, rename_real, withT_castSucc]
  set S := ∑ i, (f i).real ρ (Ode.withT x t) ^ 2 with hS
  have hS0 : 0 ≤ S := Finset.sum_nonneg fun i _ => sq_nonneg _
  have hq : 1 ≤ Real.sqrt (1 + S) := by rw [Real.one_le_sqrt]; linarith
  have hg : (g0 f).real ρ (Ode.withT (Ode.withT x t) s) = 1 / Real.sqrt (1 + S) := by
    rw [g0_real]; simp only [ht, hS]
  have h1 : ∀ i : Fin n, (odescale f i.castSucc).real ρ (Ode.withT (Ode.withT x t) s) = (f i).real ρ (Ode.withT x t) * (1 / Real.sqrt (1 + S)) := fun i => by
    simp only [odescale, Fin.snoc_castSucc, Expr.real, Bin.real, ht, hg]
  have h2 : (odescale f (Fin.last n)).real ρ (Ode.withT (Ode.withT x t) s) = 1 / Real.sqrt (1 + S) := by
    simp only [odescale, Fin.snoc_last, hg]
  refine ⟨1 / Real.sqrt (1 + S), by positivity, ?_, h1, h2, ?_⟩
  · rw [div_le_one (by linarith)]; exact hq
  · rw [Fin.sum_univ_castSucc, h2]
    simp only [h1, mul_pow, ← Finset.sum_mul]
    rw [← hS]
    have : Real.sqrt (1 + S) ^ 2 = 1 + S := Real.sq_sqrt (by linarith)
    have h0 : 1 + S ≠ 0 := by linarith
    rw [div_pow, this, one_pow]
    field_simp
    ring

/-- C92: the new system is defined where `f` is -/
theorem C92_dom (x : Fin n → ℝ) (t s : ℝ) : (∀ i, (odescale f i).Dom ρ (Ode.withT (Ode.withT x t) s)) ↔ ∀ i, (f i).Dom ρ (Ode.withT x t) := by
  have ht : ∀ i, (ty f i).Dom ρ (Ode.withT (Ode.withT x t) s) ↔ (f i).Dom ρ (Ode.withT x t) := fun i => by
    rw [ty, rename_dom, withT_castSucc]
  have hs : 0 < (sumSq f).real ρ (Ode.withT (Ode.withT x t) s) := by
    rw [sumSq_real]
    have : 0 ≤ ∑ i, (ty f i).real ρ (Ode.withT (Ode.withT x t) s) ^ 2 := Finset.sum_nonneg fun i _ => sq_nonneg _
    linarith
  have hg : (g0 f).Dom ρ (Ode.withT (Ode.withT x t) s) ↔ ∀ i, (f i).Dom ρ (Ode.withT x t) := by
    simp only [g0, Expr.Dom, sumSq_dom, ht, Bin.Dom, Un.Dom, Expr.real, Un.real]
    exact ⟨fun h => h.1.1, fun h => ⟨⟨h, hs.le⟩, (Real.sqrt_pos.2 hs).ne'⟩⟩
  constructor
  · intro h
    have := h (Fin.last n)
    rw [odescale, Fin.snoc_last] at this
    exact hg.1 this
  · intro h i
    refine Fin.lastCases ?_ (fun i => ?_) i
    · rw [odescale, Fin.snoc_last]; exact hg.2 h
    · rw [odescale, Fin.snoc_castSucc]
      exact ⟨(ht i).2 (h i), hg.2 h, trivial⟩

theorem rename_fin {n m : ℕ} (σ : Fin n → Fin m) (e : Expr n) : (e.rename σ).FinCst ↔ e.FinCst := by
  induction e with
  | var | par | cst => rfl
  | un f a ha => simp [Expr.rename, Expr.FinCst, ha]
  | bin o a b ha hb => simp [Expr.rename, Expr.FinCst, ha, hb]
  | binC o a k ha => simp [Expr.rename, Expr.FinCst, ha]
  | cBin o k b hb => simp [Expr.rename, Expr.FinCst, hb]
  | powI a y ha => simp [Expr.rename, Expr.FinCst, ha]
  | pow a b ha hb => simp [Expr.rename, Expr.FinCst, ha, hb]

/-- the constants of the new system are finite if those of `f` are -/
theorem odescale_fin (h : ∀ i, (f i).FinCst) (i : Fin (n + 1)) : (odescale f i).FinCst := by
  have h1 : Is (lit 1 : D) (dbl (lit 1)) := by rw [is_dbl Interval.is_one]; exact Interval.is_one
  have ht : ∀ i, (ty f i).FinCst := fun i => (rename_fin _ _).2 (h i)
  have key : ∀ (L : List (Expr (n + 2))) (g : Expr (n + 2)), g.FinCst → (∀ u ∈ L, u.FinCst) → (L.foldl (fun g u => Expr.bin .add g (.bin .mul u u)) g).FinCst := by
    intro L
    induction L with
    | nil => intro g hg _; exact hg
    | cons u L ih =>
      intro g hg hu
      have := hu u (by simp)
      exact ih _ ⟨hg, this, this⟩ fun v hv => hu v (by simp [hv])
  have hg : (g0 f).FinCst := ⟨key _ _ h1 (by simpa [List.mem_ofFn] using ht), h1⟩
  refine Fin.lastCases ?_ (fun i => ?_) i
  · rw [odescale, Fin.snoc_last]; exact hg
  · rw [odescale, Fin.snoc_castSucc]; exact ⟨ht i, hg⟩

/-- the real right-hand side given by expressions -/
noncomputable def rhsOf {m : ℕ} (f : Fin m → Expr (m + 1)) (ρ : ℕ → ℝ) (x : Fin m → ℝ) (t : ℝ) (i : Fin m) : ℝ := (f i).real ρ (Ode.withT x t)

theorem snoc_split {n : ℕ} (z : Fin (n + 1) → ℝ) : z = Ode.withT (fun i => z i.castSucc) (z (Fin.last n)) := by
  funext i
  refine Fin.lastCases ?_ (fun i => ?_) i <;> simp [Ode.withT]

theorem inv_deriv {T T' : ℝ → ℝ} {a b : ℝ} (hab : a ≤ b) (hT : ∀ s ∈ Set.Icc a b, HasDerivWithinAt T (T' s) (Set.Icc a b) s) (hp : ∀ s ∈ Set.Icc a b, 0 < T' s) :
    StrictMonoOn T (Set.Icc a b) ∧ ∃ S : ℝ → ℝ, (∀ s ∈ Set.Icc a b, S (T s) = s) ∧ ∀ t ∈ Set.Icc (T a) (T b), S t ∈ Set.Icc a b ∧ T (S t) = t ∧
      HasDerivWithinAt S (T' (S t))⁻¹ (Set.Icc (T a) (T b)) t := by
  have hc : ContinuousOn T (Set.Icc a b) := fun s hs => (hT s hs).continuousWithinAt
  have hm : StrictMonoOn T (Set.Icc a b) := strictMonoOn_of_hasDerivWithinAt_pos (convex_Icc a b) hc
    (fun s hs => (hT s (interior_subset hs)).mono interior_subset) fun s hs => hp s (interior_subset hs)
  have him : T '' Set.Icc a b = Set.Icc (T a) (T b) := hc.image_Icc_of_monotoneOn hab hm.monotoneOn
  have hex : ∀ t ∈ Set.Icc (T a) (T b), ∃ s ∈ Set.Icc a b, T s = t := fun t ht => by rw [← him] at ht; exact ht
  set S := Function.invFunOn T (Set.Icc a b) with hS
  have h1 : ∀ t ∈ Set.Icc (T a) (T b), S t ∈ Set.Icc a b ∧ T (S t) = t := fun t ht => Function.invFunOn_pos (hex t ht)
  refine ⟨hm, S, fun s hs => hm.injOn.leftInvOn_invFunOn hs, fun t ht => ⟨(h1 t ht).1, (h1 t ht).2, ?_⟩⟩
  have hcont : Filter.Tendsto S (nhdsWithin t (Set.Icc (T a) (T b))) (nhdsWithin (S t) (Set.Icc a b)) := by
    refine tendsto_nhdsWithin_iff.2 ⟨tendsto_order.2 ⟨fun c hc' => ?_, fun c hc' => ?_⟩, ?_⟩
    · by_cases hca : c < a
      · filter_upwards [self_mem_nhdsWithin] with u hu
        exact hca.trans_le (h1 u hu).1.1
      · have hci : c ∈ Set.Icc a b := ⟨not_lt.1 hca, hc'.le.trans (h1 t ht).1.2⟩
        have : T c < t := by have := hm hci (h1 t ht).1 hc'; rwa [(h1 t ht).2] at this
        filter_upwards [self_mem_nhdsWithin, mem_nhdsWithin_of_mem_nhds (lt_mem_nhds this)] with u hu hu'
        by_contra hcu
        have := hm.monotoneOn (h1 u hu).1 hci (not_lt.1 hcu)
        rw [(h1 u hu).2] at this
        exact absurd hu' (not_lt.2 this)
    · by_cases hcb : b < c
      · filter_upwards [self_mem_nhdsWithin] with u hu
        exact (h1 u hu).1.2.trans_lt hcb
      · have hci : c ∈ Set.Icc a b := ⟨(h1 t ht).1.1.trans hc'.le, not_lt.1 hcb⟩
        have : t < T c := by have := hm (h1 t ht).1 hci hc'; rwa [(h1 t ht).2] at this
        filter_upwards [self_mem_nhdsWithin, mem_nhdsWithin_of_mem_nhds (gt_mem_nhds this)] with u hu hu'
        by_contra hcu
        have := hm.monotoneOn hci (h1 u hu).1 (not_lt.1 hcu)
        rw [(h1 u hu).2] at this
        exact absurd hu' (not_lt.2 this)
    · filter_upwards [self_mem_nhdsWithin] with u hu
      exact (h1 u hu).1
  have hd : HasFDerivWithinAt T ((ContinuousLinearEquiv.unitsEquivAut ℝ (Units.mk0 (T' (S t)) (hp _ (h1 t ht).1).ne') : ℝ ≃L[ℝ] ℝ) : ℝ →L[ℝ] ℝ) (Set.Icc a b) (S t) := by
    have := (hT (S t) (h1 t ht).1).hasFDerivWithinAt
    have e : ((ContinuousLinearEquiv.unitsEquivAut ℝ (Units.mk0 (T' (S t)) (hp _ (h1 t ht).1).ne') : ℝ ≃L[ℝ] ℝ) : ℝ →L[ℝ] ℝ) = ContinuousLinearMap.toSpanSingleton ℝ (T' (S t)) := by
      ext
      simp
    rw [e]
    exact this
  have := HasFDerivWithinAt.of_local_left_inverse hcont hd ht (by
    filter_upwards [self_mem_nhdsWithin] with u hu
    exact (h1 u hu).2)
  have h2 := this.hasDerivWithinAt
  have e : (((ContinuousLinearEquiv.unitsEquivAut ℝ (Units.mk0 (T' (S t)) (hp _ (h1 t ht).1).ne')).symm : ℝ ≃L[ℝ] ℝ) : ℝ →L[ℝ] ℝ) 1 = (T' (S t))⁻¹ := by
    simp
  rwa [e] at h2

/-- C92: a solution of the new system from `(x0, t0)` runs through the solution of `x' = f(x, t)`, `x(t0) = x0`: the last component increases strictly from `t0`, and the other
components are the solution at this time. -/
theorem C92_solutions {a b : ℝ} (hab : a ≤ b) {x0 : Fin n → ℝ} {t0 : ℝ} {Y : ℝ → Fin (n + 1) → ℝ} (hY : IsSol (rhsOf (odescale f) ρ) a b (Ode.withT x0 t0) Y) :
    StrictMonoOn (fun s => Y s (Fin.last n)) (Set.Icc a b) ∧ Y a (Fin.last n) = t0 ∧
      ∃ y, IsSol (rhsOf f ρ) t0 (Y b (Fin.last n)) x0 y ∧ ∀ s ∈ Set.Icc a b, ∀ i : Fin n, y (Y s (Fin.last n)) i = Y s i.castSucc := by
  obtain ⟨h0, hd⟩ := hY
  have hdi : ∀ i, ∀ s ∈ Set.Icc a b, HasDerivWithinAt (fun s => Y s i) (rhsOf (odescale f) ρ (Y s) s i) (Set.Icc a b) s := fun i s hs =>
    hasDerivWithinAt_pi.1 (hd s hs) i
  have hr : ∀ s, ∃ c : ℝ, 0 < c ∧ (∀ i : Fin n, rhsOf (odescale f) ρ (Y s) s i.castSucc = rhsOf f ρ (fun i => Y s i.castSucc) (Y s (Fin.last n)) i * c) ∧
      rhsOf (odescale f) ρ (Y s) s (Fin.last n) = c := fun s => by
    obtain ⟨c, h1, -, h2, h3, -⟩ := C92_rhs (f := f) (ρ := ρ) (fun i => Y s i.castSucc) (Y s (Fin.last n)) s
    have e := snoc_split (Y s)
    refine ⟨c, h1, fun i => ?_, ?_⟩
    · have := h2 i
      unfold rhsOf
      rw [← e] at this ⊢
      exact this
    · unfold rhsOf
      rw [← h3, ← e]
  have ha : Y a (Fin.last n) = t0 := by rw [h0]; simp [Ode.withT]
  obtain ⟨hm, S, hS, hS'⟩ := inv_deriv (T := fun s => Y s (Fin.last n)) hab (hdi (Fin.last n)) (fun s _ => by
    obtain ⟨c, h1, -, h3⟩ := hr s
    rw [h3]; exact h1)
  refine ⟨hm, ha, fun t i => Y (S t) i.castSucc, ⟨?_, fun t ht => ?_⟩, fun s hs i => by simp only [hS s hs]⟩
  · funext i
    show Y (S t0) i.castSucc = x0 i
    rw [← ha, hS a ⟨le_rfl, hab⟩, h0]
    simp [Ode.withT]
  · rw [← ha] at ht ⊢
    obtain ⟨k1, k2, k3⟩ := hS' t ht
    refine hasDerivWithinAt_pi.2 fun i => ?_
    have := (hdi i.castSucc (S t) k1).comp t k3 (fun u hu => (hS' u hu).1)
    obtain ⟨c, h1, h2, h3⟩ := hr (S t)
    rw [h2 i, h3, mul_assoc, mul_inv_cancel₀ h1.ne', mul_one] at this
    simp only [k2] at this
    exact this

/-- C92 (partial): if `ode` succeeds for `Odescale(f)`, then the solution of `x' = f(x, t)`, `x(t0) = x0` exists up to a time in the returned interval of the last unknown, and
its value at this time is in the returned intervals of the others.

Missing: as for `C45_partial`, the returned intervals must be bounded. -/
theorem C92_encloses_partial {P : Ode.Problem (n + 1)} {q : Ode.Param} {fuel k : ℕ} {st st' : PSt (Interval D)} {r : Ode.Result (n + 1)} {x0 : Fin n → ℝ} {t0 a b : ℝ}
    (hf : P.f = odescale f) (hc : Ode.Call P q) (h : (letI := scalI fuel; ode k P q) st = (.ok r, st')) (hr : r.ret ≠ 0) (hbd : ∀ i, Bd (r.init i))
    (hp : ∀ i, ρ i ∈ P.p i) (hx : ∀ i, x0 i ∈ P.init i.castSucc) (ht : t0 ∈ P.init (Fin.last n)) (ha : a ∈ P.start) (hb : b ∈ r.stop) (hab : a ≤ b)
    (hdom : ∀ i, (f i).Dom ρ (Ode.withT x0 t0)) :
    ∃ t1 ∈ r.init (Fin.last n), t0 ≤ t1 ∧ ∃ y, IsSol (rhsOf f ρ) t0 t1 x0 y ∧ ∀ i : Fin n, y t1 i ∈ r.init i.castSucc := by
  obtain ⟨Y, hY, hY1, -⟩ := C45_partial (x0 := Ode.withT x0 t0) hc h hr hbd hp (fun i => by
    refine Fin.lastCases ?_ (fun i => ?_) i
    · simpa [Ode.withT] using ht
    · simpa [Ode.withT] using hx i) ha hb hab (by rw [hf]; exact (C92_dom x0 t0 a).2 hdom)
  have hY' : IsSol (rhsOf (odescale f) ρ) a b (Ode.withT x0 t0) Y := by
    have e : P.rhsR ρ = rhsOf (odescale f) ρ := by funext x t i; simp only [Ode.Problem.rhsR, rhsOf, hf]
    rwa [e] at hY
  obtain ⟨h1, h2, y, h3, h4⟩ := C92_solutions hab hY'
  refine ⟨_, hY1 (Fin.last n), ?_, y, h3, fun i => ?_⟩
  · rw [← h2]; exact h1.monotoneOn ⟨le_rfl, hab⟩ ⟨hab, le_rfl⟩ hab
  · rw [h4 b ⟨hab, le_rfl⟩ i]; exact hY1 i.castSucc

/-! ## examples -/

/-- `x' = 3/4` -/
def exSlope : Fin 1 → Expr 2 := fun _ => .cst (lit (3 / 4))

/-- a solution of the new system for `x' = 3/4`: it moves along `(3/5, 4/5)` -/
example : IsSol (rhsOf (odescale exSlope) fun _ => 0) 0 5 (Ode.withT (fun _ => 0) 0) (fun s => Ode.withT (fun _ => 3 / 5 * s) (4 / 5 * s)) := by
  have hq : Real.sqrt (1 + (3 / 4) ^ 2) = 5 / 4 := by
    rw [show (1 : ℝ) + (3 / 4) ^ 2 = (5 / 4) ^ 2 by norm_num]; exact Real.sqrt_sq (by norm_num)
  have hk : dbl (lit (3 / 4)) = 3 / 4 := is_dbl (by
    have := Interval.is_cst 3 (-2) (by decide) (by decide) (by decide) (q := 3 / 4) (by norm_num)
    simpa using this)
  refine ⟨by simp, fun t _ => hasDerivWithinAt_pi.2 fun i => ?_⟩
  refine Fin.lastCases ?_ (fun i => ?_) i
  · simp only [rhsOf, odescale, Fin.snoc_last, g0_real, ty, rename_real, exSlope, Expr.real, hk, Ode.withT]
    simp only [Finset.univ_unique, Finset.sum_const, Finset.card_singleton, one_smul, hq]
    simpa using ((hasDerivAt_id t).const_mul (4 / 5 : ℝ)).hasDerivWithinAt
  · simp only [rhsOf, odescale, Fin.snoc_castSucc, Expr.real, Bin.real, g0_real, ty, rename_real, exSlope, hk, Ode.withT]
    simp only [Finset.univ_unique, Finset.sum_const, Finset.card_singleton, one_smul, hq]
    have := ((hasDerivAt_id t).const_mul (3 / 5 : ℝ)).hasDerivWithinAt (s := Set.Icc 0 5)
    norm_num at this ⊢
    exact this

/-- `Odescale` of `x' = x`, from `x = 1`, `t = 0`, up to `s = 1/4` -/
def exScale : Ode.Problem 2 := ⟨odescale fun _ : Fin 1 => .var 0, fun _ => pt 0, Fin.snoc (α := fun _ => Interval D) (fun _ => pt 1) (pt 0), pt 0, pt (1 / 4), fun a _ => a⟩

def scaleOk (r : Res (Ode.Result 2) × PSt (Interval D)) : Bool := match r.1 with
  | .ok r => r.ret == 2 && isFinD (r.init 0).inf && isFinD (r.init 0).sup && isFinD (r.init 1).inf && isFinD (r.init 1).sup
  | _ => false

/-- the hypotheses of `C92_encloses_partial` -/
example : ∃ (r : Ode.Result 2) (st' : PSt (Interval D)), exScale.f = odescale (fun _ : Fin 1 => .var 0) ∧ Ode.Call exScale exPar ∧
    (letI := scalI 100; ode 10 exScale exPar) (st0 2) = (.ok r, st') ∧ r.ret ≠ 0 ∧ (∀ i, Bd (r.init i)) := by
  have h : scaleOk ((letI := scalI 100; ode 10 exScale exPar) (st0 2)) = true := by decide +kernel
  revert h
  generalize (letI := scalI 100; ode 10 exScale exPar) (st0 2) = r
  intro h
  obtain ⟨a, s⟩ := r
  unfold scaleOk at h
  dsimp only at h
  split at h
  · next _ o =>
    simp only [Bool.and_eq_true, beq_iff_eq, isFinD_iff] at h
    refine ⟨o, s, rfl, ⟨by decide, by decide, ?_, fun h => by cases h⟩, rfl, by rw [h.1.1.1.1]; decide, fun i => ?_⟩
    · exact odescale_fin fun _ => trivial
    · match i with
      | 0 => exact ⟨h.1.1.1.2, h.1.1.2⟩
      | 1 => exact ⟨h.1.2, h.2⟩
  · cases h

end Kv
