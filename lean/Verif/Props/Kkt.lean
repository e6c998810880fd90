import Verif.Solver.Kkt
import Verif.Props.Autodif
import Mathlib.Analysis.SpecialFunctions.Pow.Real
import Mathlib.Analysis.Calculus.Deriv.Pow
import Mathlib.Analysis.Calculus.Deriv.Slope
import Mathlib.Analysis.Calculus.Deriv.Add
import Mathlib.Analysis.Calculus.Deriv.Comp

/-!
# C90: the equation of Karush, Kuhn and Tucker

Main theorems: `C90_alpha`, `C90_alpha_deriv`, `C90_alpha_autodif`, `C90_encloses_partial`, `C90_excludes_partial`, `C90_zeros`, `C90_constant_undefined`.
-/

namespace Kv
open RopSem Kv.Interval Kkt
open Rop (lit)

/-- the ends of the interval are finite numbers -/
def Bounded (X : Interval D) : Prop := (∃ a, Is X.inf a) ∧ ∃ b, Is X.sup b

theorem le_zero_iff {a : D} {c : ℝ} (h : Is a c) : Rop.le a (lit 0) = true ↔ c ≤ 0 := by
  rw [RopSem.le_iff, h.2, (is_zero (T := D)).2]
  exact ⟨fun hh => by exact_mod_cast hh.2.2, fun hh => ⟨h.1, is_zero.1, by exact_mod_cast hh⟩⟩

theorem zero_le_iff {a : D} {c : ℝ} (h : Is a c) : Rop.le (lit 0) a = true ↔ 0 ≤ c := by
  rw [RopSem.le_iff, h.2, (is_zero (T := D)).2]
  exact ⟨fun hh => by exact_mod_cast hh.2.2, fun hh => ⟨is_zero.1, h.1, by exact_mod_cast hh⟩⟩

theorem lo_le {a : D} {c t : ℝ} (h : Is a c) (ht : Lo a t) : c ≤ t := by
  have := ht.2; rw [h.2] at this; exact_mod_cast this

theorem hi_le {a : D} {c t : ℝ} (h : Is a c) (ht : Hi a t) : t ≤ c := by
  have := ht.2; rw [h.2] at this; exact_mod_cast this

theorem powD_mem {fuel : ℕ} {a k : D} {c : ℝ} {m : ℕ} {Z : Interval D} (hk : Is k m) (h : powD fuel a k = .ok Z) (ha : Is a c) (h0 : 0 < c) : c ^ m ∈ Z := by
  have := Interval.pow_mem h (point_mem ha) (point_mem hk) h0
  rwa [Real.rpow_natCast] at this

theorem is_three' : Is (lit 3 : D) ((3 : ℕ) : ℝ) := by exact_mod_cast is_three
theorem is_two' : Is (lit 2 : D) ((2 : ℕ) : ℝ) := by exact_mod_cast is_two (T := D)

/-- C90: `alpha_plus(x)` and `alpha_minus(x)` enclose `max(t, 0)³` and `max(-t, 0)³`. -/
theorem C90_alpha {fuel : ℕ} {X Z : Interval D} {t : ℝ} (hX : Bounded X) (ht : t ∈ X) :
    (alphaPlus fuel X = .ok Z → max t 0 ^ 3 ∈ Z) ∧ (alphaMinus X = .ok Z → max (-t) 0 ^ 3 ∈ Z) := by
  obtain ⟨⟨a, ha⟩, b, hb⟩ := hX
  have h1 := lo_le ha ht.1
  have h2 := hi_le hb ht.2
  constructor
  · intro h
    obtain ⟨l, hl, h⟩ := bind_ok.1 h
    obtain ⟨u, hu, h⟩ := bind_ok.1 h
    cases h
    refine ⟨?_, ?_⟩
    · split_ifs at hl with hc
      · cases hl
        exact is_zero.lo.mono (by positivity)
      · obtain ⟨P, hP, hl⟩ := bind_ok.1 hl
        cases hl
        have hc' : 0 < a := by rw [le_zero_iff ha] at hc; linarith
        exact (powD_mem is_three' hP ha hc').1.mono (pow_le_pow_left₀ hc'.le (h1.trans (le_max_left _ _)) 3)
    · split_ifs at hu with hc
      · cases hu
        rw [le_zero_iff hb] at hc
        refine is_zero.hi.mono ?_
        rw [max_eq_right (by linarith)]; norm_num
      · obtain ⟨P, hP, hu⟩ := bind_ok.1 hu
        cases hu
        have hc' : 0 < b := by rw [le_zero_iff hb] at hc; linarith
        exact (powD_mem is_three' hP hb hc').2.mono (pow_le_pow_left₀ (le_max_right _ _) (max_le h2 hc'.le) 3)
  · intro h
    obtain ⟨u, hu, h⟩ := bind_ok.1 h
    obtain ⟨l, hl, h⟩ := bind_ok.1 h
    cases h
    refine ⟨?_, ?_⟩
    · split_ifs at hl with hc
      · cases hl
        exact is_zero.lo.mono (by positivity)
      · obtain ⟨P, hP, hl⟩ := bind_ok.1 hl
        cases hl
        have hc' : b < 0 := by rw [zero_le_iff hb] at hc; linarith
        have := neg_mem (powInt_mem hP (point_mem hb))
        refine this.1.mono ?_
        rw [show -(b ^ (3 : ℤ)) = (-b) ^ 3 by rw [show (3 : ℤ) = ((3 : ℕ) : ℤ) from rfl, zpow_natCast]; ring]
        exact pow_le_pow_left₀ (by linarith) ((by linarith : -b ≤ -t).trans (le_max_left _ _)) 3
    · split_ifs at hu with hc
      · cases hu
        rw [zero_le_iff ha] at hc
        refine is_zero.hi.mono ?_
        rw [max_eq_right (by linarith)]; norm_num
      · obtain ⟨P, hP, hu⟩ := bind_ok.1 hu
        cases hu
        have hc' : a < 0 := by rw [zero_le_iff ha] at hc; linarith
        have := neg_mem (powInt_mem hP (point_mem ha))
        refine this.2.mono ?_
        rw [show -(a ^ (3 : ℤ)) = (-a) ^ 3 by rw [show (3 : ℤ) = ((3 : ℕ) : ℤ) from rfl, zpow_natCast]; ring]
        exact pow_le_pow_left₀ (le_max_right _ _) (max_le (by linarith) (by linarith)) 3

theorem hasDerivAt_plus (t : ℝ) : HasDerivAt (fun s : ℝ => max s 0 ^ 3) (3 * max t 0 ^ 2) t := by
  rcases lt_trichotomy t 0 with h | h | h
  · rw [max_eq_right h.le]
    have := (hasDerivAt_const t (0 : ℝ)).congr_of_eventuallyEq (f₁ := fun s : ℝ => max s 0 ^ 3) (by
      filter_upwards [gt_mem_nhds h] with s hs
      rw [max_eq_right (le_of_lt hs)]; norm_num)
    simpa using this
  · subst h
    rw [hasDerivAt_iff_tendsto_slope_zero]
    have hc : Filter.Tendsto (fun s : ℝ => max s 0 ^ 2) (nhdsWithin 0 {0}ᶜ) (nhds (3 * max (0 : ℝ) 0 ^ 2)) := by
      have : Continuous (fun s : ℝ => max s 0 ^ 2) := (continuous_id.max continuous_const).pow 2
      have h2 := this.tendsto 0
      simp only [max_self] at h2 ⊢
      norm_num at h2 ⊢
      exact h2.mono_left nhdsWithin_le_nhds
    refine hc.congr' ?_
    filter_upwards [self_mem_nhdsWithin] with s hs
    have hs : s ≠ 0 := hs
    simp only [zero_add, max_self, smul_eq_mul]
    rcases le_total s 0 with h | h
    · rw [max_eq_right h]; norm_num
    · rw [max_eq_left h]; field_simp; ring
  · rw [max_eq_left h.le]
    have := (hasDerivAt_pow 3 t).congr_of_eventuallyEq (f₁ := fun s : ℝ => max s 0 ^ 3) (by
      filter_upwards [lt_mem_nhds h] with s hs
      rw [max_eq_left (le_of_lt hs)])
    simpa using this

/-- C90: `alpha_plus_d(x)` and `alpha_minus_d(x)` enclose the derivatives of `max(t, 0)³` and `max(-t, 0)³`. -/
theorem C90_alpha_deriv {fuel : ℕ} {X Z : Interval D} {t : ℝ} (hX : Bounded X) (ht : t ∈ X) :
    (alphaPlusD fuel X = .ok Z → ∃ c ∈ Z, HasDerivAt (fun s : ℝ => max s 0 ^ 3) c t) ∧
      (alphaMinusD X = .ok Z → ∃ c ∈ Z, HasDerivAt (fun s : ℝ => max (-s) 0 ^ 3) c t) := by
  obtain ⟨⟨a, ha⟩, b, hb⟩ := hX
  have h1 := lo_le ha ht.1
  have h2 := hi_le hb ht.2
  constructor
  · intro h
    obtain ⟨l, hl, h⟩ := bind_ok.1 h
    obtain ⟨u, hu, h⟩ := bind_ok.1 h
    cases h
    refine ⟨3 * max t 0 ^ 2, ⟨?_, ?_⟩, hasDerivAt_plus t⟩
    · split_ifs at hl with hc
      · cases hl
        exact is_zero.lo.mono (by positivity)
      · obtain ⟨P, hP, hl⟩ := bind_ok.1 hl
        cases hl
        have hc' : 0 < a := by rw [le_zero_iff ha] at hc; linarith
        refine (sMul_mem (powD_mem is_two' hP ha hc') is_three).1.mono ?_
        have := pow_le_pow_left₀ hc'.le (h1.trans (le_max_left t 0)) 2
        linarith
    · split_ifs at hu with hc
      · cases hu
        rw [le_zero_iff hb] at hc
        refine is_zero.hi.mono ?_
        rw [max_eq_right (by linarith)]; norm_num
      · obtain ⟨P, hP, hu⟩ := bind_ok.1 hu
        cases hu
        have hc' : 0 < b := by rw [le_zero_iff hb] at hc; linarith
        refine (sMul_mem (powD_mem is_two' hP hb hc') is_three).2.mono ?_
        have := pow_le_pow_left₀ (le_max_right t 0) (max_le h2 hc'.le) 2
        linarith
  · intro h
    obtain ⟨l, hl, h⟩ := bind_ok.1 h
    obtain ⟨u, hu, h⟩ := bind_ok.1 h
    cases h
    refine ⟨-3 * max (-t) 0 ^ 2, ⟨?_, ?_⟩, ?_⟩
    · split_ifs at hl with hc
      · cases hl
        rw [zero_le_iff ha] at hc
        refine is_zero.lo.mono ?_
        rw [max_eq_right (by linarith)]; norm_num
      · obtain ⟨P, hP, hl⟩ := bind_ok.1 hl
        cases hl
        have hc' : a < 0 := by rw [zero_le_iff ha] at hc; linarith
        have := sMul_mem (powInt_mem hP (point_mem ha)) is_neg_three
        refine this.1.mono ?_
        have e : a ^ (2 : ℤ) = (-a) ^ 2 := by rw [show (2 : ℤ) = ((2 : ℕ) : ℤ) from rfl, zpow_natCast]; ring
        rw [e]
        have := pow_le_pow_left₀ (le_max_right (-t) 0) (max_le (by linarith : -t ≤ -a) (by linarith)) 2
        linarith
    · split_ifs at hu with hc
      · cases hu
        refine is_zero.hi.mono ?_
        have : 0 ≤ max (-t) 0 ^ 2 := by positivity
        linarith
      · obtain ⟨P, hP, hu⟩ := bind_ok.1 hu
        cases hu
        have hc' : b < 0 := by rw [zero_le_iff hb] at hc; linarith
        have := sMul_mem (powInt_mem hP (point_mem hb)) is_neg_three
        refine this.2.mono ?_
        have e : b ^ (2 : ℤ) = (-b) ^ 2 := by rw [show (2 : ℤ) = ((2 : ℕ) : ℤ) from rfl, zpow_natCast]; ring
        rw [e]
        have := pow_le_pow_left₀ (by linarith : 0 ≤ -b) ((by linarith : -b ≤ -t).trans (le_max_left (-t) 0)) 2
        linarith
    · have := (hasDerivAt_plus (-t)).comp t (hasDerivAt_neg t)
      simpa [Function.comp_def] using this

/-- C90: for an `autodif` argument, whose value and gradient enclose those of a function, `alpha_plus` and `alpha_minus` enclose the value and
the gradient of the composed function. -/
theorem C90_alpha_autodif {fuel n : ℕ} {u r : Autodif (Interval D)} {φ : (Fin n → ℝ) → ℝ} {x : Fin n → ℝ} {g : Fin n → ℝ} {A : Fin n → Interval D}
    (hX : Bounded u.v) (hv : φ x ∈ u.v) (hg : HasFDerivAt φ (lin g) x) (hd : u.d = List.ofFn A) (hA : ∀ j, g j ∈ A j) :
    (alphaPlusA fuel u = .ok r → max (φ x) 0 ^ 3 ∈ r.v ∧ ∃ (g' : Fin n → ℝ) (B : Fin n → Interval D),
      HasFDerivAt (fun y => max (φ y) 0 ^ 3) (lin g') x ∧ r.d = List.ofFn B ∧ ∀ j, g' j ∈ B j) ∧
    (alphaMinusA fuel u = .ok r → max (-φ x) 0 ^ 3 ∈ r.v ∧ ∃ (g' : Fin n → ℝ) (B : Fin n → Interval D),
      HasFDerivAt (fun y => max (-φ y) 0 ^ 3) (lin g') x ∧ r.d = List.ofFn B ∧ ∀ j, g' j ∈ B j) := by
  let _ := semI fuel
  constructor
  · intro h
    obtain ⟨v, hv', h⟩ := bind_ok.1 h
    obtain ⟨s, hs, h⟩ := bind_ok.1 h
    obtain ⟨d, hd', h⟩ := bind_ok.1 h
    cases h
    obtain ⟨c, hc, hc'⟩ := (C90_alpha_deriv (fuel := fuel) hX hv).1 hs
    exact ⟨(C90_alpha hX hv).1 hv', @GradIn.comp _ (semI fuel) n φ x u.d d (fun s => max s 0 ^ 3) c ⟨g, A, hg, hd, hA⟩ hc' _ hd' (@mulLeft _ (semI fuel) s c hc)⟩
  · intro h
    obtain ⟨v, hv', h⟩ := bind_ok.1 h
    obtain ⟨s, hs, h⟩ := bind_ok.1 h
    obtain ⟨d, hd', h⟩ := bind_ok.1 h
    cases h
    obtain ⟨c, hc, hc'⟩ := (C90_alpha_deriv (fuel := fuel) hX hv).2 hs
    exact ⟨(C90_alpha (fuel := fuel) hX hv).2 hv', @GradIn.comp _ (semI fuel) n φ x u.d d (fun s => max (-s) 0 ^ 3) c ⟨g, A, hg, hd, hA⟩ hc' _ hd' (@mulLeft _ (semI fuel) s c hc)⟩

theorem finM_ok {α : Type} : ∀ {m : ℕ} {f : Fin m → Res α} {r : Fin m → α}, finM f = .ok r → ∀ i, f i = .ok (r i)
  | 0, _, _, _, i => i.elim0
  | m + 1, f, r, h, i => by
    obtain ⟨a, ha, h⟩ := bind_ok.1 h
    obtain ⟨t, ht, h⟩ := bind_ok.1 h
    cases h
    refine Fin.cases ?_ (fun j => ?_) i
    · simpa using ha
    · simpa using finM_ok ht j

theorem addProd_mem {fuel n m len : ℕ} {fv R : Fin n → Interval D} {G : Fin m → Autodif (Interval D)} {b : Fin m → Interval D} {u : Fin n → ℝ}
    {dg : Fin m → Fin n → ℝ} {β : Fin m → ℝ} (hu : ∀ j, u j ∈ fv j) (hG : ∀ i j, dg i j ∈ @Autodif.row _ (scalI fuel) n (G i) j)
    (hb : ∀ i, β i ∈ b i) (h : addProd fuel len fv G b = .ok R) (j : Fin n) : u j + ∑ i, β i * dg i j ∈ R j := by
  unfold addProd at h
  split_ifs at h with h0 h1
  · cases h
    subst h0
    simpa using hu j
  · obtain ⟨t, ht, h⟩ := bind_ok.1 (finM_ok h j)
    injection h with h
    rw [← h]
    have := @dotFrom_mem _ (semI fuel) m _ _ _ t 0 (fun i => dg i j) β (point_mem is_zero) (fun i => hG i j) hb ht
    rw [zero_add] at this
    have e : ∑ i, β i * dg i j = ∑ i, dg i j * β i := Finset.sum_congr rfl fun i _ => mul_comm _ _
    rw [e]
    exact add_mem (hu j) this

/-- C90 (partial): the value of `KKT_equation(f, g, h)` for intervals encloses, for all `x`, `β`, `μ` in them, the vector of
`∂f/∂x_j + Σ max(β_i, 0)³ ∂g_i/∂x_j + Σ μ_k ∂h_k/∂x_j`, `g_i(x) + max(-β_i, 0)³` and `h_k(x)`; the functions are differentiable there.

Missing: constant `f` (undefined, see `C90_constant_undefined`), unbounded intervals of the `β_i`, the Jacobian matrix of the equation by nested
automatic differentiation. -/
theorem C90_encloses_partial {fuel n sg sh : ℕ} {p : ℕ → Interval D} {ρ : ℕ → ℝ} {f : Expr n} {g : Fin sg → Expr n} {h : Fin sh → Expr n}
    {X : Fin n → Interval D} {b : Fin sg → Interval D} {M : Fin sh → Interval D} {x : Fin n → ℝ} {β : Fin sg → ℝ} {μ : Fin sh → ℝ}
    {R1 : Fin n → Interval D} {R2 : Fin sg → Interval D} {R3 : Fin sh → Interval D}
    (hf : f.FinCst ∧ f.ConstDom ρ) (hg : ∀ i, (g i).FinCst ∧ (g i).ConstDom ρ) (hh : ∀ k, (h k).FinCst ∧ (h k).ConstDom ρ)
    (hp : ∀ i, ρ i ∈ p i) (hx : ∀ i, x i ∈ X i) (hb : ∀ i, Bounded (b i)) (hβ : ∀ i, β i ∈ b i) (hμ : ∀ k, μ k ∈ M k)
    (hr : kktEq fuel p f g h X b M = .ok (R1, R2, R3)) :
    ∃ (df : Fin n → ℝ) (dg : Fin sg → Fin n → ℝ) (dh : Fin sh → Fin n → ℝ), HasFDerivAt (fun y => f.real ρ y) (lin df) x ∧
      (∀ i, HasFDerivAt (fun y => (g i).real ρ y) (lin (dg i)) x) ∧ (∀ k, HasFDerivAt (fun y => (h k).real ρ y) (lin (dh k)) x) ∧
      (∀ j, df j + ∑ i, max (β i) 0 ^ 3 * dg i j + ∑ k, μ k * dh k j ∈ R1 j) ∧
      (∀ i, (g i).real ρ x + max (-β i) 0 ^ 3 ∈ R2 i) ∧ ∀ k, (h k).real ρ x ∈ R3 k := by
  obtain ⟨F, hF, hr⟩ := bind_ok.1 hr
  obtain ⟨G, hG, hr⟩ := bind_ok.1 hr
  obtain ⟨B, hB, hr⟩ := bind_ok.1 hr
  obtain ⟨gv, hgv, hr⟩ := bind_ok.1 hr
  obtain ⟨fv, hfv, hr⟩ := bind_ok.1 hr
  obtain ⟨H, hH, hr⟩ := bind_ok.1 hr
  obtain ⟨fv', hfv', hr⟩ := bind_ok.1 hr
  split_ifs at hr with hn
  cases hr
  obtain ⟨df, hdf, hdf'⟩ := C26_split (m := 1) (e := fun _ => f) (r := fun _ => F) (fun _ => hf.1) (fun _ => hf.2) hp hx (fun _ => hF)
  obtain ⟨dg, hdg, hdg'⟩ := C26_split (fun i => (hg i).1) (fun i => (hg i).2) hp hx (finM_ok hG)
  obtain ⟨dh, hdh, hdh'⟩ := C26_split (fun i => (hh i).1) (fun i => (hh i).2) hp hx (finM_ok hH)
  refine ⟨df 0, dg, dh, hdf 0, hdg, hdh, fun j => ?_, fun i => ?_, fun k => ?_⟩
  · exact addProd_mem (fun j => addProd_mem (hdf' 0) hdg' (fun i => (C90_alpha (hb i) (hβ i)).1 (finM_ok hB i)) hfv j) hdh' hμ hfv' j
  · obtain ⟨t, ht, h⟩ := bind_ok.1 (finM_ok hgv i)
    injection h with h
    rw [← h]
    exact add_mem ((@AD.val _ (semI fuel) _ _ _ _ _ (@evalAD_sound _ (semI fuel) n p X ρ x hp hx (g i) (G i) (hg i).1 (hg i).2 (finM_ok hG i)).2)) ((C90_alpha (fuel := 0) (hb i) (hβ i)).2 ht)
  · exact @AD.val _ (semI fuel) _ _ _ _ _ (@evalAD_sound _ (semI fuel) n p X ρ x hp hx (h k) (H k) (hh k).1 (hh k).2 (finM_ok hH k)).2

/-- the conditions of Karush, Kuhn and Tucker at a point, where the inequalities have the values `gx` and the equalities the values `hx` -/
def IsKKT {n sg sh : ℕ} (df : Fin n → ℝ) (dg : Fin sg → Fin n → ℝ) (dh : Fin sh → Fin n → ℝ) (gx : Fin sg → ℝ) (hx : Fin sh → ℝ)
    (lam : Fin sg → ℝ) (μ : Fin sh → ℝ) : Prop :=
  (∀ j, df j + ∑ i, lam i * dg i j + ∑ k, μ k * dh k j = 0) ∧ (∀ i, gx i ≤ 0 ∧ 0 ≤ lam i ∧ lam i * gx i = 0) ∧ ∀ k, hx k = 0

/-- C90: the zeros of the equation are the points which satisfy the conditions of Karush, Kuhn and Tucker with the multipliers `max(β_i, 0)³`
and `μ_k`; every such point with all its multipliers is obtained. -/
theorem C90_zeros {n sg sh : ℕ} (df : Fin n → ℝ) (dg : Fin sg → Fin n → ℝ) (dh : Fin sh → Fin n → ℝ) (gx : Fin sg → ℝ) (hx : Fin sh → ℝ)
    (lam : Fin sg → ℝ) (μ : Fin sh → ℝ) : IsKKT df dg dh gx hx lam μ ↔ ∃ β : Fin sg → ℝ, (∀ i, max (β i) 0 ^ 3 = lam i) ∧
      (∀ j, df j + ∑ i, max (β i) 0 ^ 3 * dg i j + ∑ k, μ k * dh k j = 0) ∧ (∀ i, gx i + max (-β i) 0 ^ 3 = 0) ∧ ∀ k, hx k = 0 := by
  have cube : ∀ t : ℝ, 0 ≤ t → ∃ s, 0 ≤ s ∧ s ^ 3 = t := fun t ht =>
    ⟨t ^ (((3 : ℕ) : ℝ)⁻¹), Real.rpow_nonneg ht _, Real.rpow_inv_natCast_pow ht (by norm_num)⟩
  constructor
  · rintro ⟨h1, h2, h3⟩
    have : ∀ i, ∃ β : ℝ, max β 0 ^ 3 = lam i ∧ gx i + max (-β) 0 ^ 3 = 0 := by
      intro i
      obtain ⟨hg, hl, hc⟩ := h2 i
      rcases mul_eq_zero.1 hc with h | h
      · obtain ⟨s, hs, e⟩ := cube (-gx i) (by linarith)
        refine ⟨-s, ?_, ?_⟩
        · rw [max_eq_right (by linarith), h]; norm_num
        · rw [neg_neg, max_eq_left hs, e]; ring
      · obtain ⟨s, hs, e⟩ := cube (lam i) hl
        refine ⟨s, by rw [max_eq_left hs, e], ?_⟩
        rw [max_eq_right (by linarith), h]; norm_num
    choose β hβ using this
    refine ⟨β, fun i => (hβ i).1, fun j => ?_, fun i => (hβ i).2, h3⟩
    simp only [(hβ _).1]
    exact h1 j
  · rintro ⟨β, h1, h2, h3, h4⟩
    refine ⟨fun j => ?_, fun i => ⟨?_, ?_, ?_⟩, h4⟩
    · have := h2 j
      simpa only [h1] using this
    · have : 0 ≤ max (-β i) 0 ^ 3 := by positivity
      have := h3 i
      linarith
    · rw [← h1]; positivity
    · rcases le_total (β i) 0 with h | h
      · rw [← h1, max_eq_right h]; norm_num
      · have := h3 i
        rw [max_eq_right (by linarith)] at this
        rw [show gx i = 0 by linarith, mul_zero]

/-- C90 (partial): a component of the value of `KKT_equation` which does not contain 0 shows that no `x` of the box satisfies the conditions of Karush,
Kuhn and Tucker with multipliers `max(β_i, 0)³` and slacks `max(-β_i, 0)³`, where the `β_i` and `μ_k` are in their intervals.

Missing: as for `C90_encloses_partial`. -/
theorem C90_excludes_partial {fuel n sg sh : ℕ} {p : ℕ → Interval D} {ρ : ℕ → ℝ} {f : Expr n} {g : Fin sg → Expr n} {h : Fin sh → Expr n}
    {X : Fin n → Interval D} {b : Fin sg → Interval D} {M : Fin sh → Interval D} {x : Fin n → ℝ} {β : Fin sg → ℝ} {μ : Fin sh → ℝ}
    {R1 : Fin n → Interval D} {R2 : Fin sg → Interval D} {R3 : Fin sh → Interval D}
    (hf : f.FinCst ∧ f.ConstDom ρ) (hg : ∀ i, (g i).FinCst ∧ (g i).ConstDom ρ) (hh : ∀ k, (h k).FinCst ∧ (h k).ConstDom ρ)
    (hp : ∀ i, ρ i ∈ p i) (hx : ∀ i, x i ∈ X i) (hb : ∀ i, Bounded (b i)) (hβ : ∀ i, β i ∈ b i) (hμ : ∀ k, μ k ∈ M k)
    (hr : kktEq fuel p f g h X b M = .ok (R1, R2, R3))
    (h0 : (∃ j, (0 : ℝ) ∉ R1 j) ∨ (∃ i, (0 : ℝ) ∉ R2 i) ∨ ∃ k, (0 : ℝ) ∉ R3 k) :
    ∃ (df : Fin n → ℝ) (dg : Fin sg → Fin n → ℝ) (dh : Fin sh → Fin n → ℝ), HasFDerivAt (fun y => f.real ρ y) (lin df) x ∧
      (∀ i, HasFDerivAt (fun y => (g i).real ρ y) (lin (dg i)) x) ∧ (∀ k, HasFDerivAt (fun y => (h k).real ρ y) (lin (dh k)) x) ∧
      ¬(IsKKT df dg dh (fun i => (g i).real ρ x) (fun k => (h k).real ρ x) (fun i => max (β i) 0 ^ 3) μ ∧
        ∀ i, (g i).real ρ x = -max (-β i) 0 ^ 3) := by
  obtain ⟨df, dg, dh, h1, h2, h3, h4, h5, h6⟩ := C90_encloses_partial hf hg hh hp hx hb hβ hμ hr
  refine ⟨df, dg, dh, h1, h2, h3, ?_⟩
  rintro ⟨⟨k1, -, k3⟩, k4⟩
  rcases h0 with ⟨j, hj⟩ | ⟨i, hi⟩ | ⟨k, hk⟩
  · have := h4 j
    rw [k1 j] at this
    exact hj this
  · have := h5 i
    rw [k4 i, neg_add_cancel] at this
    exact hi this
  · have := h6 k
    rw [show (h k).real ρ x = 0 from k3 k] at this
    exact hk this

/-- C90 fails for a constant objective function (a feasibility problem): the vector of the derivatives has no components, and
`KKT_equation` reads outside of it. -/
theorem C90_constant_undefined {fuel n sg sh : ℕ} {p : ℕ → Interval D} {ρ : ℕ → ℝ} {f : Expr n} {g : Fin sg → Expr n} {h : Fin sh → Expr n}
    {X : Fin n → Interval D} {b : Fin sg → Interval D} {M : Fin sh → Interval D} {x : Fin n → ℝ} (hn : 0 < n) (hc : f.closed = true)
    (hf : f.FinCst ∧ f.ConstDom ρ) (hp : ∀ i, ρ i ∈ p i) (hx : ∀ i, x i ∈ X i) (R) : kktEq fuel p f g h X b M ≠ .ok R := by
  intro hr
  obtain ⟨F, hF, hr⟩ := bind_ok.1 hr
  obtain ⟨G, hG, hr⟩ := bind_ok.1 hr
  obtain ⟨B, hB, hr⟩ := bind_ok.1 hr
  obtain ⟨gv, hgv, hr⟩ := bind_ok.1 hr
  obtain ⟨fv, hfv, hr⟩ := bind_ok.1 hr
  obtain ⟨H, hH, hr⟩ := bind_ok.1 hr
  obtain ⟨fv', hfv', hr⟩ := bind_ok.1 hr
  obtain ⟨-, -, hd⟩ := C26_constant hf.1 hf.2 hc hp hx hF
  rw [hd, if_pos (by simp; omega)] at hr
  cases hr

/-! Concrete cases: minimise `x²` under `1 - x ≤ 0`. -/

namespace Kkt
/-- the interval `[a, b]` -/
def iv (a b : ℚ) : Interval D := ⟨lit a, lit b⟩
/-- `x²` -/
def exF : Expr 1 := .bin .mul (.var 0) (.var 0)
/-- `1 - x` -/
def exG : Fin 1 → Expr 1 := fun _ => .cBin .sub (lit 1) (.var 0)
/-- the evaluation at `x ∈ [0.5, 1.5]`, `β` between `b1` and `b2` -/
def exRun (b1 b2 : ℚ) := kktEq 100 (fun _ => iv 0 0) exF exG (Fin.elim0 : Fin 0 → Expr 1) (fun _ => iv (1 / 2) (3 / 2)) (fun _ => iv b1 b2) Fin.elim0
end Kkt

/-- near the solution `x = 1`, `β = 2^(1/3)` the equation may have a zero; for `β ∈ [-1, -7/8]`, where the constraint would not be active, the
derivative has no zero -/
example : (match exRun 1 (3 / 2) with
      | .ok R => Rop.lt (R.1 0).inf (lit 0) && Rop.lt (lit 0) (R.1 0).sup
      | .error _ => false) = true ∧
    (match exRun (-1) (-7 / 8) with
      | .ok R => Rop.lt (lit 0) (R.1 0).inf
      | .error _ => false) = true := by
  constructor <;> decide +kernel

example (ρ : ℕ → ℝ) : exF.FinCst ∧ exF.ConstDom ρ ∧ (∀ i, (exG i).FinCst ∧ (exG i).ConstDom ρ) ∧ exF.closed = false := by
  refine ⟨⟨trivial, trivial⟩, by simp [exF, Expr.ConstDom], fun i => ⟨⟨trivial, ?_⟩, by simp [exG, Expr.ConstDom]⟩, rfl⟩
  rw [is_dbl is_one]; exact is_one

example : Bounded (iv 1 (3 / 2)) := ⟨⟨1, is_one⟩, ⟨_, is_cst (q := 3 / 2) 3 (-1) (by norm_num) (by norm_num) (by norm_num) (by norm_num)⟩⟩

end Kv
