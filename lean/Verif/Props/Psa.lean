import Verif.Psa.Run
import Mathlib.Analysis.Calculus.MeanValue

/-!
# C37, C38, C39: power series arithmetic

The functions are template functions `e`; `e.real` is the exact meaning, `e.evalP` the instantiation with `psa<interval>`.
-/

namespace Kv
open PowerSeries Asymptotics Filter Topology
open Rop (lit)

/-! ## specification -/

/-- `b 0, ..., b (m-1)` are the Taylor coefficients of `g` at 0: the polynomial approximates `g` with an error `O(tᵐ)` -/
def IsTaylor (m : ℕ) (g : ℝ → ℝ) (b : ℕ → ℝ) : Prop :=
  ∃ K δ : ℝ, 0 < δ ∧ ∀ t, |t| < δ → |g t - ∑ k ∈ Finset.range m, b k * t ^ k| ≤ K * |t| ^ m

/-- the coefficients of a vector contain given numbers -/
def Contains (x : List (Interval D)) (b : ℕ → ℝ) : Prop := ∀ k A, x[k]? = some A → b k ∈ A

/-- The series `x` encloses the function `g` on `d`: there are fixed numbers in all coefficients but the last such that
for every `t` the value is attained with some number in the last coefficient. -/
def Encloses (d : Interval D) (x : List (Interval D)) (g : ℝ → ℝ) : Prop :=
  ∃ b : ℕ → ℝ, ∀ t ∈ d, ∃ r : ℕ → ℝ, Contains x r ∧ (∀ k, k + 1 < x.length → r k = b k) ∧
    g t = ∑ k ∈ Finset.range x.length, r k * t ^ k

/-- weaker: the numbers in the coefficients may depend on `t` -/
def EnclosesW (d : Interval D) (x : List (Interval D)) (g : ℝ → ℝ) : Prop :=
  ∀ t ∈ d, ∃ r : ℕ → ℝ, Contains x r ∧ g t = ∑ k ∈ Finset.range x.length, r k * t ^ k

theorem Encloses.weak {d x g} (h : Encloses d x g) : EnclosesW d x g := by
  obtain ⟨b, hb⟩ := h
  intro t ht
  obtain ⟨r, h1, -, h2⟩ := hb t ht
  exact ⟨r, h1, h2⟩

theorem isTaylor_iff {m : ℕ} {g : ℝ → ℝ} {b : ℕ → ℝ} : IsTaylor m g b ↔ HasT m g b := by
  unfold HasT IsTaylor
  rw [isBigO_iff]
  constructor
  · rintro ⟨K, δ, hδ, h⟩
    refine ⟨K, ?_⟩
    filter_upwards [Metric.ball_mem_nhds (0 : ℝ) hδ] with t ht
    have := h t (by simpa using ht)
    simpa using this
  · rintro ⟨K, hK⟩
    obtain ⟨δ, hδ, h⟩ := Metric.eventually_nhds_iff_ball.1 hK
    exact ⟨K, δ, hδ, fun t ht => by simpa using h t (by simpa using ht)⟩

/-- Taylor coefficients are unique -/
theorem IsTaylor.unique {m : ℕ} {g : ℝ → ℝ} {b b' : ℕ → ℝ} (h : IsTaylor m g b) (h' : IsTaylor m g b') : ∀ k < m, b k = b' k :=
  HasT.unique (isTaylor_iff.1 h) (isTaylor_iff.1 h')

section
variable {n : ℕ} {fuel : ℕ} {e : Expr n} {ρ : ℕ → ℝ} {p : ℕ → Interval D} {x : Fin n → List (Interval D)}
  {st st' : PSt (Interval D)} {z : List (Interval D)} {g : Fin n → ℝ → ℝ}

/-! ## mode 1 -/

/-- C37: in mode 1, if the arguments have `m` coefficients which contain the Taylor coefficients of functions `g i` and the
arguments of logarithms are positive at 0 (only the constant ones if `m ≥ 2`), the coefficients of the result contain the Taylor coefficients of
`e(g₁(t), g₂(t), ..)`.  A result of one element stands for a constant.  The static members are as before. -/
theorem C37 {m : ℕ} {a : Fin n → ℕ → ℝ} (he : e.FinCst) (hm : 1 ≤ m) (hm' : m < 2 ^ 31) (hmode : st.mode = 1)
    (huse : st.use = false) (hp : ∀ i, ρ i ∈ p i) (hlen : ∀ i, (x i).length = m) (hg : ∀ i, IsTaylor m (g i) (a i))
    (hx : ∀ i, Contains (x i) (a i)) (hl : e.LDom (m < 2) ρ (fun i => a i 0))
    (h : (letI := scalI fuel; e.evalP p x) st = (.ok z, st')) :
    ∃ b : ℕ → ℝ, IsTaylor m (fun t => e.real ρ (fun i => g i t)) b ∧ Contains z b ∧
      (z.length = m ∨ z.length = 1 ∧ ∀ k, 1 ≤ k → b k = 0) ∧ Restored st st' := by
  let _ := semI fuel
  have e0 : (fun i => coeff 0 (PowerSeries.mk (a i))) = fun i => a i 0 := by
    funext i; rw [PowerSeries.coeff_mk]
  obtain ⟨hS, hM, hz, hr⟩ := run1 (S := Interval D) (c := fun i => PowerSeries.mk (a i)) he hm hm' hmode huse hp hlen
    (fun i k A hA => by show coeff k (PowerSeries.mk (a i)) ∈ A; rw [PowerSeries.coeff_mk]; exact hx i k A hA) (by rw [e0]; exact hl) h
  refine ⟨fun k => coeff k (e.ps ρ fun i => PowerSeries.mk (a i)), isTaylor_iff.2 ?_, hM, hz, hr⟩
  refine Expr.hasP hm (fun i => ?_) hS
  exact (isTaylor_iff.1 (hg i)).congr_co fun k _ => by rw [PowerSeries.coeff_mk]

/-- C37: with exact arithmetic the coefficients of the result are the Taylor coefficients -/
theorem C37_exact {m : ℕ} {a : Fin n → ℕ → ℝ} {p : ℕ → ℝ} {x : Fin n → List ℝ} {st st' : PSt ℝ} {z : List ℝ} (he : e.FinCst)
    (hm : 1 ≤ m) (hm' : m < 2 ^ 31) (hmode : st.mode = 1) (huse : st.use = false) (hlen : ∀ i, (x i).length = m)
    (hg : ∀ i, IsTaylor m (g i) (a i)) (hx : ∀ i, ∀ k < m, (x i)[k]? = some (a i k)) (hl : e.LDom (m < 2) p (fun i => a i 0))
    (h : (letI := scalR; e.evalP p x) st = (.ok z, st')) :
    ∃ b : ℕ → ℝ, IsTaylor m (fun t => e.real p (fun i => g i t)) b ∧ (∀ k < z.length, z[k]? = some (b k)) ∧
      (z.length = m ∨ z.length = 1 ∧ ∀ k, 1 ≤ k → b k = 0) := by
  let _ := semR
  have e0 : (fun i => coeff 0 (PowerSeries.mk (a i))) = fun i => a i 0 := by
    funext i; rw [PowerSeries.coeff_mk]
  obtain ⟨hS, hM, hz, hr⟩ := run1 (S := ℝ) (ρ := p) (c := fun i => PowerSeries.mk (a i)) he hm hm' hmode huse (fun _ => rfl) hlen
    (fun i k A hA => by
      have hk : k < m := by
        rw [← hlen i]; by_contra hc; rw [List.getElem?_eq_none (by omega)] at hA; cases hA
      rw [hx i k hk] at hA; cases hA
      show coeff k (PowerSeries.mk (a i)) = a i k
      rw [PowerSeries.coeff_mk]) (by rw [e0]; exact hl) h
  refine ⟨fun k => coeff k (e.ps p fun i => PowerSeries.mk (a i)), isTaylor_iff.2 ?_, fun k hk => ?_, hz⟩
  · refine Expr.hasP hm (fun i => ?_) hS
    exact (isTaylor_iff.1 (hg i)).congr_co fun k _ => by rw [PowerSeries.coeff_mk]
  · have := hM k z[k] (List.getElem?_eq_getElem hk)
    rw [List.getElem?_eq_getElem hk]
    exact congrArg some (show coeff k _ = z[k] from this).symm

/-! ## mode 2 -/

/-- C38: in mode 2, for a domain which contains 0 and functions without the inverse family: if the arguments (of at least
two coefficients) enclose functions `g i` on the domain, the result encloses `e(g₁(t), g₂(t), ..)` on the domain, and `e` is
smooth at all these points.  Constant arguments of logarithms must be positive. -/
theorem C38 {N : ℕ} (he : e.FinCst) (hn : e.noInv) (hN : 1 ≤ N) (hN' : N + 1 < 2 ^ 31) (hmode : st.mode = 2)
    (huse : st.use = false) (h0 : (0 : ℝ) ∈ st.domain) (hp : ∀ i, ρ i ∈ p i) (hlen : ∀ i, (x i).length = N + 1)
    (hg : ∀ i, Encloses st.domain (x i) (g i)) (hl : ∀ t ∈ st.domain, e.LDom False ρ (fun i => g i t))
    (h : (letI := scalI fuel; e.evalP p x) st = (.ok z, st')) :
    Encloses st.domain z (fun t => e.real ρ (fun i => g i t)) ∧ (∀ t ∈ st.domain, e.SDom ρ (fun i => g i t)) ∧
      (z.length = N + 1 ∨ z.length = 1) ∧ Restored st st' := by
  let _ := semI fuel
  choose b hb using hg
  have key : ∀ t ∈ st.domain, _ := fun t ht => by
    choose q hq1 hq2 hq3 using fun i => hb i t ht
    exact run2 (S := Interval D) (convI fuel) he hn hN hN' hmode huse h0 hp hlen (c := fun i => PowerSeries.mk (b i)) ht
      (v := fun i => g i t) (q := q) hq1 (fun i k hk => by
        rw [PowerSeries.coeff_mk]; exact hq2 i k (by rw [hlen i]; omega)) (fun i => by rw [hq3 i, hlen i]) (hl t ht) h
  obtain ⟨-, hr, hz, -⟩ := key 0 h0
  refine ⟨⟨fun k => coeff k (e.ps ρ fun i => PowerSeries.mk (b i)), fun t ht => ?_⟩, fun t ht => (key t ht).1, hz, hr⟩
  obtain ⟨-, -, -, r, h1, h2, h3⟩ := key t ht
  exact ⟨r, h1, fun k hk => h2 k (by omega), h3⟩

/-- C38 for the weak enclosure -/
theorem C38_weak {N : ℕ} (he : e.FinCst) (hn : e.noInv) (hN : 1 ≤ N) (hN' : N + 1 < 2 ^ 31) (hmode : st.mode = 2)
    (huse : st.use = false) (h0 : (0 : ℝ) ∈ st.domain) (hp : ∀ i, ρ i ∈ p i) (hlen : ∀ i, (x i).length = N + 1)
    (hg : ∀ i, EnclosesW st.domain (x i) (g i)) (hl : ∀ t ∈ st.domain, e.LDom False ρ (fun i => g i t))
    (h : (letI := scalI fuel; e.evalP p x) st = (.ok z, st')) :
    EnclosesW st.domain z (fun t => e.real ρ (fun i => g i t)) := by
  let _ := semI fuel
  intro t ht
  choose q hq1 hq3 using fun i => hg i t ht
  obtain ⟨-, -, -, r, h1, -, h3⟩ := run2 (S := Interval D) (convI fuel) he hn hN hN' hmode huse h0 hp hlen
    (c := fun i => PowerSeries.mk (q i)) ht (v := fun i => g i t) (q := q) hq1 (fun i k hk => by rw [PowerSeries.coeff_mk])
    (fun i => by rw [hq3 i, hlen i]) (hl t ht) h
  exact ⟨r, h1, h3⟩

/-- C38: `eval` of an enclosing series contains the values -/
theorem C38_eval {d T Z : Interval D} {x : List (Interval D)} {f : ℝ → ℝ} (hx : EnclosesW d x f) {t : ℝ} (ht : t ∈ d) (hT : t ∈ T)
    (h : (letI := scalI fuel; Psa.eval x T) = .ok Z) : f t ∈ Z := by
  let _ := semI fuel
  obtain ⟨r, h1, h2⟩ := hx t ht
  rw [h2]
  exact Psa.polyrange_mem (S := Interval D) hT h1 h

/-- C38: `evalrange` contains the values on the whole domain -/
theorem C38_evalrange {Z : Interval D} {x : List (Interval D)} {f : ℝ → ℝ} (hx : EnclosesW st.domain x f) {t : ℝ}
    (ht : t ∈ st.domain) (h : (letI := scalI fuel; Psa.evalrange x) st = (.ok Z, st')) : f t ∈ Z := by
  let _ := semI fuel
  unfold Psa.evalrange at h
  rw [PM.get_bind] at h
  obtain ⟨hp', rfl⟩ := PM.lift_run h
  obtain ⟨r, h1, h2⟩ := hx t ht
  rw [h2]
  exact Psa.polyrange_mem (S := Interval D) ht h1 hp'

theorem mem_lit0 : (0 : ℝ) ∈ (letI := scalI fuel; Psa.zero : Interval D) := by
  let _ := semI fuel
  exact ScalSem.ofC_mem (S := Interval D) Interval.is_zero

theorem getElem?_lt {α : Type} {l : List α} {k : ℕ} {a : α} (h : l[k]? = some a) : k < l.length := by
  by_contra hc; rw [List.getElem?_eq_none (by omega)] at h; cases h

/-- coefficients of an antiderivative -/
noncomputable def antiCo (b : ℕ → ℝ) : ℕ → ℝ
  | 0 => 0
  | k + 1 => b k / (k + 1 : ℕ)

theorem integrate_contains {x z : List (Interval D)} (hlen : x.length < 2 ^ 31) {b : ℕ → ℝ} (hx : Contains x b)
    (h : (letI := scalI fuel; Psa.integrate x) = .ok z) : z.length = x.length + 1 ∧ Contains z (antiCo b) := by
  let _ := semI fuel
  unfold Psa.integrate at h
  obtain ⟨l, hl, h⟩ := bind_ok.1 h
  cases h
  obtain ⟨h1, h2⟩ := Psa.tab_ok hl
  refine ⟨by simp [h1], fun k A hA => ?_⟩
  cases k with
  | zero =>
    simp at hA; subst hA
    exact mem_lit0 (fuel := fuel)
  | succ k =>
    simp only [List.getElem?_cons_succ] at hA
    have hk := getElem?_lt hA
    obtain ⟨w, hw, hw'⟩ := h2 k (by omega)
    rw [hw'] at hA; cases hA
    obtain ⟨u, hu, hw⟩ := bind_ok.1 hw
    have hi : Is (lit ((k : ℚ) + 1) : D) (k + 1) := by
      have := Interval.is_cst (k + 1) 0 (by rw [abs_of_nonneg (by positivity)]; have : (k : ℤ) < 2 ^ 31 := by omega
                                            omega) (by decide) (by decide) (q := (k : ℚ) + 1) (by push_cast; ring)
      simpa using this
    have := (ScalSem.binC_mem (S := Interval D) hw (hx k u (Psa.at_ok hu)) hi).2
    change b k / (k + 1) ∈ A at this
    simpa [antiCo] using this

/-- C37: `integrate` in mode 1 -/
theorem C37_integrate {m : ℕ} {x z : List (Interval D)} (hlen : x.length = m) (hm' : m < 2 ^ 31) {f F : ℝ → ℝ} {b : ℕ → ℝ}
    (hf : IsTaylor m f b) (hx : Contains x b) (hF : ∃ δ > 0, ∀ t, |t| < δ → HasDerivAt F (f t) t) (hF0 : F 0 = 0)
    (h : (letI := scalI fuel; Psa.integrate x) = .ok z) : ∃ b', IsTaylor (m + 1) F b' ∧ z.length = m + 1 ∧ Contains z b' := by
  obtain ⟨h1, h2⟩ := integrate_contains (by omega) hx h
  refine ⟨antiCo b, isTaylor_iff.2 ?_, by omega, h2⟩
  obtain ⟨δ, hδ, hd⟩ := hF
  have hev : ∀ᶠ t in 𝓝 (0 : ℝ), HasDerivAt F (f t) t :=
    Metric.eventually_nhds_iff_ball.2 ⟨δ, hδ, fun t ht => hd t (by simpa using ht)⟩
  refine (HasT.integrate hev (isTaylor_iff.1 hf)).congr_co fun k _ => ?_
  cases k with
  | zero => exact hF0
  | succ k => rfl

/-- C38: `integrate` in mode 2: the result encloses the antiderivative -/
theorem C38_integrate {d : Interval D} {x z : List (Interval D)} (hlen : x.length < 2 ^ 31) (hpos : 1 ≤ x.length) {f F : ℝ → ℝ}
    (hx : Encloses d x f) (h0 : (0 : ℝ) ∈ d) (hF : ∀ t ∈ d, HasDerivWithinAt F (f t) {t | t ∈ d} t) (hF0 : F 0 = 0)
    (h : (letI := scalI fuel; Psa.integrate x) = .ok z) : Encloses d z F := by
  obtain ⟨b, hb⟩ := hx
  obtain ⟨N, hN⟩ : ∃ N, x.length = N + 1 := ⟨x.length - 1, by omega⟩
  have hz : z.length = N + 2 := by
    obtain ⟨r, h1, -⟩ := hb 0 h0
    have := (integrate_contains hlen h1 h).1
    omega
  refine ⟨antiCo b, fun t ht => ?_⟩
  -- it is enough to find the remainder at some point
  suffices hs : ∃ s ∈ d, ∃ r : ℕ → ℝ, Contains x r ∧ (∀ k, k + 1 < x.length → r k = b k) ∧
      F t = ∑ k ∈ Finset.range (N + 2), antiCo r k * t ^ k by
    obtain ⟨s, hs, r, h1, h2, h3⟩ := hs
    refine ⟨antiCo r, (integrate_contains hlen h1 h).2, fun k hk => ?_, by rw [hz]; exact h3⟩
    cases k with
    | zero => rfl
    | succ k => simp only [antiCo]; rw [h2 k (by omega)]
  have hd : ∀ u ∈ Set.uIcc 0 t, u ∈ d := fun u hu => convI fuel d 0 t u h0 ht hu
  rcases eq_or_ne t 0 with rfl | ht0
  · obtain ⟨r, h1, h2, -⟩ := hb 0 h0
    refine ⟨0, h0, r, h1, h2, ?_⟩
    rw [hF0, Finset.sum_eq_single 0]
    · simp [antiCo]
    · intro k _ hk; rw [zero_pow hk, mul_zero]
    · intro h; exact absurd (Finset.mem_range.2 (by omega)) h
  -- Cauchy's mean value theorem for `F - P` and `t^(N+1)`
  let P : ℝ → ℝ := fun u => ∑ k ∈ Finset.range N, b k / (k + 1 : ℕ) * u ^ (k + 1)
  let p : ℝ → ℝ := fun u => ∑ k ∈ Finset.range N, b k * u ^ k
  have hP : ∀ u, HasDerivAt P (p u) u := fun u => by
    refine HasDerivAt.fun_sum fun k _ => ?_
    refine ((hasDerivAt_pow (k + 1) u).const_mul (b k / (k + 1 : ℕ))).congr_deriv ?_
    rw [Nat.add_sub_cancel]
    have : ((k + 1 : ℕ) : ℝ) ≠ 0 := by positivity
    field_simp
  have key : ∃ s ∈ Set.uIcc 0 t, s ≠ 0 ∧ (F t - P t) * ((N + 1 : ℕ) * s ^ N) = t ^ (N + 1) * (f s - p s) := by
    have hcont : ContinuousOn F (Set.uIcc 0 t) := fun u hu =>
      ((hF u (hd u hu)).continuousWithinAt).mono fun w hw => hd w hw
    have hcP : Continuous P := continuous_iff_continuousAt.2 fun u => (hP u).continuousAt
    have hder : ∀ a c : ℝ, (∀ u ∈ Set.Icc a c, u ∈ d) → ∀ u ∈ Set.Ioo a c, HasDerivAt (fun w => F w - P w) (f u - p u) u :=
      fun a c hac u hu => ((hF u (hac u ⟨hu.1.le, hu.2.le⟩)).hasDerivAt
        (Filter.mem_of_superset (Icc_mem_nhds hu.1 hu.2) hac)).sub (hP u)
    have hpw : ∀ u : ℝ, HasDerivAt (fun w : ℝ => w ^ (N + 1)) ((N + 1 : ℕ) * u ^ N) u := fun u => by
      simpa using hasDerivAt_pow (N + 1) u
    have P0 : P 0 = 0 := by simp [P]
    rcases lt_or_gt_of_ne ht0 with hneg | hpos
    · rw [Set.uIcc_of_ge hneg.le] at hd hcont ⊢
      obtain ⟨s, hs, e⟩ := exists_ratio_hasDerivAt_eq_ratio_slope (fun w => F w - P w) (fun u => f u - p u) hneg
        (hcont.sub hcP.continuousOn) (hder t 0 hd) (fun w => w ^ (N + 1)) (fun u => (N + 1 : ℕ) * u ^ N) (by fun_prop)
        (fun u _ => hpw u)
      refine ⟨s, ⟨hs.1.le, hs.2.le⟩, hs.2.ne, ?_⟩
      simp only [hF0, P0, zero_pow (Nat.succ_ne_zero N)] at e
      linarith
    · rw [Set.uIcc_of_le hpos.le] at hd hcont ⊢
      obtain ⟨s, hs, e⟩ := exists_ratio_hasDerivAt_eq_ratio_slope (fun w => F w - P w) (fun u => f u - p u) hpos
        (hcont.sub hcP.continuousOn) (hder 0 t hd) (fun w => w ^ (N + 1)) (fun u => (N + 1 : ℕ) * u ^ N) (by fun_prop)
        (fun u _ => hpw u)
      refine ⟨s, ⟨hs.1.le, hs.2.le⟩, hs.1.ne', ?_⟩
      simp only [hF0, P0, zero_pow (Nat.succ_ne_zero N)] at e
      linarith
  obtain ⟨s, hs, hs0, hse⟩ := key
  obtain ⟨r, h1, h2, h3⟩ := hb s (hd s hs)
  refine ⟨s, hd s hs, r, h1, h2, ?_⟩
  have hps : f s - p s = r N * s ^ N := by
    rw [h3, hN, Finset.sum_range_succ]
    have : ∑ k ∈ Finset.range N, r k * s ^ k = p s :=
      Finset.sum_congr rfl fun k hk => by rw [h2 k (by rw [hN]; have := Finset.mem_range.1 hk; omega)]
    rw [this]; ring
  rw [hps] at hse
  have hsN : s ^ N ≠ 0 := pow_ne_zero _ hs0
  have hn : ((N + 1 : ℕ) : ℝ) ≠ 0 := by positivity
  have hFP : F t - P t = r N / (N + 1 : ℕ) * t ^ (N + 1) := by
    have : (F t - P t) * (N + 1 : ℕ) * s ^ N = t ^ (N + 1) * r N * s ^ N := by rw [← mul_assoc] at hse; rw [hse]; ring
    have := mul_right_cancel₀ hsN this
    field_simp
    linarith
  rw [Finset.sum_range_succ, Finset.sum_range_succ']
  simp only [antiCo, zero_mul, add_zero]
  have hPt : ∑ k ∈ Finset.range N, r k / (k + 1 : ℕ) * t ^ (k + 1) = P t :=
    Finset.sum_congr rfl fun k hk => by rw [h2 k (by rw [hN]; have := Finset.mem_range.1 hk; omega)]
  rw [hPt, ← hFP]; ring

/-- the terms from the `n`-th on are one coefficient -/
theorem sum_tail (r : ℕ → ℝ) (t : ℝ) (n s : ℕ) : ∑ k ∈ Finset.range (n + 1), (if k < n then r k else ∑ j ∈ Finset.range s, r (n + j) * t ^ j) * t ^ k =
    ∑ k ∈ Finset.range (n + s), r k * t ^ k := by
  rw [Finset.sum_range_succ, Finset.sum_range_add, if_neg (lt_irrefl n), Finset.sum_mul]
  congr 1
  · exact Finset.sum_congr rfl fun k hk => by rw [if_pos (Finset.mem_range.1 hk)]
  · exact Finset.sum_congr rfl fun j _ => by rw [pow_add]; ring

/-- the coefficients of `setorder` in mode 2 -/
theorem setorder_contains {x z : List (Interval D)} {n : ℤ} (hmode : st.mode = 2) {t : ℝ} (ht : t ∈ st.domain) {r : ℕ → ℝ}
    (hr : Contains x r) (h : (letI := scalI fuel; Psa.setorder x n) st = (.ok z, st')) :
    ∃ N : ℕ, n = N ∧ z.length = N + 1 ∧
      if x.length ≤ N + 1 then Contains z (fun k => if k < x.length then r k else 0)
      else Contains z (fun k => if k < N then r k else ∑ j ∈ Finset.range (x.length - N), r (N + j) * t ^ j) := by
  let _ := semI fuel
  unfold Psa.setorder at h
  split_ifs at h with hn
  · obtain ⟨h, -⟩ := PM.lift_run h; cases h
  dsimp only at h
  split_ifs at h with hs
  · obtain ⟨rfl, -⟩ := PM.pure_run h
    refine ⟨n.toNat, by omega, by simp; omega, ?_⟩
    rw [if_pos hs]
    intro k A hA
    by_cases hk : k < x.length
    · rw [List.getElem?_append_left hk] at hA
      simp only [if_pos hk]
      exact hr k A hA
    · rw [List.getElem?_append_right (by omega), List.getElem?_replicate] at hA
      simp only [if_neg hk]
      split_ifs at hA
      cases hA
      exact mem_lit0 (fuel := fuel)
  · rw [PM.get_bind, if_neg (by rw [hmode]; decide)] at h
    obtain ⟨h, -⟩ := PM.lift_run h
    obtain ⟨q, hq, h⟩ := bind_ok.1 h
    cases h
    refine ⟨n.toNat, by omega, by simp; omega, ?_⟩
    rw [if_neg hs]
    intro k A hA
    by_cases hk : k < n.toNat
    · rw [List.getElem?_append_left (by simp; omega), List.getElem?_take_of_lt hk] at hA
      simp only [if_pos hk]
      exact hr k A hA
    · have := getElem?_lt hA
      simp at this
      have e : k = n.toNat := by omega
      subst e
      rw [List.getElem?_append_right (by simp)] at hA
      simp [Nat.min_eq_left (by omega : n.toNat ≤ x.length)] at hA
      subst hA
      simp only [if_neg hk]
      have := Psa.polyrange_mem (S := Interval D) ht (p := fun j => r (n.toNat + j)) (fun j B hB => by
        rw [List.getElem?_drop] at hB
        exact hr _ B hB) hq
      rw [List.length_drop] at this
      exact this

/-- C38: `setorder` in mode 2 with a smaller order: the higher terms go into the last coefficient -/
theorem C38_setorder {x z : List (Interval D)} {n : ℤ} {f : ℝ → ℝ} (hmode : st.mode = 2) (h0 : ∃ t, t ∈ st.domain)
    (hx : Encloses st.domain x f) (hn : n + 1 ≤ x.length) (h : (letI := scalI fuel; Psa.setorder x n) st = (.ok z, st')) :
    Encloses st.domain z f ∧ (z.length : ℤ) = n + 1 := by
  obtain ⟨b, hb⟩ := hx
  have key : ∀ t ∈ st.domain, ∃ N : ℕ, n = N ∧ z.length = N + 1 ∧ ∃ r : ℕ → ℝ, Contains z r ∧ (∀ k, k + 1 < z.length → r k = b k) ∧
      f t = ∑ k ∈ Finset.range z.length, r k * t ^ k := fun t ht => by
    obtain ⟨r, h1, h2, h3⟩ := hb t ht
    obtain ⟨N, rfl, hz, hc⟩ := setorder_contains hmode ht h1 h
    refine ⟨N, rfl, hz, ?_⟩
    have hn' : N + 1 ≤ x.length := by exact_mod_cast hn
    split_ifs at hc with hs
    · have e : x.length = N + 1 := by omega
      refine ⟨_, hc, fun k hk => ?_, ?_⟩
      · simp only [if_pos (show k < x.length by omega)]; exact h2 k (by omega)
      · rw [h3, e, hz]
        exact Finset.sum_congr rfl fun k hk => by rw [if_pos (Finset.mem_range.1 hk)]
    · refine ⟨_, hc, fun k hk => ?_, ?_⟩
      · simp only [if_pos (show k < N by omega)]; exact h2 k (by omega)
      · rw [h3, hz, sum_tail r t N (x.length - N), show N + (x.length - N) = x.length by omega]
  obtain ⟨t0, ht0⟩ := h0
  obtain ⟨N, rfl, hz, -⟩ := key t0 ht0
  refine ⟨⟨b, fun t ht => ?_⟩, by rw [hz]; push_cast; rfl⟩
  obtain ⟨-, -, -, h⟩ := key t ht
  exact h

/-- C38: `setorder` in mode 2, any order -/
theorem C38_setorder_weak {x z : List (Interval D)} {n : ℤ} {f : ℝ → ℝ} (hmode : st.mode = 2)
    (hx : EnclosesW st.domain x f) (h : (letI := scalI fuel; Psa.setorder x n) st = (.ok z, st')) : EnclosesW st.domain z f := by
  intro t ht
  obtain ⟨r, h1, h3⟩ := hx t ht
  obtain ⟨N, rfl, hz, hc⟩ := setorder_contains hmode ht h1 h
  split_ifs at hc with hs
  · refine ⟨_, hc, ?_⟩
    rw [h3, hz]
    rw [← Finset.sum_subset (Finset.range_mono hs) (fun k _ hk => by
      simp only [Finset.mem_range] at hk
      rw [if_neg hk, zero_mul])]
    exact Finset.sum_congr rfl fun k hk => by rw [if_pos (Finset.mem_range.1 hk)]
  · refine ⟨_, hc, ?_⟩
    rw [h3, hz, sum_tail r t N (x.length - N), show N + (x.length - N) = x.length by omega]

end

/-! ## the hypotheses are met -/

/-- the run succeeds -/
def okRun {α β : Type} (r : Res α × β) : Bool := match r.1 with
  | .ok _ => true
  | .error _ => false

theorem okRun_iff {α β : Type} {r : Res α × β} (h : okRun r = true) : ∃ z st', r = (.ok z, st') := by
  obtain ⟨r1, r2⟩ := r
  cases r1 with
  | ok z => exact ⟨z, r2, rfl⟩
  | error e => cases h

/-- the double `q` as an interval -/
def pt (q : ℚ) : Interval D := ⟨lit q, lit q⟩

theorem mem_pt {q : ℚ} {c : ℝ} (h : Is (lit q : D) c) {y : ℝ} : y ∈ pt q ↔ y = c := by
  constructor
  · rintro ⟨⟨-, h1⟩, ⟨-, h2⟩⟩
    change RopSem.val (lit q : D) ≤ _ at h1
    change _ ≤ RopSem.val (lit q : D) at h2
    rw [h.2] at h1 h2
    exact le_antisymm (by exact_mod_cast h2) (by exact_mod_cast h1)
  · rintro rfl
    exact ⟨h.lo, h.hi⟩

/-- mode `md` with the domain `[0, 1/2]` -/
def st0 (md : ℤ) : PSt (Interval D) := ⟨md, ⟨lit 0, lit (1 / 2)⟩, [], false, false⟩

theorem mem_st0 {md : ℤ} {t : ℝ} : t ∈ (st0 md).domain ↔ 0 ≤ t ∧ t ≤ 1 / 2 := by
  have h0 := Interval.is_zero (T := D)
  have h1 := Interval.is_half (T := D)
  constructor
  · rintro ⟨⟨-, h2⟩, ⟨-, h3⟩⟩
    change RopSem.val (lit 0 : D) ≤ _ at h2
    change _ ≤ RopSem.val (lit (1 / 2) : D) at h3
    rw [h0.2] at h2
    rw [h1.2] at h3
    exact ⟨by exact_mod_cast h2, by exact_mod_cast h3⟩
  · rintro ⟨h2, h3⟩
    exact ⟨h0.lo.mono h2, h1.hi.mono h3⟩

/-- `1 + t` as a series of `N + 2` coefficients -/
def onePlus (N : ℕ) : List (Interval D) := pt 1 :: pt 1 :: List.replicate N (pt 0)

def onePlusCo : ℕ → ℝ
  | 0 => 1
  | 1 => 1
  | _ + 2 => 0

theorem onePlus_contains (N : ℕ) : Contains (onePlus N) onePlusCo := by
  intro k A hA
  match k with
  | 0 => simp [onePlus] at hA; subst hA; exact (mem_pt Interval.is_one).2 rfl
  | 1 => simp [onePlus] at hA; subst hA; exact (mem_pt Interval.is_one).2 rfl
  | k + 2 =>
    simp only [onePlus, List.getElem?_cons_succ, List.getElem?_replicate] at hA
    split_ifs at hA
    cases hA
    exact (mem_pt Interval.is_zero).2 rfl

theorem onePlus_sum (N : ℕ) (t : ℝ) : ∑ k ∈ Finset.range (N + 2), onePlusCo k * t ^ k = 1 + t := by
  rw [Finset.sum_range_succ', Finset.sum_range_succ']
  simp [onePlusCo, add_comm]

theorem onePlus_taylor (N : ℕ) : IsTaylor (N + 2) (fun t => 1 + t) onePlusCo :=
  ⟨0, 1, one_pos, fun t _ => by rw [onePlus_sum]; simp⟩

theorem onePlus_encloses (d : Interval D) (N : ℕ) : Encloses d (onePlus N) (fun t => 1 + t) :=
  ⟨onePlusCo, fun t _ => ⟨onePlusCo, onePlus_contains N, fun _ _ => rfl, by
    rw [show (onePlus N).length = N + 2 by simp [onePlus], onePlus_sum]⟩⟩

/-- `log(x) * atan(x) + exp(x)/x` -/
def exE1 : Expr 1 := .bin .add (.bin .mul (.un .log (.var 0)) (.un .atan (.var 0))) (.bin .div (.un .exp (.var 0)) (.var 0))

/-- `log(x) * sin(x) + exp(x)/x` -/
def exE2 : Expr 1 := .bin .add (.bin .mul (.un .log (.var 0)) (.un .sin (.var 0))) (.bin .div (.un .exp (.var 0)) (.var 0))

/-- C37 applies to `log(1+t) atan(1+t) + exp(1+t)/(1+t)` with 4 coefficients -/
example : ∃ (z : List (Interval D)) (st' : PSt (Interval D)) (b : ℕ → ℝ),
    (letI := scalI 100; exE1.evalP (fun _ => pt 0) fun _ => onePlus 2) (st0 1) = (.ok z, st') ∧
    IsTaylor 4 (fun t => exE1.real (fun _ => 0) (fun _ => 1 + t)) b ∧ Contains z b := by
  obtain ⟨z, st', h⟩ := okRun_iff (show okRun ((letI := scalI 100; exE1.evalP (fun _ => pt 0) fun _ => onePlus 2) (st0 1)) = true by
    decide +kernel)
  obtain ⟨b, h1, h2, -⟩ := C37 (e := exE1) (ρ := fun _ => 0) (g := fun _ t => 1 + t) (a := fun _ => onePlusCo) (m := 4)
    (by simp [exE1, Expr.FinCst]) (by norm_num) (by norm_num) rfl rfl (fun _ => (mem_pt Interval.is_zero).2 rfl) (fun _ => rfl)
    (fun _ => onePlus_taylor 2) (fun _ => onePlus_contains 2) (by simp [exE1, Expr.LDom, Expr.real, onePlusCo]) h
  exact ⟨z, st', b, h, h1, h2⟩

/-- C38 applies to `log(1+t) sin(1+t) + exp(1+t)/(1+t)` with 4 coefficients on `[0, 1/2]` -/
example : ∃ (z : List (Interval D)) (st' : PSt (Interval D)),
    (letI := scalI 100; exE2.evalP (fun _ => pt 0) fun _ => onePlus 2) (st0 2) = (.ok z, st') ∧ z.length = 4 ∧
    Encloses (st0 2).domain z (fun t => exE2.real (fun _ => 0) (fun _ => 1 + t)) := by
  obtain ⟨z, st', h⟩ := okRun_iff (show okRun ((letI := scalI 100; exE2.evalP (fun _ => pt 0) fun _ => onePlus 2) (st0 2)) = true by
    decide +kernel)
  have hlen : z.length = 4 := by
    have : ((letI := scalI 100; exE2.evalP (fun _ => pt 0) fun _ => onePlus 2) (st0 2)).1.map List.length = .ok 4 := by decide +kernel
    rw [h] at this
    exact Except.ok.inj this
  refine ⟨z, st', h, hlen, ?_⟩
  exact (C38 (e := exE2) (ρ := fun _ => 0) (g := fun _ t => 1 + t) (N := 3)
    (by simp [exE2, Expr.FinCst]) (by simp [exE2, Expr.noInv, Un.isInv]) (by norm_num) (by norm_num) rfl rfl
    (mem_st0.2 (by norm_num)) (fun _ => (mem_pt Interval.is_zero).2 rfl) (fun _ => rfl)
    (fun _ => onePlus_encloses _ 2) (fun t _ => by simp [exE2, Expr.LDom, Expr.isC]) h).1

/-! ## where it fails -/

/-- the result `[A, B]` is at most `a + b t` -/
def atMost (a b : ℚ) (r : Res (List (Interval D)) × PSt (Interval D)) : Bool :=
  match r.1 with
  | .ok [A, B] => Rop.lt A.sup (lit a) && Rop.lt B.sup (lit b)
  | _ => false

theorem atMost_spec {a b : ℚ} {α β : ℝ} (ha : Is (lit a : D) α) (hb : Is (lit b : D) β) {r : Res (List (Interval D)) × PSt (Interval D)}
    (h : atMost a b r = true) : ∃ z st', r = (.ok z, st') ∧ ∀ (d : Interval D) (f : ℝ → ℝ), EnclosesW d z f → ∀ t ∈ d, 0 ≤ t →
      f t ≤ α + β * t := by
  obtain ⟨r1, r2⟩ := r
  unfold atMost at h
  split at h
  · rename_i A B hr
    cases hr
    rw [Bool.and_eq_true] at h
    refine ⟨_, _, rfl, fun d f hf t ht h0 => ?_⟩
    obtain ⟨q, h1, h2⟩ := hf t ht
    have hA := (h1 0 A rfl).2
    have hB := (h1 1 B rfl).2
    have e1 : ((q 0 : ℝ) : EReal) < α := by rw [← ha.2]; exact lt_of_le_of_lt hA.2 ((RopSem.lt_iff _ _).1 h.1).2.2
    have e2 : ((q 1 : ℝ) : EReal) < β := by rw [← hb.2]; exact lt_of_le_of_lt hB.2 ((RopSem.lt_iff _ _).1 h.2).2.2
    rw [h2]
    simp only [List.length_cons, List.length_nil, Finset.sum_range_succ, Finset.range_zero, Finset.sum_empty, pow_zero, pow_one]
    have e1' : q 0 < α := by exact_mod_cast e1
    have e2' : q 1 < β := by exact_mod_cast e2
    nlinarith
  · cases h

/-- C39 does not hold: `atan(1 + t)` on `[0, 1/2]` with two coefficients.  The result does not contain the function at `1/2`. -/
theorem C39_violated : ∃ (z : List (Interval D)) (st' : PSt (Interval D)),
    (letI := scalI 100; Psa.atan (onePlus 0)) (st0 2) = (.ok z, st') ∧ Encloses (st0 2).domain (onePlus 0) (fun t => 1 + t) ∧
    ¬ EnclosesW (st0 2).domain z (fun t => Real.arctan (1 + t)) := by
  have i1 : Is (lit (13 / 16) : D) (13 / 16) := by
    have := Interval.is_cst 13 (-4) (by decide) (by decide) (by decide) (q := 13 / 16) (by norm_num); simpa using this
  have i2 : Is (lit (1 / 4) : D) (1 / 4) := by
    have := Interval.is_cst 1 (-2) (by decide) (by decide) (by decide) (q := 1 / 4) (by norm_num); simpa using this
  have i3 : Is (lit (3 / 2) : D) (3 / 2) := by
    have := Interval.is_cst 3 (-1) (by decide) (by decide) (by decide) (q := 3 / 2) (by norm_num); simpa using this
  have i4 : Is (lit (15 / 16) : D) (15 / 16) := by
    have := Interval.is_cst 15 (-4) (by decide) (by decide) (by decide) (q := 15 / 16) (by norm_num); simpa using this
  obtain ⟨z, st', h, hz⟩ := atMost_spec i1 i2 (show atMost (13 / 16) (1 / 4) ((letI := scalI 100; Psa.atan (onePlus 0)) (st0 2)) = true by
    decide +kernel)
  refine ⟨z, st', h, onePlus_encloses _ 0, fun hW => ?_⟩
  have h1 := hz _ _ hW (1 / 2) (mem_st0.2 (by norm_num)) (by norm_num)
  have h2 : (15 : ℝ) / 16 < Real.arctan (3 / 2) := by
    have hk : (match Interval.atan 100 (pt (3 / 2)) with
      | .ok W => Rop.lt (lit (15 / 16)) W.inf
      | .error _ => false) = true := by decide +kernel
    split at hk
    · rename_i W hW
      have hm := (Interval.atan_mem hW ((mem_pt i3).2 rfl)).1.2
      have := lt_of_lt_of_le ((RopSem.lt_iff _ _).1 hk).2.2 hm
      rw [i4.2] at this
      exact_mod_cast this
    · cases hk
  norm_num at h1
  linarith

/-- C38 does not hold for domains without 0: `log(1 + t)` on `[1, 1]` with two coefficients -/
theorem C38_needs_zero : ∃ (st st' : PSt (Interval D)) (z : List (Interval D)), st.mode = 2 ∧ (∃ t, t ∈ st.domain) ∧
    (letI := scalI 100; Psa.log (onePlus 0)) st = (.ok z, st') ∧ Encloses st.domain (onePlus 0) (fun t => 1 + t) ∧
    ¬ EnclosesW st.domain z (fun t => Real.log (1 + t)) := by
  have i1 : Is (lit (1 / 16) : D) (1 / 16) := by
    have := Interval.is_cst 1 (-4) (by decide) (by decide) (by decide) (q := 1 / 16) (by norm_num); simpa using this
  have i2 : Is (lit (9 / 16) : D) (9 / 16) := by
    have := Interval.is_cst 9 (-4) (by decide) (by decide) (by decide) (q := 9 / 16) (by norm_num); simpa using this
  obtain ⟨z, st', h, hz⟩ := atMost_spec i1 i2 (show atMost (1 / 16) (9 / 16) ((letI := scalI 100; Psa.log (onePlus 0))
    ⟨2, pt 1, [], false, false⟩) = true by decide +kernel)
  have h1 : (1 : ℝ) ∈ pt 1 := (mem_pt Interval.is_one).2 rfl
  refine ⟨_, st', z, rfl, ⟨1, h1⟩, h, onePlus_encloses _ 0, fun hW => ?_⟩
  have := hz _ _ hW 1 h1 zero_le_one
  have h2 := Real.log_two_gt_d9
  norm_num at this
  linarith

/-- C39: of a constant series the inverse functions read outside the vector -/
theorem C39_constant_undefined {fuel : ℕ} {f : Un} (hf : f.isInv = true) (a : Interval D) (st : PSt (Interval D)) :
    ((letI := scalI fuel; Psa.un f [a]) st).1 = .error .undefined := by
  let _ := scalI fuel
  have key : ∀ (fn : Interval D → Res (Interval D)) dv, (Psa.invFn fn dv [a] st).1 = .error .undefined := by
    intro fn dv
    unfold Psa.invFn
    rw [PM.get_bind]
    by_cases hm : st.mode = 2
    · rw [if_pos hm]; rfl
    · rw [if_neg hm]; rfl
  cases f
  case asin => exact key _ _
  case acos => exact key _ _
  case atan => exact key _ _
  case asinh => exact key _ _
  case acosh => exact key _ _
  case atanh => exact key _ _
  all_goals cases hf

end Kv
