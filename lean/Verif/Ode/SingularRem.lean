import Verif.Ode.SingularLog

/-! # `defint_singular`: integrands with removable singularities -/

namespace Kv
open PowerSeries Psa PM MeasureTheory Filter Topology
open Rop (lit)
set_option linter.unusedVariables false

/-- A function for `defint_singular`: an expression in `x` and terms `div_tn(e(x), n)` (for example by `div_reduce`,
defint-singular.hpp:20-64).  The variable 0 of `body` is `x`, the variable `i + 1` the term number `i`. -/
structure Removable (k : ℕ) where
  cuts : Fin k → Expr 1 × ℕ
  body : Expr (k + 1)

namespace Defint

/-- the terms `div_tn(e(x), n)`; they are evaluated before the body (the order makes no difference without the history) -/
def evalCuts [Scal (Interval D)] (p : ℕ → Interval D) (x : Ode.Ser) : (k : ℕ) → (Fin k → Expr 1 × ℕ) → PM (Interval D) (Fin k → Ode.Ser)
  | 0, _ => pure Fin.elim0
  | k + 1, cuts => do
    let y ← evalE (cuts 0).1 p x
    let y ← lift (divTn y ((cuts 0).2 : ℤ))
    let ys ← evalCuts p x k fun i => cuts i.succ
    pure (Fin.cons y ys)

end Defint
open Defint

/-- `f(x)` -/
def Removable.run [Scal (Interval D)] {k : ℕ} (R : Removable k) (p : ℕ → Interval D) (x : Ode.Ser) : PM (Interval D) Ode.Ser := do
  let ys ← evalCuts p x k R.cuts
  R.body.evalP p (Fin.cons x ys)

/-- `f(-x)`, `Defint_Reverse`, defint-singular.hpp:91-98; the terms contain `-x` at every occurrence of the variable -/
def Removable.runReverse [Scal (Interval D)] {k : ℕ} (R : Removable k) (p : ℕ → Interval D) (x : Ode.Ser) : PM (Interval D) Ode.Ser := do
  let ys ← evalCuts p x k fun i => (reverse (R.cuts i).1, (R.cuts i).2)
  let x ← Psa.neg x
  R.body.evalP p (Fin.cons x ys)

/-- `defint_singular_r(f, start, end, order)`, defint-singular.hpp:787-791 -/
def defintSingularR [Scal (Interval D)] {k : ℕ} (R : Removable k) (p : ℕ → Interval D) (start stop : Interval D) (order : ℤ) :
    PM (Interval D) (Interval D) :=
  defintSingular (R.runReverse p) (Interval.neg stop) (Interval.neg start) order

namespace Defint
variable {fuel : ℕ} {ρ : ℕ → ℝ} {p : ℕ → Interval D} {N n : ℕ} {a : ℝ}

/-- the value of `div_tn(e(x), n)` at `a + t` -/
noncomputable def cv (e : Expr 1) (ρ : ℕ → ℝ) (a : ℝ) (n : ℕ) (t : ℝ) : ℝ := if t = 0 then co e ρ a n else fn e ρ (a + t) / t ^ n

theorem cv_tendsto {e : Expr 1} (hS : Smooth e ρ a) (hz : ∀ i < n, co e ρ a i = 0) : Tendsto (cv e ρ a n) (𝓝[>] 0) (𝓝 (cv e ρ a n 0)) := by
  have h := taylor_tendsto (isTaylor_fn hS (m := n + 1) (by omega)) (Nat.lt_succ_self n) hz
  have e0 : cv e ρ a n 0 = co e ρ a n := if_pos rfl
  rw [e0]
  refine h.congr' ?_
  filter_upwards [self_mem_nhdsWithin] with t ht
  have : (0 : ℝ) < t := ht
  rw [cv, if_neg this.ne']

theorem cv_continuousAt {e : Expr 1} {t : ℝ} (ht : 0 < t) (hS : Smooth e ρ (a + t)) : ContinuousAt (cv e ρ a n) t := by
  have h : ContinuousAt (fun t => fn e ρ (a + t) / t ^ n) t :=
    ContinuousAt.div (ContinuousAt.comp (f := fun t : ℝ => a + t) hS.continuousAt (by fun_prop)) (by fun_prop) (pow_pos ht n).ne'
  refine h.congr ?_
  filter_upwards [isOpen_ne.mem_nhds ht.ne'] with s hs
  rw [cv, if_neg hs]

/-- `div_tn(e(x), n)` at every point of the domain -/
theorem cut_at {e : Expr 1} (he : Fun e ρ a) (hec : e.isC = false) (hp : ∀ i, ρ i ∈ p i) (hN : 1 ≤ N) (hN' : N + 1 < 2 ^ 31) (hn : n ≤ N)
    {st s1 : PSt (Interval D)} (hm : st.mode = 2) (hu : st.use = false) (hr : st.record = false) {T : ℝ} (hT : 0 < T)
    (hd : ∀ t, 0 ≤ t → t ≤ T → t ∈ st.domain) {x y z : Ode.Ser} (hxl : x.length = N + 1) (hx : Contains x (idCo a))
    (hy : (letI := scalI fuel; evalE e p x) st = (.ok y, s1)) (hz : (letI := scalI fuel; divTn y (n : ℤ)) = .ok z)
    (h0 : Smooth e ρ a → ∀ i < n, co e ρ a i = 0) :
    letI := semI fuel
    s1 = st ∧ (∀ i < n, co e ρ a i = 0) ∧ ∀ t, 0 ≤ t → t ≤ T → Smooth e ρ (a + t) ∧ ∃ c', Sem (env2 N st t) false c' (cv e ρ a n t) z := by
  let _ := semI fuel
  have key : ∀ t, 0 ≤ t → t ≤ T → (s1 = st ∧ Smooth e ρ a) ∧ Smooth e ρ (a + t) ∧
      Sem (env2 N st t) false (e.ps ρ fun _ => idPs a) (fn e ρ (a + t)) y := fun t h1 h2 => by
    have hE := env2_ok (fuel := fuel) hN hN' (hd t h1 h2) (hd 0 le_rfl hT.le)
    obtain ⟨q1, q2, q3, q4⟩ := evalE_sem (fuel := fuel) he hp hE (start_sem (fuel := fuel) (a := a) hN (st := st) (τ := t) hxl hx) hm hu hr hy
    rw [hec] at q2
    exact ⟨⟨q1, q3⟩, q4, q2⟩
  obtain ⟨⟨hs, hSa⟩, -, sem0⟩ := key 0 le_rfl hT.le
  have hz0 := h0 hSa
  refine ⟨hs, hz0, fun t h1 h2 => ?_⟩
  obtain ⟨-, hSt, semt⟩ := key t h1 h2
  refine ⟨hSt, ?_⟩
  have hyl := sem_len (fuel := fuel) semt
  by_cases ht : t = 0
  · -- the limit
    have hmem : ∀ A, y[n]? = some A → co e ρ a n ∈ A := by
      intro A hA
      rcases Nat.lt_or_ge n N with hlt | hge
      · obtain ⟨q, m1, m2, -, -⟩ := sem0.ex
        have := m1 n A hA
        rw [m2 n hlt] at this
        exact this
      · obtain rfl : n = N := by omega
        have hlim := taylor_tendsto (isTaylor_fn hSa (m := n + 1) (by omega)) (Nat.lt_succ_self n) hz0
        refine (Interval.mem_closed A).mem_of_tendsto hlim ?_
        filter_upwards [Ioc_mem_nhdsGT hT] with s hs'
        obtain ⟨-, -, sems⟩ := key s hs'.1.le hs'.2
        obtain ⟨q, m1, m2, m3, -⟩ := sems.ex
        have hv : fn e ρ (a + s) = ∑ i ∈ Finset.range (n + 1), q i * s ^ i := m3 rfl
        rw [Finset.sum_range_succ, Finset.sum_eq_zero (fun k hk => by
          rw [m2 k (Finset.mem_range.1 hk)]
          show co e ρ a k * _ = 0
          rw [hz0 k (Finset.mem_range.1 hk), zero_mul]), zero_add] at hv
        have h4 : fn e ρ (a + s) / s ^ n = q n := by rw [hv, mul_div_cancel_right₀ _ (pow_pos hs'.1 n).ne']
        show fn e ρ (a + s) / s ^ n ∈ A
        rw [h4]
        exact m1 n A hA
    obtain ⟨q, m1, m2, -, -⟩ := sem0.ex
    unfold divTn at hz
    rw [if_neg (by omega)] at hz
    cases hz
    let q' : ℕ → ℝ := fun i => if i = 0 then co e ρ a n else if i + n < N + 1 then q (i + n) else 0
    refine ⟨PowerSeries.mk q', ⟨?_, fun hk => (by cases hk), q', ?_, fun i _ => by rw [PowerSeries.coeff_mk], fun _ => ?_, fun hk => (by cases hk)⟩⟩
    · simp [env2, hyl]; omega
    · intro i A hA
      simp only [Int.toNat_natCast] at hA
      show q' i ∈ A
      by_cases hi : i + n < N + 1
      · rw [List.getElem?_append_left (by rw [List.length_drop]; omega), List.getElem?_drop] at hA
        by_cases hi0 : i = 0
        · subst hi0
          simp only [q', if_true]
          exact hmem A (by simpa using hA)
        · simp only [q', if_pos hi, if_neg hi0]
          exact m1 (i + n) A (by rw [Nat.add_comm]; exact hA)
      · rw [List.getElem?_append_right (by rw [List.length_drop]; omega), List.getElem?_replicate] at hA
        split_ifs at hA
        cases hA
        have hi0 : i ≠ 0 := by omega
        simp only [q', if_neg hi, if_neg hi0]
        exact mem_lit0 (fuel := fuel)
    · subst ht
      show cv e ρ a n 0 = ∑ i ∈ Finset.range (N + 1), q' i * 0 ^ i
      rw [Finset.sum_range_succ', Finset.sum_eq_zero (fun k _ => by simp)]
      simp [cv, q']
  · obtain ⟨c', v', s', hv⟩ := divTn_sem (fuel := fuel) hn semt hz
    refine ⟨c', ?_⟩
    have : v' = cv e ρ a n t := by
      rw [cv, if_neg ht, eq_div_iff (pow_ne_zero n ht), hv, Finset.sum_eq_zero (fun k hk => ?_), sub_zero]
      show co e ρ a k * _ = 0
      rw [hz0 k (Finset.mem_range.1 hk), zero_mul]
    rw [← this]; exact s'

/-- all terms -/
theorem cuts_at (hp : ∀ i, ρ i ∈ p i) (hN : 1 ≤ N) (hN' : N + 1 < 2 ^ 31) {T : ℝ} (hT : 0 < T) {st : PSt (Interval D)} (hm : st.mode = 2)
    (hu : st.use = false) (hr : st.record = false) (hd : ∀ t, 0 ≤ t → t ≤ T → t ∈ st.domain) {x : Ode.Ser} (hxl : x.length = N + 1)
    (hx : Contains x (idCo a)) : ∀ (k : ℕ) {cuts : Fin k → Expr 1 × ℕ} {ys : Fin k → Ode.Ser} {s1 : PSt (Interval D)},
    (∀ i, Fun (cuts i).1 ρ a ∧ (cuts i).1.isC = false ∧ (cuts i).2 ≤ N ∧ (Smooth (cuts i).1 ρ a → ∀ j < (cuts i).2, co (cuts i).1 ρ a j = 0)) →
    (letI := scalI fuel; evalCuts p x k cuts) st = (.ok ys, s1) →
    letI := semI fuel
    s1 = st ∧ ∀ i, (∀ j < (cuts i).2, co (cuts i).1 ρ a j = 0) ∧ ∀ t, 0 ≤ t → t ≤ T → Smooth (cuts i).1 ρ (a + t) ∧
      ∃ c', Sem (env2 N st t) false c' (cv (cuts i).1 ρ a (cuts i).2 t) (ys i)
  | 0, cuts, ys, s1, hc, h => by
    obtain ⟨rfl, rfl⟩ := pure_run h
    exact ⟨rfl, fun i => i.elim0⟩
  | k + 1, cuts, ys, s1, hc, h => by
    let _ := semI fuel
    unfold evalCuts at h
    obtain ⟨y, sa, e1, h1⟩ := bind_run h
    obtain ⟨z, sb, e2', h2⟩ := bind_run h1
    obtain ⟨e2, hsb⟩ := lift_run e2'
    subst hsb
    obtain ⟨c1, c2, c3, c4⟩ := hc 0
    obtain ⟨rfl, r1, r2⟩ := cut_at (fuel := fuel) c1 c2 hp hN hN' c3 hm hu hr hT hd hxl hx e1 e2 c4
    obtain ⟨ws, sc, e3, h3⟩ := bind_run h2
    obtain ⟨rfl, r3⟩ := cuts_at hp hN hN' hT hm hu hr hd hxl hx k (fun i => hc i.succ) e3
    obtain ⟨rfl, rfl⟩ := pure_run h3
    refine ⟨rfl, fun i => ?_⟩
    refine Fin.cases ?_ (fun i => ?_) i
    · exact ⟨r1, r2⟩
    · exact r3 i

/-- the point at which the body is evaluated -/
noncomputable def bodyAt {k : ℕ} (cuts : Fin k → Expr 1 × ℕ) (ρ : ℕ → ℝ) (a : ℝ) (u : ℝ → ℝ) (t : ℝ) : Fin (k + 1) → ℝ :=
  Fin.cons (u t) fun i => cv (cuts i).1 ρ a (cuts i).2 t

/-- `defint_singular` for `body(X, ..)` with a series `X` which stands for the function `u` -/
theorem singular_core {k : ℕ} {cuts : Fin k → Expr 1 × ℕ} {body : Expr (k + 1)} (hb : body.FinCst ∧ body.noInv ∧ ∀ x, body.LDom False ρ x)
    (hp : ∀ i, ρ i ∈ p i) (hN : 1 ≤ N) (hN' : N + 1 < 2 ^ 31) {T : ℝ} (hT : 0 < T) {st : PSt (Interval D)} (hm : st.mode = 2)
    (hu : st.use = false) (hr : st.record = false) (hd : ∀ t, 0 ≤ t → t ≤ T → t ∈ st.domain) {x X : Ode.Ser} (hxl : x.length = N + 1)
    (hx : Contains x (idCo a))
    (hc : ∀ i, Fun (cuts i).1 ρ a ∧ (cuts i).1.isC = false ∧ (cuts i).2 ≤ N ∧ (Smooth (cuts i).1 ρ a → ∀ j < (cuts i).2, co (cuts i).1 ρ a j = 0))
    {ys : Fin k → Ode.Ser} {s1 s2 : PSt (Interval D)} (h1 : (letI := scalI fuel; evalCuts p x k cuts) st = (.ok ys, s1))
    {u : ℝ → ℝ} (huc : Continuous u) {c0 : PowerSeries ℝ} (hX : letI := semI fuel; ∀ t, 0 ≤ t → t ≤ T → Sem (env2 N st t) false c0 (u t) X)
    {y z : Ode.Ser} (h2 : (letI := scalI fuel; body.evalP p (Fin.cons X ys)) st = (.ok y, s2))
    (h3 : (letI := scalI fuel; Psa.integrate y) = .ok z) {step Z : Interval D} (hs : T ∈ step) (h4 : (letI := scalI fuel; Psa.eval z step) = .ok Z) :
    (∀ t, 0 ≤ t → t ≤ T → body.SDom ρ (bodyAt cuts ρ a u t)) ∧
    IntervalIntegrable (fun t => body.real ρ (bodyAt cuts ρ a u t)) volume 0 T ∧ (∫ t in (0 : ℝ)..T, body.real ρ (bodyAt cuts ρ a u t)) ∈ Z := by
  let _ := semI fuel
  obtain ⟨rfl, hcut⟩ := cuts_at (fuel := fuel) hp hN hN' hT hm hu hr hd hxl hx k hc h1
  have key : ∀ t, 0 ≤ t → t ≤ T → ∃ c', Sem (env2 N s1 t) body.isC c' (body.real ρ (bodyAt cuts ρ a u t)) y ∧ body.SDom ρ (bodyAt cuts ρ a u t) := by
    intro t ht0 htT
    have hE := env2_ok (fuel := fuel) hN hN' (hd t ht0 htT) (hd 0 le_rfl hT.le)
    have : ∀ i : Fin (k + 1), ∃ c', Sem (env2 N s1 t) false c' (bodyAt cuts ρ a u t i) ((Fin.cons X ys : Fin (k + 1) → Ode.Ser) i) := by
      intro i
      refine Fin.cases ?_ (fun i => ?_) i
      · exact ⟨c0, hX t ht0 htT⟩
      · exact ((hcut i).2 t ht0 htT).2
    choose c' hc' using this
    obtain ⟨T', hT'⟩ := Expr.evalP_spec (S := Interval D) ρ c' body hb.1
    have := hT' hE (p := p) hp hc' (fun _ => hb.2.1) (by
      have : ((env2 N s1 t).s < 2) = False := eq_false fun h => by have := (hE.two rfl).1; omega
      rw [this]
      exact hb.2.2 _)
    obtain ⟨-, h2', h3', h4'⟩ := this.run hm rfl hu hr rfl h2
    exact ⟨_, h2', h4' rfl⟩
  have hS : ∀ t, 0 ≤ t → t ≤ T → body.SDom ρ (bodyAt cuts ρ a u t) := fun t a1 a2 => (key t a1 a2).choose_spec.2
  refine ⟨hS, ?_⟩
  have hbc : ∀ t, 0 ≤ t → t ≤ T → ContinuousAt (fun x => body.real ρ x) (bodyAt cuts ρ a u t) := fun t a1 a2 =>
    (Expr.contDiffAt (k := 1) (hS t a1 a2)).continuousAt
  have hc1 : ∀ t, 0 < t → t ≤ T → ContinuousAt (fun t => body.real ρ (bodyAt cuts ρ a u t)) t := fun t a1 a2 => by
    refine ContinuousAt.comp (f := bodyAt cuts ρ a u) (g := fun x => body.real ρ x) (hbc t a1.le a2) ?_
    refine continuousAt_pi.2 fun i => ?_
    refine Fin.cases ?_ (fun i => ?_) i
    · exact huc.continuousAt
    · exact cv_continuousAt a1 ((hcut i).2 t a1.le a2).1
  have hl : Tendsto (fun t => body.real ρ (bodyAt cuts ρ a u t)) (𝓝[>] 0) (𝓝 (body.real ρ (bodyAt cuts ρ a u 0))) := by
    refine Tendsto.comp (g := fun x => body.real ρ x) (hbc 0 le_rfl hT.le).tendsto ?_
    refine tendsto_pi_nhds.2 fun i => ?_
    refine Fin.cases ?_ (fun i => ?_) i
    · exact huc.continuousAt.tendsto.mono_left nhdsWithin_le_nhds
    · refine cv_tendsto ?_ (hcut i).1
      have := ((hcut i).2 0 le_rfl hT.le).1
      rwa [add_zero] at this
  have hw0 : IntervalIntegrable (fun t : ℝ => t ^ (0 : ℝ)) volume 0 T := intervalIntegral.intervalIntegrable_rpow' (by norm_num)
  have hφi := weighted_integrable hT hw0 hc1 hl
  have hyl : y.length = if body.isC then 1 else N + 1 := by
    obtain ⟨c', hs', -⟩ := key 0 le_rfl hT.le
    simpa [env2] using hs'.len
  have hyl' : y.length < 2 ^ 31 := by rw [hyl]; split_ifs <;> omega
  obtain ⟨s, k1, k2⟩ := Weighted.power (m := y.length) (A := sets y) (fun k _ => sets_closed y k) (fun k _ => sets_ord y k) hT (by norm_num) hφi
    (fun t a1 a2 => by
      obtain ⟨c', hs', -⟩ := key t a1.le a2
      obtain ⟨r, m1, -, m3, m4⟩ := hs'.ex
      refine ⟨r, fun k _ A hA => m1 k A hA, ?_⟩
      rw [m3 rfl, hyl]
      by_cases hC : body.isC
      · rw [if_pos hC]
        show ∑ i ∈ Finset.range (N + 1), _ = _
        rw [Finset.sum_range_succ', Finset.sum_eq_zero (fun k _ => by rw [m4 hC (k + 1) (by omega), zero_mul])]
        simp
      · rw [if_neg hC]; rfl)
  have hR' := integrateW_mem (fuel := fuel) hT hs hyl' (contains_iff fun k hk => k1 k hk) h3 h4
  rw [← k2] at hR'
  simp only [Real.rpow_zero, one_mul] at hR' hφi
  exact ⟨hφi, hR'⟩

end Defint
end Kv
