import Verif.Ode.Defint
import Verif.Ode.Run
import Verif.Ode.Smooth
import Verif.Ode.ModeInv
import Mathlib.MeasureTheory.Integral.IntervalIntegral.FundThmCalculus

/-! # Lemmas about `defint` and `defint_autostep` -/

namespace Kv
open PowerSeries Psa PM MeasureTheory
open Rop (lit)
set_option linter.unusedVariables false

theorem Un.SDom.log {x : ℝ} (h : Un.SDom .log x) : 0 < x := h

theorem Expr.SDom.toLDom {n : ℕ} {ρ : ℕ → ℝ} {x : Fin n → ℝ} {all : Prop} : ∀ {e : Expr n}, e.SDom ρ x → e.LDom all ρ x
  | .var _, _ => trivial
  | .par _, _ => trivial
  | .cst _, _ => trivial
  | .un f a, h => ⟨Expr.SDom.toLDom h.1, fun hf _ => by subst hf; exact h.2⟩
  | .bin _ _ _, h => ⟨Expr.SDom.toLDom h.1, Expr.SDom.toLDom h.2.1⟩
  | .binC _ a _, h => Expr.SDom.toLDom (e := a) h.1
  | .cBin _ _ b, h => Expr.SDom.toLDom (e := b) h.1
  | .powI a _, h => Expr.SDom.toLDom (e := a) h.1
  | .pow _ _, h => ⟨Expr.SDom.toLDom h.1, Expr.SDom.toLDom h.2.1, fun _ => h.2.2⟩

namespace Defint

/-- the integrand as a real function -/
noncomputable def fn (e : Expr 1) (ρ : ℕ → ℝ) (x : ℝ) : ℝ := e.real ρ fun _ => x

variable {e : Expr 1} {ρ : ℕ → ℝ} {fuel : ℕ}

/-- smooth points -/
def Smooth (e : Expr 1) (ρ : ℕ → ℝ) (x : ℝ) : Prop := e.SDom ρ fun _ => x

theorem Smooth.eventually {x : ℝ} (h : Smooth e ρ x) : ∀ᶠ y in nhds x, Smooth e ρ y := by
  have hc : Filter.Tendsto (fun y : ℝ => (fun _ => y : Fin 1 → ℝ)) (nhds x) (nhds fun _ => x) :=
    (continuous_pi fun _ => continuous_id).continuousAt
  exact hc.eventually (Expr.SDom.eventually h)

theorem Smooth.continuousAt {x : ℝ} (h : Smooth e ρ x) : ContinuousAt (fn e ρ) x := by
  have h1 : ContinuousAt (fun x : Fin 1 → ℝ => e.real ρ x) fun _ => x := (Expr.contDiffAt (k := 0) h).continuousAt
  have hc : ContinuousAt (fun y : ℝ => (fun _ => y : Fin 1 → ℝ)) x := (continuous_pi fun _ => continuous_id).continuousAt
  exact ContinuousAt.comp (f := fun y : ℝ => (fun _ => y : Fin 1 → ℝ)) h1 hc

theorem integrable {a b : ℝ} (h : ∀ x ∈ Set.uIcc a b, Smooth e ρ x) : IntervalIntegrable (fn e ρ) volume a b :=
  ContinuousOn.intervalIntegrable fun x hx => (h x hx).continuousAt.continuousWithinAt

/-- the integral from `c` is an antiderivative -/
theorem integral_deriv {c t : ℝ} (h : ∀ x ∈ Set.uIcc c (c + t), Smooth e ρ x) :
    HasDerivAt (fun t => ∫ x in c..c + t, fn e ρ x) (fn e ρ (c + t)) t := by
  have ht := h (c + t) Set.right_mem_uIcc
  have hm : StronglyMeasurableAtFilter (fn e ρ) (nhds (c + t)) volume := by
    obtain ⟨U, hU, ho, hm⟩ := eventually_nhds_iff.1 ht.eventually
    exact ContinuousOn.stronglyMeasurableAtFilter ho (fun x hx => (hU x hx).continuousAt.continuousWithinAt) _ hm
  have := intervalIntegral.integral_hasDerivAt_right (integrable h) hm ht.continuousAt
  have h2 : HasDerivAt (fun t => c + t) 1 t := by simpa using (hasDerivAt_id t).const_add c
  exact (HasDerivAt.comp (h₂ := fun b => ∫ x in c..b, fn e ρ x) t this h2).congr_deriv (mul_one _)

/-- the history can be used, or is not used -/
def HistOk (fuel : ℕ) (T : ℕ → List (PowerSeries ℝ × Bool)) (m : ℕ) (st : PSt (Interval D)) : Prop :=
  let _ := semI fuel
  st.use = false ∨ (st.use = true ∧ st.record = true ∧ List.Forall₂ (Match m) (T m) st.hist)

/-- an integrand with one choice of the constants, without inverse functions -/
structure Data (P : Integrand) (ρ : ℕ → ℝ) : Prop where
  par : ∀ i, ρ i ∈ P.p i
  fin : P.f.FinCst
  noInv : P.f.noInv

/-- `T` is the trace of the recorded results for the midpoint or start `t0` -/
def IsTrace (fuel : ℕ) (P : Integrand) (ρ : ℕ → ℝ) (t0 : ℝ) (T : ℕ → List (PowerSeries ℝ × Bool)) : Prop :=
  let _ := semI fuel
  ∀ {E : Env (Interval D)} (_ : E.Ok) {x : Ode.Ser} {v : ℝ}, Sem E false (idPs t0) v x → P.f.LDom (E.s < 2) ρ (fun _ => t0) →
    OpT E T P.f.isC (P.f.ps ρ fun _ => idPs t0) (fn P.f ρ v) (Smooth P.f ρ t0 ∧ (E.md = 2 → Smooth P.f ρ v)) (evalF P x)

variable {P : Integrand} {t0 : ℝ} {N : ℕ}

theorem exists_trace (hd : Data P ρ) (t0 : ℝ) : ∃ T, IsTrace fuel P ρ t0 T := by
  let _ := semI fuel
  obtain ⟨T, hT⟩ := Expr.evalP_spec (S := Interval D) ρ (fun _ => idPs t0) P.f hd.fin
  refine ⟨T, fun {E} hE {x v} hx hl => ?_⟩
  have := hT hE (p := P.p) (x := fun _ => x) (v := fun _ => v) hd.par (fun _ => hx) (fun _ => hd.noInv)
    (by simpa only [coeff_idPs] using hl)
  simp only [coeff_idPs] at this
  exact this

/-- evaluation in mode 2 -/
theorem eval2 (hd : Data P ρ) {T} (hT : IsTrace fuel P ρ t0 T) (hN : 1 ≤ N) (hN' : N + 1 < 2 ^ 31) {m : ℕ} (hm : 1 ≤ m) (hm' : m ≤ N + 1)
    {st st' : PSt (Interval D)} {x z : Ode.Ser} (hmode : st.mode = 2) (h0 : (0 : ℝ) ∈ st.domain) (hist : HistOk fuel T m st)
    (hxl : x.length = N + 1) (hx : Contains x (idCo t0)) (hl : P.f.LDom False ρ fun _ => t0)
    (h : (letI := scalI fuel; evalF P x) st = (.ok z, st')) :
    (st'.mode = 2 ∧ st'.domain = st.domain ∧ st'.use = st.use ∧ HistOk fuel T N st') ∧ 1 ≤ z.length ∧ z.length ≤ N + 1 ∧
      Encloses st.domain z (fun t => fn P.f ρ (t0 + t)) ∧ ∀ t ∈ st.domain, Smooth P.f ρ (t0 + t) := by
  let _ := semI fuel
  have key : ∀ τ ∈ st.domain, (st'.mode = 2 ∧ st'.domain = st.domain ∧ st'.use = st.use ∧ HistOk fuel T N st') ∧ (z.length = N + 1 ∨ z.length = 1) ∧
      Smooth P.f ρ (t0 + τ) ∧ ∃ r, Contains z r ∧ (∀ k, k + 1 < z.length → r k = coeff k (P.f.ps ρ fun _ => idPs t0)) ∧
        fn P.f ρ (t0 + τ) = ∑ k ∈ Finset.range z.length, r k * τ ^ k := by
    intro τ hτ
    let E : Env (Interval D) := ⟨2, st.domain, N + 1, m, N, τ, if st.use then [] else st.hist⟩
    have hE : E.Ok := ⟨Or.inr ⟨rfl, rfl, hτ, h0, convI fuel⟩, hm, hm', hN, hN'⟩
    have hat : At E st.use st.record (popT st.use (T E.m) []) [] st := by
      refine ⟨hmode, rfl, rfl, rfl, ?_⟩
      rcases hist with hu | ⟨hu, hr, hh⟩
      · exact ⟨[], [], by simp [E, hu], by simp [popT, hu], .nil⟩
      · exact ⟨st.hist, [], by simp [E, hu], by simpa [popT, hu] using hh.imp fun _ _ h => h.use N, .nil⟩
    have hst : Sem E false (idPs t0) (t0 + τ) x := by
      refine ⟨by simpa using hxl, fun hk => (by cases hk), idCo t0, hx, fun k _ => (idCo_idPs t0 k).symm, fun _ => ?_, fun hk => (by cases hk)⟩
      show t0 + τ = ∑ i ∈ Finset.range (N + 1), idCo t0 i * τ ^ i
      obtain ⟨M, rfl⟩ : ∃ M, N = M + 1 := ⟨N - 1, by omega⟩
      rw [Finset.sum_range_succ', Finset.sum_range_succ', Finset.sum_eq_zero (fun k _ => by simp [idCo])]
      simp [idCo]; ring
    obtain ⟨hat2, hsem, -, hS⟩ := hT hE hst (by
      have : (E.s < 2) = False := eq_false fun h => by change N + 1 < 2 at h; omega
      rw [this]; exact hl) st.use st.record [] [] st hat z st' h
    have hlz := hsem.len
    obtain ⟨q, h1, h2, h3, h4⟩ := hsem.ex
    have hlen : z.length = N + 1 ∨ (z.length = 1 ∧ P.f.isC = true) := by
      split_ifs at hlz with hk
      · exact Or.inr ⟨hlz, hk⟩
      · exact Or.inl hlz
    refine ⟨⟨hat2.mode, hat2.domain, hat2.use, ?_⟩, hlen.imp id And.left, hS rfl, q, h1, fun k hk => h2 k (by
      show k < N; rcases hlen with h | h <;> omega), ?_⟩
    · rcases hist with hu | ⟨hu, hr, hh⟩
      · exact Or.inl (by rw [hat2.use, hu])
      · refine Or.inr ⟨by rw [hat2.use, hu], by rw [hat2.record, hr], ?_⟩
        obtain ⟨U, P', hh, hU, hP⟩ := hat2.inv
        cases hU
        rw [hh]
        simpa [pushT, E, hu, hr] using hP
    · rw [h3 rfl]
      rcases hlen with h | ⟨h, hc⟩
      · rw [h]
      · rw [h]
        refine (Finset.sum_subset (Finset.range_mono (by show 1 ≤ N + 1; omega)) fun i _ hi => ?_).symm
        rw [h4 hc i (by simp at hi; omega), zero_mul]
  obtain ⟨a1, a2, -⟩ := key 0 h0
  refine ⟨a1, by omega, by omega, ⟨fun k => coeff k (P.f.ps ρ fun _ => idPs t0), fun t ht => ?_⟩, fun t ht => (key t ht).2.2.1⟩
  exact (key t ht).2.2.2

/-- evaluation in mode 1 with recording -/
theorem eval1 (hd : Data P ρ) {T} (hT : IsTrace fuel P ρ t0 T) (hN : 1 ≤ N) (hN' : N + 1 < 2 ^ 31)
    {st st' : PSt (Interval D)} {x z : Ode.Ser} (hmode : st.mode = 1) (hu : st.use = false) (hr : st.record = true) (hh : st.hist = [])
    (hxl : x.length = N + 1) (hx : Contains x (idCo t0)) (hl : P.f.LDom False ρ fun _ => t0)
    (h : (letI := scalI fuel; evalF P x) st = (.ok z, st')) :
    st'.record = true ∧ (let _ := semI fuel; List.Forall₂ (Match (N + 1)) (T (N + 1)) st'.hist) := by
  let _ := semI fuel
  let E : Env (Interval D) := ⟨1, st.domain, N + 1, N + 1, N + 1, 0, []⟩
  have hE : E.Ok := ⟨Or.inl ⟨rfl, rfl⟩, Nat.le_add_left 1 N, le_refl _, Nat.le_add_left 1 N, hN'⟩
  have hmd : E.md ≠ 2 := by show (1 : ℤ) ≠ 2; decide
  have hat : At E false true (popT false (T E.m) []) [] st := ⟨hmode, rfl, hu, hr, [], [], by simp [E, hh], by simp [popT], .nil⟩
  have hst : Sem E false (idPs t0) 0 x := by
    refine ⟨by simpa using hxl, fun hk => (by cases hk), idCo t0, hx, fun k _ => (idCo_idPs t0 k).symm, fun h => absurd h hmd, fun hk => (by cases hk)⟩
  obtain ⟨hat2, -⟩ := hT hE hst (by
    have : (E.s < 2) = False := eq_false fun h => by change N + 1 < 2 at h; omega
    rw [this]; exact hl) false true [] [] st hat z st' h
  refine ⟨hat2.record, ?_⟩
  obtain ⟨U, P', hh, hU, hP⟩ := hat2.inv
  cases hU
  rw [hh]
  simpa [pushT, E] using hP

theorem smooth_seg {d : Interval D} (h0 : (0 : ℝ) ∈ d) (hS : ∀ t ∈ d, Smooth e ρ (t0 + t)) {t : ℝ} (ht : t ∈ d) :
    ∀ x ∈ Set.uIcc t0 (t0 + t), Smooth e ρ x := fun x hx => by
  have h1 := convI 0 d 0 t (x - t0) h0 ht (by
    rw [Set.mem_uIcc] at hx ⊢
    rcases hx with h | h
    · exact Or.inl ⟨by linarith, by linarith⟩
    · exact Or.inr ⟨by linarith, by linarith⟩)
  simpa using hS _ h1

/-- the antiderivative computed from an enclosing series -/
theorem integral_mem {d : Interval D} {y z : Ode.Ser} (h0 : (0 : ℝ) ∈ d) (hl : 1 ≤ z.length) (hl' : z.length < 2 ^ 31)
    (hz : Encloses d z fun t => fn e ρ (t0 + t)) (hS : ∀ t ∈ d, Smooth e ρ (t0 + t)) (hy : (letI := scalI fuel; Psa.integrate z) = .ok y)
    {t : ℝ} (ht : t ∈ d) {S Z : Interval D} (hS' : t ∈ S) (hZ : (letI := scalI fuel; Psa.eval y S) = .ok Z) :
    (∫ x in t0..t0 + t, fn e ρ x) ∈ Z := by
  have h1 := C38_integrate (F := fun t => ∫ x in t0..t0 + t, fn e ρ x) hl' hl hz h0
    (fun t ht => (integral_deriv (smooth_seg h0 hS ht)).hasDerivWithinAt) (by simp) hy
  exact C38_eval h1.weak ht hS' hZ

/-- the series of the variable -/
theorem startSeries_spec (hN : 1 ≤ N) {st st' : PSt (Interval D)} {x : Ode.Ser}
    (h : (letI := scalI fuel; startSeries (N : ℤ)) st = (.ok x, st')) :
    st' = st ∧ x.length = N + 1 ∧ ∀ (t : Interval D) (t0 : ℝ), t0 ∈ t → Contains (x.set 0 t) (idCo t0) := by
  let _ := semI fuel
  change startSeries (N : ℤ) st = (.ok x, st') at h
  unfold startSeries Psa.setorder at h
  rw [if_neg (by omega)] at h
  rw [if_pos (by simp; omega)] at h
  obtain ⟨rfl, rfl⟩ := pure_run h
  refine ⟨rfl, by simp; omega, fun t t0 ht k A hA => ?_⟩
  match k with
  | 0 => simp at hA; subst hA; exact ht
  | 1 => simp at hA; subst hA; exact ScalSem.ofC_mem (S := Interval D) Interval.is_one
  | k + 2 =>
    simp [List.getElem?_replicate] at hA
    rw [← hA.2]
    exact mem_lit0 (fuel := fuel)

end Defint
end Kv
