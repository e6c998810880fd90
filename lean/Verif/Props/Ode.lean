import Verif.Ode.Long
import Verif.Props.HighDeriv

/-!
# C45: `ode` encloses the solution
-/

namespace Kv
open PowerSeries Psa PM
open Rop (lit)
set_option linter.unusedVariables false

/-- `y` solves `y' = F(y, t)`, `y(a) = x0` on `[a, b]` -/
def IsSol {n : ℕ} (F : (Fin n → ℝ) → ℝ → Fin n → ℝ) (a b : ℝ) (x0 : Fin n → ℝ) (y : ℝ → Fin n → ℝ) : Prop :=
  y a = x0 ∧ ∀ t ∈ Set.Icc a b, HasDerivWithinAt y (F (y t) t) (Set.Icc a b) t

/-- the right-hand side of a problem, with values `ρ` of the interval constants -/
noncomputable def Ode.Problem.rhsR {n : ℕ} (P : Ode.Problem n) (ρ : ℕ → ℝ) (x : Fin n → ℝ) (t : ℝ) (i : Fin n) : ℝ :=
  (P.f i).real ρ (Ode.withT x t)

/-- The calls considered: at least first order; with step size control the time is finite and goes forward, the tolerance is
not negative and `pow` of nonnegative numbers is nonnegative (or NaN). -/
structure Ode.Call {n : ℕ} (P : Ode.Problem n) (q : Ode.Param) : Prop where
  order : 1 ≤ q.order
  small : q.order + 1 < 2 ^ 31
  fin : ∀ i, (P.f i).FinCst
  auto : q.autostep = true → Ode.Forward P.start P.stop ∧ Ode.PwOk P.pw ∧ NN q.epsilon

section
variable {n fuel k : ℕ} {P : Ode.Problem n} {q : Ode.Param} {st st' : PSt (Interval D)} {r : Ode.Result n} {ρ : ℕ → ℝ} {x0 : Fin n → ℝ}
  {t0 t1 : ℝ}

theorem shift_sol {F : (Fin n → ℝ) → ℝ → Fin n → ℝ} {y : ℝ → Fin n → ℝ} (h : ∀ τ ∈ Set.Icc 0 (t1 - t0),
    HasDerivWithinAt y (F (y τ) (t0 + τ)) (Set.Icc 0 (t1 - t0)) τ) :
    ∀ t ∈ Set.Icc t0 t1, HasDerivWithinAt (fun t => y (t - t0)) (F (y (t - t0)) t) (Set.Icc t0 t1) t := by
  intro t ht
  have h1 := h (t - t0) ⟨by linarith [ht.1], by linarith [ht.2]⟩
  rw [add_sub_cancel] at h1
  have h2 : HasDerivWithinAt (fun t : ℝ => t - t0) 1 (Set.Icc t0 t1) t := ((hasDerivAt_id t).sub_const t0).hasDerivWithinAt
  have := HasDerivWithinAt.scomp t h1 h2 (fun s hs => show s - t0 ∈ Set.Icc 0 (t1 - t0) from ⟨by linarith [hs.1], by linarith [hs.2]⟩)
  rwa [one_smul] at this

theorem unshift_sol {F : (Fin n → ℝ) → ℝ → Fin n → ℝ} {y : ℝ → Fin n → ℝ} (h : ∀ t ∈ Set.Icc t0 t1, HasDerivWithinAt y (F (y t) t) (Set.Icc t0 t1) t) :
    ∀ τ ∈ Set.Icc 0 (t1 - t0), HasDerivWithinAt (fun τ => y (t0 + τ)) (F (y (t0 + τ)) (t0 + τ)) (Set.Icc 0 (t1 - t0)) τ := by
  intro τ hτ
  have h1 := h (t0 + τ) ⟨by linarith [hτ.1], by linarith [hτ.2]⟩
  have h2 : HasDerivWithinAt (fun τ : ℝ => t0 + τ) 1 (Set.Icc 0 (t1 - t0)) τ := ((hasDerivAt_id τ).const_add t0).hasDerivWithinAt
  have := HasDerivWithinAt.scomp τ h1 h2 (fun s hs => show t0 + s ∈ Set.Icc t0 t1 from ⟨by linarith [hs.1], by linarith [hs.2]⟩)
  rwa [one_smul] at this

/-- C45: if `ode` returns a nonzero value, then for all initial values, all start and end times (in this order) and all
values of the constants, the solution exists, is unique, and ends in the returned interval; the power series returned
through the pointer encloses it at all times.  Missing: the returned intervals must be bounded, and the right-hand side must be defined at the
initial point (`C45_violated`). -/
theorem C45_partial (hc : Ode.Call P q) (h : (letI := scalI fuel; ode k P q) st = (.ok r, st')) (hr : r.ret ≠ 0)
    (hbd : ∀ i, Bd (r.init i)) (hp : ∀ i, ρ i ∈ P.p i) (hx : ∀ i, x0 i ∈ P.init i) (ht0 : t0 ∈ P.start) (ht1 : t1 ∈ r.stop) (hle : t0 ≤ t1)
    (hdom : ∀ i, (P.f i).Dom ρ (Ode.withT x0 t0)) :
    ∃ y, IsSol (P.rhsR ρ) t0 t1 x0 y ∧ (∀ i, y t1 i ∈ r.init i) ∧ (∀ z, IsSol (P.rhsR ρ) t0 t1 x0 z → Set.EqOn y z (Set.Icc t0 t1)) ∧
      ∃ w, r.psa = some w ∧ ∀ t ∈ Set.Icc t0 t1, ∀ i, ∃ p : ℕ → ℝ, Contains (w i) p ∧ y t i = ∑ j ∈ Finset.range (w i).length, p j * (t - t0) ^ j := by
  have hd : Ode.Data P ρ x0 t0 := ⟨hp, hx, ht0, hc.fin, (letI := scalI fuel; Ode.ode_noInv hc.order h), fun i => (hdom i).lDom⟩
  obtain ⟨w, y, hw, hs, hy0, hy1, hy⟩ := Ode.ode_exists hd hc.order hc.small hc.auto h hr hbd ht1 hle
  refine ⟨fun t => y (t - t0), ⟨by simpa using hy0, shift_sol (F := P.rhsR ρ) fun τ hτ => (hy τ hτ).1⟩, hy1, fun z hz t ht => ?_, w, hw, fun t ht i => ?_⟩
  · have := ode_unique (f := Ode.field P ρ t0) (y := y) (z := fun τ => z (t0 + τ)) (by rw [hy0, add_zero, hz.1]) (fun τ hτ => (hy τ hτ).1)
      (unshift_sol (F := P.rhsR ρ) hz.2) (fun τ hτ => Ode.field_contDiffAt (hy τ hτ).2.2)
    have := this (show t - t0 ∈ Set.Icc 0 (t1 - t0) from ⟨by linarith [ht.1], by linarith [ht.2]⟩)
    simpa using this
  · obtain ⟨a, A, h1, h2, h3⟩ := (hy (t - t0) ⟨by linarith [ht.1], by linarith [ht.2]⟩).2.1 i
    refine ⟨fun j => if j < q.order then coeff j (Ode.fsol P.f ρ x0 t0 i) else a, fun j B hB => ?_, ?_⟩
    · show (if _ then _ else _) ∈ B
      split_ifs with hj
      · exact hs.con i j B hB
      · have := getElem?_lt hB
        obtain rfl : j = q.order := by have := hs.len i; omega
        rw [h1] at hB; cases hB; exact h2
    · dsimp only
      rw [h3, hs.len i, Finset.sum_range_succ, if_neg (lt_irrefl _)]
      congr 1
      exact Finset.sum_congr rfl fun j hj => by rw [if_pos (Finset.mem_range.1 hj)]

end

/-! ## examples -/

/-- the call succeeded with value 2 and bounded intervals -/
def odeOk (r : Res (Ode.Result 1) × PSt (Interval D)) : Bool := match r.1 with
  | .ok r => r.ret == 2 && isFinD (r.init 0).inf && isFinD (r.init 0).sup
  | _ => false

theorem odeOk_iff {r : Res (Ode.Result 1) × PSt (Interval D)} (h : odeOk r = true) :
    ∃ o st', r = (.ok o, st') ∧ o.ret ≠ 0 ∧ ∀ i, Bd (o.init i) := by
  obtain ⟨a, s⟩ := r
  unfold odeOk at h
  dsimp only at h
  split at h
  · next _ o =>
    simp only [Bool.and_eq_true, beq_iff_eq, isFinD_iff] at h
    exact ⟨o, s, rfl, by rw [h.1.1]; decide, fun i => by rw [Subsingleton.elim i 0]; exact ⟨h.1.2, h.2⟩⟩
  · cases h

theorem exOde_call : Ode.Call exOde exPar := ⟨by decide, by decide, fun _ => trivial, fun h => by cases h⟩

/-- `x' = x`, `x(0) = 1` up to `1/2` satisfies the hypotheses of `C45_partial` -/
example : ∃ (r : Ode.Result 1) (st' : PSt (Interval D)), Ode.Call exOde exPar ∧ (letI := scalI 100; ode 10 exOde exPar) (st0 2) = (.ok r, st') ∧
    r.ret ≠ 0 ∧ (∀ i, Bd (r.init i)) ∧ (∀ i, (exOde.f i).Dom (fun _ => 0) (Ode.withT (fun _ => 1) 0)) := by
  obtain ⟨o, st', h1, h2, h3⟩ := odeOk_iff (r := (letI := scalI 100; ode 10 exOde exPar) (st0 2)) (by decide +kernel)
  exact ⟨o, st', exOde_call, h1, h2, h3, fun _ => trivial⟩

/-- `x' = x`, `x(0) = 1`, end `1/4`, with step size control -/
def exAuto : Ode.Problem 1 := ⟨fun _ => .var 0, fun _ => pt 0, fun _ => pt 1, pt 0, pt (1 / 4), fun a _ => a⟩

/-- order 4, step size control, tolerance `2^-20`, one refinement, at most 3 restarts -/
def exParA : Ode.Param := ⟨4, true, lit (1 / 2 ^ 20), 1, 3⟩

/-- with step size control -/
example : ∃ (r : Ode.Result 1) (st' : PSt (Interval D)), Ode.Call exAuto exParA ∧ (letI := scalI 100; ode 10 exAuto exParA) (st0 2) = (.ok r, st') := by
  obtain ⟨r, st', h⟩ := okRun_iff (r := (letI := scalI 100; ode 10 exAuto exParA) (st0 2)) (by decide +kernel)
  refine ⟨r, st', ⟨by decide, by decide, fun _ => trivial, fun _ => ⟨⟨⟨?_, ?_⟩, ?_, ?_, ?_⟩, fun a b h => h, NN.lit (by norm_num)⟩⟩, h⟩ <;> decide +kernel

/-- `x' = x^2`, `x(0) = 1`, end `2^600` -/
def exSq : Ode.Problem 1 := ⟨fun _ => .bin .mul (.var 0) (.var 0), fun _ => pt 0, fun _ => pt 1, pt 0, pt (2 ^ 600), fun a _ => a⟩

/-- first order, fixed step -/
def exPar1 : Ode.Param := ⟨1, false, lit 0, 0, 1⟩

/-- `x' = x^2`, `x(0) = 1` has no solution up to time 1 -/
theorem no_sol {b : ℝ} (hb : 1 ≤ b) (y : ℝ → Fin 1 → ℝ) : ¬ IsSol (exSq.rhsR fun _ => 0) 0 b (fun _ => 1) y := by
  rintro ⟨h0, h⟩
  have hy : ∀ t ∈ Set.Icc 0 b, HasDerivWithinAt (fun t => y t 0) (y t 0 * y t 0) (Set.Icc 0 b) t := fun t ht =>
    (hasDerivWithinAt_pi.1 (h t ht)) 0
  have hc : ContinuousOn (fun t => y t 0) (Set.Icc 0 b) := fun t ht => (hy t ht).continuousWithinAt
  have hmono : MonotoneOn (fun t => y t 0) (Set.Icc 0 b) := by
    refine monotoneOn_of_hasDerivWithinAt_nonneg (convex_Icc 0 b) hc (f' := fun t => y t 0 * y t 0) (fun t ht => ?_) fun t _ => mul_self_nonneg _
    exact (hy t (interior_subset ht)).mono interior_subset
  have hpos : ∀ t ∈ Set.Icc 0 b, 1 ≤ y t 0 := fun t ht => by
    have h1 := hmono ⟨le_refl 0, by linarith⟩ ht ht.1
    have h2 : y 0 0 = 1 := by rw [h0]
    dsimp only at h1
    linarith
  have hz : ∀ t ∈ Set.Icc 0 b, HasDerivWithinAt (fun t => (y t 0)⁻¹ + t) 0 (Set.Icc 0 b) t := fun t ht => by
    have hne : y t 0 ≠ 0 := by have := hpos t ht; linarith
    have h1 := ((hy t ht).inv hne).add ((hasDerivAt_id t).hasDerivWithinAt (s := Set.Icc 0 b))
    have e : -(y t 0 * y t 0) / y t 0 ^ 2 + 1 = 0 := by rw [neg_div, sq, div_self (mul_ne_zero hne hne)]; ring
    rw [e] at h1
    exact h1
  have hcon := constant_of_has_deriv_right_zero (f := fun t => (y t 0)⁻¹ + t) (a := 0) (b := b)
    (fun t ht => (hz t ht).continuousWithinAt) (fun t ht => ((hz t ⟨ht.1, ht.2.le⟩).mono_of_mem_nhdsWithin (by
      exact Icc_mem_nhdsGE_of_mem ht)))
  have h1 := hcon 1 ⟨zero_le_one, hb⟩
  have h2 : y 0 0 = 1 := by rw [h0]
  have h3 := hpos 1 ⟨zero_le_one, hb⟩
  simp only [h2, inv_one, add_zero] at h1
  have h4 : 0 < (y 1 0)⁻¹ := inv_pos.2 (by linarith)
  linarith

/-- the call returned 2 and left the end unchanged -/
def odeOk2 (e : Interval D) (r : Res (Ode.Result 1) × PSt (Interval D)) : Bool := match r.1 with
  | .ok r => r.ret == 2 && decide (r.stop.inf = e.inf) && decide (r.stop.sup = e.sup)
  | _ => false

theorem odeOk2_iff {e : Interval D} {r : Res (Ode.Result 1) × PSt (Interval D)} (h : odeOk2 e r = true) :
    ∃ o st', r = (.ok o, st') ∧ o.ret = 2 ∧ o.stop = e := by
  obtain ⟨a, s⟩ := r
  unfold odeOk2 at h
  dsimp only at h
  split at h
  · next _ o =>
    simp only [Bool.and_eq_true, beq_iff_eq, decide_eq_true_eq] at h
    obtain ⟨⟨h1, h2⟩, h3⟩ := h
    refine ⟨o, s, rfl, h1, ?_⟩
    obtain ⟨r, i, t, p⟩ := o
    obtain ⟨a, b⟩ := t
    obtain ⟨c, d⟩ := e
    simp only at h2 h3
    subst h2; subst h3; rfl
  · cases h

/-- C45 does not hold: `ode` returns 2 (success up to the end `2^600`) for `x' = x^2`, `x(0) = 1`, although the solution
ends before time 1.  The remainder of the candidate overflows to `[-∞, ∞]` and is then included in itself. -/
theorem C45_violated : ∃ (r : Ode.Result 1) (st' : PSt (Interval D)), Ode.Call exSq exPar1 ∧
    (letI := scalI 100; ode 10 exSq exPar1) (st0 0) = (.ok r, st') ∧ r.ret = 2 ∧ (0 : ℝ) ∈ exSq.start ∧ (∀ i, (1 : ℝ) ∈ exSq.init i) ∧
    ∃ t1 ∈ r.stop, (0 : ℝ) ≤ t1 ∧ (∀ i, (exSq.f i).Dom (fun _ => 0) (Ode.withT (fun _ => 1) 0)) ∧
      ¬ ∃ y, IsSol (exSq.rhsR fun _ => 0) 0 t1 (fun _ => 1) y := by
  obtain ⟨o, st', h1, h2, h3⟩ := odeOk2_iff (e := exSq.stop) (r := (letI := scalI 100; ode 10 exSq exPar1) (st0 0)) (by decide +kernel)
  have hm : (2 ^ 600 : ℝ) ∈ exSq.stop := by
    have e := Interval.is_cst (q := 2 ^ 600) 1 600 (by decide) (by decide) (by decide) (by norm_num)
    exact Interval.point_mem (by rw [show ((2 ^ 600 : ℚ) : ℝ) = (2 : ℝ) ^ 600 by push_cast; rfl] at e; exact e)
  refine ⟨o, st', ⟨by decide, by decide, fun _ => ⟨trivial, trivial⟩, fun h => by cases h⟩, h1, h2,
    ?_, fun _ => ?_, 2 ^ 600, by rw [h3]; exact hm, by positivity, fun _ => ⟨trivial, trivial, trivial⟩, fun ⟨y, hy⟩ => no_sol (one_le_pow₀ (by norm_num)) y hy⟩
  · exact Interval.point_mem (Interval.is_zero (T := D))
  · exact Interval.point_mem (Interval.is_one (T := D))

end Kv
