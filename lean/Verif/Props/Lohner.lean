import Verif.Ode.LohnerLemmas
import Verif.Props.Ode
import Mathlib.Analysis.SpecialFunctions.Trigonometric.ArctanDeriv

/-!
# C81: `ode_lohner` encloses the solution
-/

namespace Kv
open PowerSeries Psa PM
open Rop (lit)
set_option linter.unusedVariables false

section
variable {n fuel k : ℕ} {P : Ode.Problem n} {q : Ode.Param} {st st' : PSt (Interval D)} {r : Ode.Result n} {ρ : ℕ → ℝ} {x0 : Fin n → ℝ}
  {t0 t1 : ℝ}

/-- C81: if `ode_lohner` returns a nonzero value, then every solution, for all initial values, all start and end times (in this order) and all values of
the constants, ends in the returned interval.  Missing: the order must be 1 (`C81_violated`), the right-hand side must be smooth everywhere, and the existence
of the solution is not claimed. -/
theorem C81_partial (hq : q.order = 1) (hfin : ∀ i, (P.f i).FinCst) (h : (letI := scalI fuel; odeLohner k P q) st = (.ok r, st')) (hr : r.ret ≠ 0)
    (hp : ∀ i, ρ i ∈ P.p i) (hx : ∀ i, x0 i ∈ P.init i) (ht0 : t0 ∈ P.start) (ht1 : t1 ∈ r.stop) (hle : t0 ≤ t1)
    (hsm : ∀ i v, (P.f i).SDom ρ v) {y : ℝ → Fin n → ℝ} (hy : IsSol (P.rhsR ρ) t0 t1 x0 y) : ∀ i, y t1 i ∈ r.init i := by
  have hd : Ode.Lohner.Hyp P ρ x0 := ⟨hp, hx, hfin, hsm⟩
  let _ := semI fuel
  change odeLohner k P q st = (.ok r, st') at h
  unfold odeLohner at h
  rw [get_bind] at h
  rw [setMode_bind, setUse_bind, setRec_bind, setHist_bind] at h
  obtain ⟨x, s1, g1, h1⟩ := bind_run h
  rw [hq] at g1
  obtain ⟨rfl, rfl⟩ := pure_run g1
  obtain ⟨radius, s2, g2, h2⟩ := bind_run h1
  obtain ⟨-, rfl⟩ := lift_run g2
  obtain ⟨o, s3, g3, h3⟩ := bind_run h2
  obtain ⟨g4, rfl⟩ := lift_run g3
  obtain ⟨r', s4, g5, h4⟩ := bind_run h3
  obtain rfl : r' = r := by
    rw [setMode_bind, setUse_bind, setRec_bind] at h4
    exact (pure_run h4).1.symm
  unfold Ode.Lohner.conclude at g5
  by_cases ho : o.ret ≠ 0
  · rw [if_pos ho] at g5
    obtain ⟨V, s5, g6, h5⟩ := bind_run g5
    obtain ⟨g7, rfl⟩ := lift_run g6
    rw [setUse_bind, setRec_bind, setHist_bind] at h5
    obtain ⟨z, s6, g8, h6⟩ := bind_run h5
    obtain ⟨z', s7, g9, h7⟩ := bind_run h6
    obtain ⟨rfl, g10⟩ := vec_lift g9
    obtain ⟨res, s8, g11, h8⟩ := bind_run h7
    obtain ⟨rfl, g12⟩ := vec_lift g11
    obtain ⟨rfl, -⟩ := pure_run h8
    rw [hq] at g8 g10
    dsimp only at ht1 ⊢
    have ht1' : t1 ∈ o.end2 := by rwa [Ode.Lohner.loop_stop g4 ho] at ht1
    obtain ⟨hs, hbox⟩ := Ode.Lohner.loop_sol hd ht0 g4 ho t1 ht1' hle
    have hy0 : (fun τ => y (t0 + τ)) 0 = x0 := by simpa using hy.1
    have hyd := unshift_sol (F := P.rhsR ρ) hy.2
    have hV := Ode.Lohner.refine_sol hd hs hy0 hyd g7 (hbox _ hy0 hyd)
    intro i
    obtain ⟨σ, hσ, e⟩ := Ode.Lohner.slope hd hy0 hyd (show t1 - t0 ∈ Set.Icc 0 (t1 - t0) from ⟨sub_nonneg.2 hle, le_rfl⟩) i
    obtain ⟨hl, hA⟩ := Ode.Lohner.coeffs1_mem hd rfl rfl g8 (hV σ hσ) (hs.time σ hσ) i
    obtain ⟨a, b, hz⟩ := List.length_eq_two.1 hl
    rw [hz] at hA
    have g13 := g10 i
    rw [hz] at g13
    have hz' : z' i = [P.init i, b] := by
      have : (Except.ok [P.init i, b] : Res Ode.Ser) = .ok (z' i) := g13
      exact (Except.ok.inj this).symm
    have g14 := g12 i
    rw [hz'] at g14
    have := polyrange_mem (S := Interval D) (l := [P.init i, b]) (t := t1 - t0) (d := o.deltat) (p := fun k => if k = 0 then x0 i else (P.f i).real ρ (Ode.withT (y (t0 + σ)) (t0 + σ))) hs.len (fun k A hk => by
      match k with
      | 0 => simp at hk; subst hk; exact hx i
      | 1 => simp at hk; subst hk; exact hA _ rfl
      | k + 2 => simp at hk) g14
    simp only [List.length_cons, List.length_nil, Finset.sum_range_succ, Finset.sum_range_zero, zero_add] at this
    have e' : y t1 i = x0 i + (P.f i).real ρ (Ode.withT (y (t0 + σ)) (t0 + σ)) * (t1 - t0) := by
      have : t0 + (t1 - t0) = t1 := by ring
      rw [this] at e
      exact e
    rw [e']
    simp only [pow_zero, mul_one, pow_one, if_true, one_ne_zero, if_false] at this
    exact this
  · rw [if_neg ho] at g5
    obtain ⟨rfl, -⟩ := pure_run g5
    exact absurd rfl hr

end

/-! ## examples -/

/-- `x' = 1 + x^2`, `x(0) = 0`, end `1/4` -/
def exLohner : Ode.Problem 1 :=
  ⟨fun _ => .cBin .add (lit 1) (.bin .mul (.var 0) (.var 0)), fun _ => pt 0, fun _ => pt 0, pt 0, pt (1 / 4), fun a _ => a⟩

/-- fixed step, no refinement -/
def exLohnerPar (order : ℕ) : Ode.Param := ⟨order, false, lit 0, 0, 1⟩

theorem exLohner_fin (i : Fin 1) : (exLohner.f i).FinCst := ⟨⟨trivial, trivial⟩, is_dbl' ⟨1, Interval.is_one (T := D)⟩⟩

theorem exLohner_smooth (ρ : ℕ → ℝ) (i : Fin 1) (v : Fin 2 → ℝ) : (exLohner.f i).SDom ρ v := ⟨⟨trivial, trivial, trivial⟩, trivial⟩

/-- the solution is the tangent -/
theorem exLohner_sol {b : ℝ} (hb : b ≤ 1 / 2) : IsSol (exLohner.rhsR fun _ => 0) 0 b (fun _ => 0) fun t _ => Real.tan t := by
  refine ⟨by funext; simp, fun t ht => hasDerivWithinAt_pi.2 fun i => ?_⟩
  have hpi := Real.two_le_pi
  have hc : 0 < Real.cos t := Real.cos_pos_of_mem_Ioo ⟨by linarith [ht.1], by linarith [ht.2]⟩
  have h1 := (Real.hasDerivAt_tan hc.ne').hasDerivWithinAt (s := Set.Icc 0 b)
  have e : exLohner.rhsR (fun _ => 0) (fun _ => Real.tan t) t i = 1 / Real.cos t ^ 2 := by
    have h2 : dbl (lit 1 : D) = 1 := is_dbl (Interval.is_one (T := D))
    show dbl (lit 1 : D) + Real.tan t * Real.tan t = _
    rw [h2, ← sq, ← Real.inv_one_add_tan_sq hc.ne']
    simp
  rw [e]
  exact h1

/-- the hypotheses of `C81_partial` hold for first order -/
example : ∃ (r : Ode.Result 1) (st' : PSt (Interval D)), (letI := scalI 100; odeLohner 10 exLohner (exLohnerPar 1)) (st0 1) = (.ok r, st') ∧ r.ret ≠ 0 ∧
    (∀ i, Bd (r.init i)) ∧ (exLohnerPar 1).order = 1 ∧ (∀ i, (exLohner.f i).FinCst) ∧ (∀ i v, (exLohner.f i).SDom (fun _ => 0) v) ∧
    IsSol (exLohner.rhsR fun _ => 0) 0 (1 / 4) (fun _ => 0) fun t _ => Real.tan t := by
  obtain ⟨o, st', h1, h2, h3⟩ := odeOk_iff (r := (letI := scalI 100; odeLohner 10 exLohner (exLohnerPar 1)) (st0 1)) (by decide +kernel)
  exact ⟨o, st', h1, h2, h3, rfl, exLohner_fin, exLohner_smooth _, exLohner_sol (by norm_num)⟩

/-- the call returned 2, left the end unchanged and computed the given value -/
def lohnerIs (e : Interval D) (a b : D) (r : Res (Ode.Result 1) × PSt (Interval D)) : Bool := match r.1 with
  | .ok r => r.ret == 2 && decide (r.stop.inf = e.inf) && decide (r.stop.sup = e.sup) && decide ((r.init 0).inf = a) && decide ((r.init 0).sup = b)
  | _ => false

theorem lohnerIs_iff {e : Interval D} {a b : D} {r : Res (Ode.Result 1) × PSt (Interval D)} (h : lohnerIs e a b r = true) :
    ∃ o st', r = (.ok o, st') ∧ o.ret = 2 ∧ o.stop = e ∧ o.init 0 = ⟨a, b⟩ := by
  obtain ⟨x, s⟩ := r
  unfold lohnerIs at h
  dsimp only at h
  split at h
  · next _ o =>
    simp only [Bool.and_eq_true, beq_iff_eq, decide_eq_true_eq] at h
    obtain ⟨⟨⟨⟨h1, h2⟩, h3⟩, h4⟩, h5⟩ := h
    exact ⟨o, s, rfl, h1, by cases e; cases hs : o.stop; simp_all, by cases hi : o.init 0; simp_all⟩
  · cases h

theorem exLohner_run : lohnerIs exLohner.stop (lit (1 / 4)) (lit (1 / 4)) ((letI := scalI 100; odeLohner 10 exLohner (exLohnerPar 2)) (st0 1)) = true := by
  decide +kernel

/-- C81 does not hold for order 2: for `x' = 1 + x^2`, `x(0) = 0`, `ode_lohner` returns 2 (success up to the end `1/4`) and the result `[1/4, 1/4]`, but the
solution is `tan t`, and `tan (1/4) > 1/4`.  The coefficient for the remainder is computed from the initial value instead of the box. -/
theorem C81_violated : ∃ (r : Ode.Result 1) (st' : PSt (Interval D)),
    (letI := scalI 100; odeLohner 10 exLohner (exLohnerPar 2)) (st0 1) = (.ok r, st') ∧ r.ret = 2 ∧ (0 : ℝ) ∈ exLohner.start ∧ (∀ i, (0 : ℝ) ∈ exLohner.init i) ∧
    (∀ i v, (exLohner.f i).SDom (fun _ => 0) v) ∧ ∃ t1 ∈ r.stop, (0 : ℝ) ≤ t1 ∧
      ∃ y, IsSol (exLohner.rhsR fun _ => 0) 0 t1 (fun _ => 0) y ∧ y t1 0 ∉ r.init 0 := by
  obtain ⟨o, st', h1, h2, h3, h4⟩ := lohnerIs_iff exLohner_run
  have hq : Is (lit (1 / 4) : D) (1 / 4) := by
    have := Interval.is_cst (q := 1 / 4) 1 (-2) (by norm_num) (by norm_num) (by norm_num) (by norm_num)
    simpa using this
  refine ⟨o, st', h1, h2, Interval.point_mem (Interval.is_zero (T := D)), fun _ => Interval.point_mem (Interval.is_zero (T := D)), exLohner_smooth _, 1 / 4,
    by rw [h3]; exact Interval.point_mem hq, by norm_num, _, exLohner_sol (by norm_num), fun hm => ?_⟩
  rw [h4] at hm
  have h5 : Real.tan (1 / 4) ≤ 1 / 4 := by
    have := hm.2.2
    rw [hq.2] at this
    exact_mod_cast this
  have hpi := Real.two_le_pi
  have := Real.lt_tan (x := 1 / 4) (by norm_num) (by linarith)
  linarith

end Kv
