import Verif.Ode.OdeAutodif
import Verif.Props.Ode
import Verif.Solver.LinLemmas

/-!
# C82: `ode` for `autodif` encloses the solution and its derivatives with respect to the parameters
-/

namespace Kv
open PowerSeries Psa PM
open Rop (lit)
set_option linter.unusedVariables false

/-- `ode` changes the end only if it returns 1 -/
theorem ode_stop {n k : ℕ} [Scal (Interval D)] {P : Ode.Problem n} {q : Ode.Param} {st st' : PSt (Interval D)} {r : Ode.Result n}
    (h : ode k P q st = (.ok r, st')) (hr : r.ret ≠ 1) : r.stop = P.stop := by
  unfold ode at h
  rw [get_bind, setMode_bind, setUse_bind, setRec_bind, setHist_bind] at h
  obtain ⟨x, s1, g1, h1⟩ := bind_run h
  obtain ⟨radius, s2, g2, h2⟩ := bind_run h1
  rw [setMode_bind] at h2
  obtain ⟨o, s3, g3, h3⟩ := bind_run h2
  obtain ⟨r', s4, g4, h4⟩ := bind_run h3
  rw [setMode_bind, setUse_bind, setRec_bind] at h4
  obtain ⟨rfl, -⟩ := pure_run h4
  unfold Ode.conclude at g4
  by_cases ho : o.ret ≠ 0
  · rw [if_pos ho] at g4
    obtain ⟨w, s5, g5, h5⟩ := bind_run g4
    obtain ⟨res, s6, g6, h6⟩ := bind_run h5
    obtain ⟨rfl, -⟩ := pure_run h6
    exact if_neg hr
  · rw [if_neg ho] at g4
    obtain ⟨rfl, -⟩ := pure_run g4
    rfl

section
variable {n fuel k : ℕ} {P : Ode.Problem n} {A : Fin n → Autodif (Interval D)} {q : Ode.Param} {st st' : PSt (Interval D)} {r : Ode.ResultA n}
  {ρ : ℕ → ℝ} {x0 : Fin n → ℝ} {t0 t1 : ℝ}

/-- what is known of the first call when `ode` for `autodif` returns 2 -/
theorem odeAutodif_first [Scal (Interval D)] (h : odeAutodif k P A q st = (.ok r, st')) (hr : r.ret = 2) :
    ∃ r1 s1, ode k { P with init := fun i => (A i).v } q st = (.ok r1, s1) ∧ r1.ret = 2 ∧ r.stop = P.stop ∧ r1.stop = P.stop ∧
      (∀ i, (r.init i).v = r1.init i) ∧ r.psa = r1.psa := by
  unfold odeAutodif at h
  obtain ⟨r1, s1, g1, h1⟩ := bind_run h
  by_cases h0 : r1.ret = 0
  · rw [if_pos h0] at h1
    obtain ⟨rfl, -⟩ := pure_run h1
    exact absurd hr (show ¬ (0 : ℤ) = 2 by decide)
  · rw [if_neg h0] at h1
    cases hp : r1.psa with
    | none => rw [hp] at h1; cases h1
    | some w =>
      rw [hp] at h1
      obtain ⟨r2, s2, g2, h2⟩ := bind_run h1
      by_cases h3 : r2.ret = 0
      · rw [if_pos h3] at h2
        obtain ⟨rfl, -⟩ := pure_run h2
        exact absurd hr (show ¬ (0 : ℤ) = 2 by decide)
      · rw [if_neg h3] at h2
        by_cases h4 : r2.ret = 1 ∧ q.autostep = false
        · rw [if_pos h4] at h2
          obtain ⟨rfl, -⟩ := pure_run h2
          exact absurd hr (show ¬ (0 : ℤ) = 2 by decide)
        · rw [if_neg h4] at h2
          obtain ⟨rfl, -⟩ := pure_run h2
          dsimp only at hr ⊢
          by_cases h5 : r2.ret = 1
          · rw [if_pos h5] at hr; exact absurd hr (by decide)
          · rw [if_neg h5] at hr ⊢
            refine ⟨r1, s1, g1, hr, ?_, (ode_stop g1 (by rw [hr]; decide)).trans rfl, fun i => rfl, hp.symm⟩
            rw [if_neg (by rw [hr]; decide)]

/-- C82: if `ode` for `autodif` returns a nonzero value, then for all initial values, all start and end times (in this order) and all values of the
constants, the solution exists, is unique, and its value at the end lies in the value part of the result.  Missing: the return value must be 2
(`C82_violated`), and as for C45 the result must be bounded and the right-hand side defined at the initial point; nothing is claimed of the derivatives. -/
theorem C82_partial (hc : Ode.Call P q) (h : (letI := scalI fuel; odeAutodif k P A q) st = (.ok r, st')) (hr : r.ret = 2)
    (hbd : ∀ i, Bd (r.init i).v) (hp : ∀ i, ρ i ∈ P.p i) (hx : ∀ i, x0 i ∈ (A i).v) (ht0 : t0 ∈ P.start) (ht1 : t1 ∈ r.stop) (hle : t0 ≤ t1)
    (hdom : ∀ i, (P.f i).Dom ρ (Ode.withT x0 t0)) :
    ∃ y, IsSol (P.rhsR ρ) t0 t1 x0 y ∧ (∀ i, y t1 i ∈ (r.init i).v) ∧ (∀ z, IsSol (P.rhsR ρ) t0 t1 x0 z → Set.EqOn y z (Set.Icc t0 t1)) ∧
      ∃ w, r.psa = some w ∧ ∀ t ∈ Set.Icc t0 t1, ∀ i, ∃ p : ℕ → ℝ, Contains (w i) p ∧ y t i = ∑ j ∈ Finset.range (w i).length, p j * (t - t0) ^ j := by
  obtain ⟨r1, s1, g1, g2, g3, g4, g5, g6⟩ := (letI := scalI fuel; odeAutodif_first h hr)
  have hc' : Ode.Call { P with init := fun i => (A i).v } q := ⟨hc.order, hc.small, hc.fin, hc.auto⟩
  obtain ⟨y, h1, h2, h3, w, h4, h5⟩ := C45_partial hc' g1 (by rw [g2]; decide) (fun i => g5 i ▸ hbd i) hp hx ht0 (by rw [g4, ← g3]; exact ht1) hle hdom
  exact ⟨y, h1, fun i => by rw [g5 i]; exact h2 i, h3, w, by rw [g6]; exact h4, h5⟩

/-- what is known of the derivatives when `ode` for `autodif` returns a nonzero value: they are the product of the matrix computed by the second call (the
enclosure of the solution of the variational equation along the series of the first call) and the derivatives of the initial values -/
theorem C82_product_partial (h : (letI := scalI fuel; odeAutodif k P A q) st = (.ok r, st')) (hr : r.ret ≠ 0) :
    ∃ w r1 s1 r2 s2, (letI := scalI fuel; ode k { P with init := fun i => (A i).v } q) st = (.ok r1, s1) ∧ r1.psa = some w ∧
      (letI := scalI fuel; odeG (Ode.Var.eq P w) k (Ode.Var.problem P r1.stop) { q with autostep := true, epsilon := .pinf }) s1 = (.ok r2, s2) ∧
      ∀ (M D' : ℕ → ℕ → ℝ), (∀ i l, M i l ∈ r2.init (Ode.Var.idx i l)) →
        (∀ (l : Fin n) j, D' l j ∈ (A l).d.getD j (pt 0)) → ∀ (i : Fin n) (j : Fin (Autodif.splitCols A)),
          ∑ l : Fin n, M i l * D' l j ∈ (r.init i).d.getD j (pt 0) := by
  let _ := scalI fuel
  unfold odeAutodif at h
  obtain ⟨r1, s1, g1, h1⟩ := bind_run h
  by_cases h0 : r1.ret = 0
  · rw [if_pos h0] at h1
    obtain ⟨rfl, -⟩ := pure_run h1
    exact absurd rfl hr
  · rw [if_neg h0] at h1
    cases hp : r1.psa with
    | none => rw [hp] at h1; cases h1
    | some w =>
      rw [hp] at h1
      obtain ⟨r2, s2, g2, h2⟩ := bind_run h1
      by_cases h3 : r2.ret = 0
      · rw [if_pos h3] at h2
        obtain ⟨rfl, -⟩ := pure_run h2
        exact absurd rfl hr
      · rw [if_neg h3] at h2
        by_cases h4 : r2.ret = 1 ∧ q.autostep = false
        · rw [if_pos h4] at h2
          obtain ⟨rfl, -⟩ := pure_run h2
          exact absurd rfl hr
        · rw [if_neg h4] at h2
          obtain ⟨rfl, -⟩ := pure_run h2
          refine ⟨w, r1, s1, r2, s2, g1, hp, g2, fun M D' hM hD i j => ?_⟩
          dsimp only
          rw [List.getD_eq_getElem?_getD, List.getElem?_ofFn, dif_pos j.2, Option.getD_some]
          exact LA.sumI_mem fun l => Interval.mul_mem (hM i l) (hD l j)

end

/-! ## examples -/

/-- `x' = 1 + (x - t)`, `x(0) = 0`; the solution is `x = t` -/
def exShort (stop : ℚ) : Ode.Problem 1 :=
  ⟨fun _ => .cBin .add (lit 1) (.bin .sub (.var 0) (.var 1)), fun _ => pt 0, fun _ => pt 0, pt 0, pt stop, fun a _ => a⟩

/-- the initial value 0 with derivative 1 -/
def exShortInit (_ : Fin 1) : Autodif (Interval D) := ⟨pt 0, [pt 1]⟩

/-- order 2, step size control, at most one restart -/
def exShortPar : Ode.Param := ⟨2, true, lit 1024, 0, 1⟩

theorem exShort_call (s : ℚ) (hs : Ode.Forward (exShort s).start (exShort s).stop) : Ode.Call (exShort s) exShortPar :=
  ⟨by decide, by decide, fun _ => ⟨⟨trivial, trivial⟩, is_dbl' ⟨1, Interval.is_one (T := D)⟩⟩, fun _ => ⟨hs, fun a b h => h, NN.lit (by norm_num)⟩⟩

/-- the call returned `ret`, the end is `e`, the value `v` -/
def autodifIs (ret : ℤ) (e v : D) (r : Res (Ode.ResultA 1) × PSt (Interval D)) : Bool := match r.1 with
  | .ok r => r.ret == ret && decide (r.stop.inf = e) && decide (r.stop.sup = e) && decide ((r.init 0).v.inf = v) && decide ((r.init 0).v.sup = v)
  | _ => false

theorem autodifIs_iff {ret : ℤ} {e v : D} {r : Res (Ode.ResultA 1) × PSt (Interval D)} (h : autodifIs ret e v r = true) :
    ∃ o st', r = (.ok o, st') ∧ o.ret = ret ∧ o.stop = ⟨e, e⟩ ∧ (o.init 0).v = ⟨v, v⟩ := by
  obtain ⟨x, s⟩ := r
  unfold autodifIs at h
  dsimp only at h
  split at h
  · next _ o =>
    simp only [Bool.and_eq_true, beq_iff_eq, decide_eq_true_eq] at h
    obtain ⟨⟨⟨⟨h1, h2⟩, h3⟩, h4⟩, h5⟩ := h
    exact ⟨o, s, rfl, h1, by cases hs : o.stop; simp_all, by cases hi : (o.init 0).v; simp_all⟩
  · cases h

theorem exShort_run : autodifIs 1 (lit 1) (lit 2) ((letI := scalI 100; odeAutodif 10 (exShort 2) exShortInit exShortPar) (st0 1)) = true := by
  decide +kernel

theorem exShort_run2 : autodifIs 2 (lit (1 / 2)) (lit (1 / 2)) ((letI := scalI 100; odeAutodif 10 (exShort (1 / 2)) exShortInit exShortPar) (st0 1)) = true := by
  decide +kernel

/-- the hypotheses of `C82_partial` hold for the end `1/2` -/
example : ∃ (r : Ode.ResultA 1) (st' : PSt (Interval D)), Ode.Call (exShort (1 / 2)) exShortPar ∧
    (letI := scalI 100; odeAutodif 10 (exShort (1 / 2)) exShortInit exShortPar) (st0 1) = (.ok r, st') ∧ r.ret = 2 ∧ (∀ i, Bd (r.init i).v) ∧
    ∀ i, ((exShort (1 / 2)).f i).Dom (fun _ => 0) (Ode.withT (fun _ => 0) 0) := by
  obtain ⟨o, st', h1, h2, h3, h4⟩ := autodifIs_iff exShort_run2
  refine ⟨o, st', exShort_call _ ⟨⟨?_, ?_⟩, ?_, ?_, ?_⟩, h1, h2, fun i => ?_, fun _ => ⟨⟨trivial, trivial, trivial⟩, trivial⟩⟩
  iterate 5 · decide +kernel
  rw [Subsingleton.elim i 0, h4]
  have : FinD (lit (1 / 2) : D) := ⟨_, Interval.is_half (T := D)⟩
  exact ⟨this, this⟩

/-- the solution -/
theorem exShort_sol (s : ℚ) {b : ℝ} : IsSol ((exShort s).rhsR fun _ => 0) 0 b (fun _ => 0) fun t _ => t := by
  refine ⟨rfl, fun t ht => hasDerivWithinAt_pi.2 fun i => ?_⟩
  have e : (exShort s).rhsR (fun _ => 0) (fun _ => t) t i = 1 := by
    have h2 : dbl (lit 1 : D) = 1 := is_dbl (Interval.is_one (T := D))
    show dbl (lit 1 : D) + (t - t) = _
    rw [h2]; ring
  show HasDerivWithinAt (fun t => t) ((exShort s).rhsR (fun _ => 0) (fun _ => t) t i) _ t
  rw [e]
  exact hasDerivWithinAt_id t _

/-- C82 does not hold if the value 1 is returned: for `x' = 1 + (x - t)`, `x(0) = 0` and the end 2, the call returns 1, the end 1 and the value `[2, 2]`, but
the solution is `x(t) = t`.  The value belongs to the end of the first step, the equation for the derivatives needed a shorter one. -/
theorem C82_violated : ∃ (r : Ode.ResultA 1) (st' : PSt (Interval D)), Ode.Call (exShort 2) exShortPar ∧
    (letI := scalI 100; odeAutodif 10 (exShort 2) exShortInit exShortPar) (st0 1) = (.ok r, st') ∧ r.ret = 1 ∧ (∀ i, Bd (r.init i).v) ∧ (0 : ℝ) ∈ (exShort 2).start ∧
    (∀ i, (0 : ℝ) ∈ (exShortInit i).v) ∧ ∃ t1 ∈ r.stop, (0 : ℝ) ≤ t1 ∧
      ∃ y, IsSol ((exShort 2).rhsR fun _ => 0) 0 t1 (fun _ => 0) y ∧ y t1 0 ∉ (r.init 0).v := by
  obtain ⟨o, st', h1, h2, h3, h4⟩ := autodifIs_iff exShort_run
  have i2 : Is (lit 2 : D) 2 := Interval.is_two (T := D)
  refine ⟨o, st', exShort_call _ ⟨⟨?_, ?_⟩, ?_, ?_, ?_⟩, h1, h2, fun i => ?_, Interval.point_mem (Interval.is_zero (T := D)), fun _ => Interval.point_mem (Interval.is_zero (T := D)), 1, ?_,
    by norm_num, _, exShort_sol 2, fun hm => ?_⟩
  iterate 5 · decide +kernel
  · rw [Subsingleton.elim i 0, h4]
    exact ⟨⟨_, i2⟩, ⟨_, i2⟩⟩
  · rw [h3]; exact Interval.point_mem (Interval.is_one (T := D))
  · rw [h4] at hm
    have := hm.1.2
    rw [i2.2] at this
    have h5 : (2 : ℝ) ≤ 1 := by exact_mod_cast this
    norm_num at h5

/-- `x' = y`, `y' = 0`; the solution is `(x + t y, y)` -/
def exLin : Ode.Problem 2 :=
  ⟨fun i => if i = 0 then .var 1 else .cst (lit 0), fun _ => pt 0, fun _ => pt 0, pt 0, pt (1 / 2), fun a _ => a⟩

/-- the initial values `(s, s + u)` at `s = u = 0`, with the derivatives by `s` and `u` -/
def exLinInit (i : Fin 2) : Autodif (Interval D) := if i = 0 then ⟨pt 0, [pt 1, pt 0]⟩ else ⟨pt 0, [pt 1, pt 1]⟩

/-- the call returned 2 with the derivatives `(a, b)`, `(c, d)` -/
def derivIs (a b c d : ℚ) (r : Res (Ode.ResultA 2) × PSt (Interval D)) : Bool := match r.1 with
  | .ok r => r.ret == 2 && decide (((r.init 0).d.map fun I => (I.inf, I.sup)) = [(lit a, lit a), (lit b, lit b)]) &&
      decide (((r.init 1).d.map fun I => (I.inf, I.sup)) = [(lit c, lit c), (lit d, lit d)])
  | _ => false

/-- C82, a case in which the derivatives are right: the solution at `1/2` is `(s + (s + u)/2, s + u)`, and its derivatives by `s` and `u` are returned -/
theorem C82_deriv_example : derivIs (3 / 2) (1 / 2) 1 1 ((letI := scalI 100; odeAutodif 10 exLin exLinInit exShortPar) (st0 1)) = true := by
  decide +kernel

end Kv
