import Verif.Ode.NewtonCotesLemmas
import Verif.Props.Psa
import Mathlib.MeasureTheory.Integral.IntervalIntegral.FundThmCalculus
import Mathlib.Analysis.SpecialFunctions.Integrals.Basic

/-!
# C70: integration with Newton–Cotes formulas

Main theorems: `C70_partial`, `C70_domain`, `C70_violated_3`, `C70_violated_5`, `C70_violated_7`, `C70_violated_negative`.
-/
namespace Kv
open Rop RopSem Kv.Interval NCotes MeasureTheory intervalIntegral

/-- C70 (partial): with the formulas of order 1, 2, 4 and 6, whenever `defint_newtoncotes(f, start, end, n, m)` returns, the function
is smooth between all `a ∈ start` and `b ∈ end` and the result encloses the integral from `a` to `b`; for every number `m` of
subintervals (0: an estimated number, whatever it is), every tolerance of the error term, and also for `b < a`.

Missing: the formulas of order 3, 5 and 7 (false, see below), a negative `m` (false, see below), functions with `log` or `pow`. -/
theorem C70_partial {fuel fuel' : ℕ} {s1 : PSt (Interval D)} {s2 : PSt (Autodif (Interval D))} {p : ℕ → Interval D} {e : Expr 1} {ρ : ℕ → ℝ}
    {lim : D → D} {est : Res ℤ} {start stop Z : Interval D} {n m : ℤ} {a b : ℝ}
    (hn : n = 1 ∨ n = 2 ∨ n = 4 ∨ n = 6) (hm : 0 ≤ m ∧ m ≤ 2147483647) (hest : ∀ k, est = .ok k → 0 ≤ k ∧ k ≤ 2147483647)
    (he : e.FinCst) (ht : e.TameE) (hp : ∀ i, ρ i ∈ p i) (hs : Proper start) (hs' : Proper stop)
    (h : defintNewtoncotes fuel fuel' s1 s2 lim est p e start stop n m = .ok Z) (ha : a ∈ start) (hb : b ∈ stop) :
    (∀ x ∈ Set.uIcc a b, ContDiffAt ℝ (⊤ : ℕ∞) (fun t => e.real ρ fun _ => t) x) ∧
      IntervalIntegrable (fun x => e.real ρ fun _ => x) volume a b ∧ ∫ x in a..b, e.real ρ (fun _ => x) ∈ Z := by
  have key : (∀ x ∈ Set.uIcc a b, e.SDom ρ fun _ => x) ∧ ∫ x in a..b, e.real ρ (fun _ => x) ∈ Z := by
    rcases hn with rfl | rfl | rfl | rfl
    · refine newtoncotes_mem (n := 1) one_pos table1 NC.panel1 (by norm_num) (fun j _ => rfl) (by decide) (by decide) (by decide) (fun c hc => ?_) he ht hp hs hs' hm hest h ha hb
      convert entry_mem (by norm_num [errterm]) (by norm_num [errterm]) hc using 1; norm_num [errterm]
    · refine newtoncotes_mem (n := 2) two_pos table2 NC.panel2 (by norm_num) (fun j hj => ?_) (by decide) (by decide) (by decide) (fun c hc => ?_) he ht hp hs hs' hm hest h ha hb
      · interval_cases j <;> rfl
      · convert entry_mem (by norm_num [errterm]) (by norm_num [errterm]) hc using 1; norm_num [errterm]
    · refine newtoncotes_mem (n := 4) (by norm_num) table4 NC.panel4 (by norm_num) (fun j hj => ?_) (by decide) (by decide) (by decide) (fun c hc => ?_) he ht hp hs hs' hm hest h ha hb
      · interval_cases j <;> norm_num [NC.q4]
      · convert entry_mem (by norm_num [errterm]) (by norm_num [errterm]) hc using 1; norm_num [errterm]
    · refine newtoncotes_mem (n := 6) (by norm_num) table6 NC.panel6 (by norm_num) (fun j hj => ?_) (by decide) (by decide) (by decide) (fun c hc => ?_) he ht hp hs hs' hm hest h ha hb
      · interval_cases j <;> norm_num [NC.q6]
      · convert entry_mem (by norm_num [errterm]) (by norm_num [errterm]) hc using 1; norm_num [errterm]
  have hc : ∀ x ∈ Set.uIcc a b, ContDiffAt ℝ (⊤ : ℕ∞) (fun t => e.real ρ fun _ => t) x := fun x hx => (real_smooth (key.1 x hx)).self_of_nhds
  exact ⟨hc, ContinuousOn.intervalIntegrable fun x hx => (hc x hx).continuousAt.continuousWithinAt, key.2⟩

/-- C70: an order outside of 1, …, 7 is reported by an exception -/
theorem C70_domain {fuel fuel' : ℕ} {s1 : PSt (Interval D)} {s2 : PSt (Autodif (Interval D))} {p : ℕ → Interval D} {e : Expr 1}
    {lim : D → D} {est : Res ℤ} {start stop : Interval D} {n m : ℤ} (hn : n < 1 ∨ 7 < n) :
    defintNewtoncotes fuel fuel' s1 s2 lim est p e start stop n m = .error .domainError := by
  unfold defintNewtoncotes
  rw [if_pos hn]

/-! ## The formulas of odd order, and negative numbers of points -/

namespace NCotes

/-- a state of the power series library -/
def psa0 : PSt (Interval D) := st0 1

/-- the same, over automatic differentiation -/
def psaA : PSt (Autodif (Interval D)) := ⟨1, ⟨pt 0, []⟩, [], false, false⟩

/-- `x²` -/
def x2 : Expr 1 := .bin .mul (.var 0) (.var 0)
/-- `x⁴` -/
def x4 : Expr 1 := .bin .mul x2 x2

/-- the call on `[0, 1]` -/
def run01 (e : Expr 1) (n m : ℤ) : Res (Interval D) :=
  defintNewtoncotes 5 5 psa0 psaA id (.ok 0) (fun _ => pt 0) e (pt 0) (pt 1) n m

/-- the result stays below a number -/
def below (r : Res (Interval D)) (c : ℚ) : Bool :=
  match r with
  | .ok Z => Rop.lt Z.sup (lit c)
  | .error _ => false

theorem below_spec {r : Res (Interval D)} {c : ℚ} {y : ℝ} (hk : Is (lit c : D) (c : ℝ)) (h : below r c = true) (hy : (c : ℝ) ≤ y) :
    ∃ Z, r = .ok Z ∧ y ∉ Z := by
  unfold below at h
  split at h
  · refine ⟨_, rfl, fun hc => ?_⟩
    have h1 := ((RopSem.lt_iff _ _).1 h).2.2
    rw [hk.2] at h1
    have h2 : (y : EReal) < (c : ℝ) := lt_of_le_of_lt (Interval.mem_iff.1 hc).2.2.2 h1
    exact absurd (EReal.coe_lt_coe_iff.1 h2) (not_lt.2 hy)
  · cases h

theorem int_pow (k : ℕ) : ∫ x in (0 : ℝ)..1, x ^ k = 1 / (k + 1) := by
  rw [integral_pow]; simp

end NCotes

/-- C70 fails for the formula of order 3: for `f(x) = x⁴` on `[0, 1]` with 3 subintervals the result (≈ 0.1926) does not contain 1/5.
The factor of the error term belongs to one panel and is not divided by the number of subintervals of a panel. -/
theorem C70_violated_3 : ∃ Z, run01 x4 3 3 = .ok Z ∧ ∫ x in (0 : ℝ)..1, x4.real (fun _ => 0) (fun _ => x) ∉ Z := by
  refine below_spec (c := 51 / 256) (is_cst 51 (-8) (by norm_num) (by norm_num) (by norm_num) (by norm_num)) (by decide +kernel) ?_
  rw [show (fun x : ℝ => x4.real (fun _ => 0) (fun _ => x)) = fun x => x ^ 4 by funext x; simp [x4, x2, Expr.real, Bin.real]; ring, int_pow]
  norm_num

/-- C70 fails for the formula of order 5: `f(x) = x⁶` -/
theorem C70_violated_5 : ∃ Z, run01 (.bin .mul x4 x2) 5 5 = .ok Z ∧ ∫ x in (0 : ℝ)..1, (Expr.bin .mul x4 x2).real (fun _ => 0) (fun _ => x) ∉ Z := by
  refine below_spec (c := 9362 / 65536) (is_cst 9362 (-16) (by norm_num) (by norm_num) (by norm_num) (by norm_num)) (by decide +kernel) ?_
  rw [show (fun x : ℝ => (Expr.bin .mul x4 x2).real (fun _ => 0) (fun _ => x)) = fun x => x ^ 6 by funext x; simp [x4, x2, Expr.real, Bin.real]; ring, int_pow]
  norm_num

/-- C70 fails for the formula of order 7: `f(x) = x⁸` -/
theorem C70_violated_7 : ∃ Z, run01 (.bin .mul x4 x4) 7 7 = .ok Z ∧ ∫ x in (0 : ℝ)..1, (Expr.bin .mul x4 x4).real (fun _ => 0) (fun _ => x) ∉ Z := by
  refine below_spec (c := 7281 / 65536) (is_cst 7281 (-16) (by norm_num) (by norm_num) (by norm_num) (by norm_num)) (by decide +kernel) ?_
  rw [show (fun x : ℝ => (Expr.bin .mul x4 x4).real (fun _ => 0) (fun _ => x)) = fun x => x ^ 8 by funext x; simp [x4, x2, Expr.real, Bin.real]; ring, int_pow]
  norm_num

/-- C70 fails for negative `m`: the sum has no terms and no exception is thrown; for `f = 1` the result is 0 instead of 1. -/
theorem C70_violated_negative : ∃ Z, run01 (.cst (lit 1)) 1 (-1) = .ok Z ∧ ∫ x in (0 : ℝ)..1, (Expr.cst (lit 1) : Expr 1).real (fun _ => 0) (fun _ => x) ∉ Z := by
  refine below_spec (c := 1 / 2) (is_cst 1 (-1) (by norm_num) (by norm_num) (by norm_num) (by norm_num)) (by decide +kernel) ?_
  have h1 : (fun x : ℝ => (Expr.cst (lit 1) : Expr 1).real (fun _ => 0) fun _ => x) = fun _ => (1 : ℝ) := by
    funext x
    exact is_dbl is_one
  rw [h1]
  norm_num

/-- The hypotheses of `C70_partial` are met: Simpson's rule for `x⁴` on `[0, 1]` -/
example : (run01 x4 2 2).isOk = true ∧ x4.FinCst ∧ x4.TameE ∧ Proper (pt 0) ∧ Proper (pt 1) := by
  refine ⟨by decide +kernel, ?_, ?_, ?_, ?_⟩
  · exact ⟨⟨trivial, trivial⟩, trivial, trivial⟩
  · exact ⟨⟨trivial, trivial⟩, trivial, trivial⟩
  · exact ⟨⟨_, is_zero⟩, ⟨_, is_zero⟩, 0, (mem_pt is_zero).2 rfl⟩
  · exact ⟨⟨_, is_one⟩, ⟨_, is_one⟩, 1, (mem_pt is_one).2 rfl⟩

/-- Boole's rule for `exp` from 0 to every number of `[1, 2]`, 8 subintervals -/
example : (defintNewtoncotes 100 30 psa0 psaA id (.ok 0) (fun _ => pt 0) (.un .exp (.var 0)) (pt 0) ⟨lit 1, lit 2⟩ 4 8).isOk = true := by
  decide +kernel

/-- integration to the left with the trapezoidal rule and an estimated number of points, which is not a multiple of the order -/
example : (defintNewtoncotes 100 30 psa0 psaA id (.ok 3) (fun _ => pt 0) (.bin .mul (.un .sqrt (.binC .add (.var 0) (lit 1))) (.var 0)) (pt 1) (pt 0) 2 0).isOk = true := by
  decide +kernel

end Kv
