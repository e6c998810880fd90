import Verif.Props.SingularAuto
import Verif.Ode.SingularAutoLemmas

/-!
# C77, positive part: `defint_power_autostep` and `defint_power_autostep_r`
-/

namespace Kv
open PowerSeries Psa PM MeasureTheory Filter Topology Defint
open Rop (lit)
set_option linter.unusedVariables false

theorem neg_neg_D (x : D) : Rop.neg (Rop.neg x) = x := by
  cases x <;> simp [Rop.neg, Fl.neg] <;> rfl

theorem neg_neg_int (X : Interval D) : Interval.neg (Interval.neg X) = X := by
  unfold Interval.neg; simp only [neg_neg_D]

section
variable {fuel : ℕ} {ρ ρ' : ℕ → ℝ} {p : ℕ → Interval D} {N : ℕ} {a b π : ℝ} {f : Expr 1} {rest : Integrand} {start stop power Z : Interval D}
  {epsilon : D} {st st' : PSt (Interval D)}

/-- C77 for `defint_power_autostep(rest, f, start, stop, order, power, epsilon)`: if it returns, then for all `a`, `b`, `π` in the given
intervals the integral of `(x-a)^π f(x)` from `a` to `b` exists and is in the result.  `rest` is the function which the caller
supplies for the integrand away from the singularity; it has to be `(x-a)^π f(x)` for `x > a`.

The name says partial because the full claim C77 covers the other functions with automatic step size too; for these see the
counterexamples in `Props/SingularAuto.lean`. -/
theorem C77_power_partial (hp : ∀ i, ρ i ∈ p i) (hf : f.FinCst ∧ f.noInv ∧ f.LDom False ρ fun _ => a)
    (hp' : ∀ i, ρ' i ∈ rest.p i) (hr : rest.f.FinCst ∧ rest.f.noInv ∧ rest.f.LDom False ρ' fun _ => a)
    (heq : ∀ x, a < x → (rest.f.real ρ' fun _ => x) = (x - a) ^ π * f.real ρ fun _ => x)
    (hN : 1 ≤ N) (hN' : N + 1 < 2 ^ 31) (ha : a ∈ start) (hb : b ∈ stop) (hab : a < b)
    (has : ∀ x ∈ start, |x| ≤ 2 ^ 1000) (hbs : ∀ x ∈ stop, |x| ≤ 2 ^ 1000) (hπ : π ∈ power) (hω : -1 < π)
    (hpw : Ode.PwOk rest.pw) (heps : NN epsilon)
    (h : (letI := scalI fuel; defintPowerAuto fuel rest f p start stop N power epsilon) st = (.ok Z, st')) :
    ∃ I ∈ Z, IsIntegral (fun x => (x - a) ^ π * f.real ρ fun _ => x) a b I := by
  obtain ⟨τ, hτ, -, hi, hc⟩ := powerAuto_core (ρ' := ρ') ⟨hf.1, hf.2.1, hf.2.2⟩ hp ⟨hp', hr.1, hr.2.1⟩ hr.2.2 hN hN' scale ha hb
    (in_of_bounded ha has) (in_of_bounded hb hbs) hπ hω hpw heps h
  have h1 : IsIntegral (fun x => (x - a) ^ π * fn f ρ x) a τ (∫ t in (0 : ℝ)..τ - a, t ^ π * fn f ρ (a + t)) := by
    refine isIntegral_shift ?_
    simp only [add_sub_cancel_left]
    exact ⟨hi, rfl⟩
  rcases hc with ⟨rfl, hz⟩ | ⟨hs, hz⟩
  · exact ⟨_, hz, h1⟩
  · have e : ∀ x ∈ Set.uIoc τ b, fn rest.f ρ' x = (x - a) ^ π * fn f ρ x := fun x hx => heq x (lt_of_le_of_lt (le_min hτ hab.le) hx.1)
    refine ⟨_, hz, h1.1.trans ((integrable hs).congr e), ?_⟩
    have := intervalIntegral.integral_add_adjacent_intervals h1.1 ((integrable hs).congr e)
    show ∫ x in a..b, (x - a) ^ π * fn f ρ x = _
    rw [← this, h1.2, intervalIntegral.integral_congr_ae (Eventually.of_forall e)]

/-- C77 for `defint_power_autostep_r`: the integral of `(b-x)^π f(x)` -/
theorem C77_power_r_partial (hp : ∀ i, ρ i ∈ p i) (hf : f.FinCst ∧ f.noInv ∧ f.LDom False ρ fun _ => b)
    (hp' : ∀ i, ρ' i ∈ rest.p i) (hr : rest.f.FinCst ∧ rest.f.noInv ∧ rest.f.LDom False ρ' fun _ => b)
    (heq : ∀ x, x < b → (rest.f.real ρ' fun _ => x) = (b - x) ^ π * f.real ρ fun _ => x)
    (hN : 1 ≤ N) (hN' : N + 1 < 2 ^ 31) (ha : a ∈ start) (hb : b ∈ stop) (hab : a < b)
    (has : ∀ x ∈ start, |x| ≤ 2 ^ 1000) (hbs : ∀ x ∈ stop, |x| ≤ 2 ^ 1000) (hπ : π ∈ power) (hω : -1 < π)
    (hpw : Ode.PwOk rest.pw) (heps : NN epsilon)
    (h : (letI := scalI fuel; defintPowerAutoR fuel rest f p start stop N power epsilon) st = (.ok Z, st')) :
    ∃ I ∈ Z, IsIntegral (fun x => (b - x) ^ π * f.real ρ fun _ => x) a b I := by
  obtain ⟨f1, f2, f3⟩ := reverse_fun (ρ := ρ) (b := b) ⟨hf.1, hf.2.1, hf.2.2⟩
  obtain ⟨r1, r2, r3⟩ := reverse_fun (ρ := ρ') (b := b) ⟨hr.1, hr.2.1, hr.2.2⟩
  have hneg : ∀ {X : Interval D}, (∀ x ∈ X, |x| ≤ 2 ^ 1000) → ∀ x ∈ Interval.neg X, |x| ≤ (2 : ℝ) ^ 1000 := fun {X} hX x hx => by
    have := hX (-x) (by have := Interval.neg_mem hx; rwa [neg_neg_int] at this)
    rwa [abs_neg] at this
  obtain ⟨I, hI, h2⟩ := C77_power_partial (f := reverse f) (rest := rest.reverse) (a := -b) (b := -a) hp ⟨f1, f2, f3⟩ hp' ⟨r1, r2, r3⟩
    (fun x hx => by
      show (reverse rest.f).real ρ' _ = _
      rw [reverse_real, reverse_real, show x - -b = b - -x by ring]
      exact heq (-x) (by linarith)) hN hN' (Interval.neg_mem hb) (Interval.neg_mem ha) (neg_lt_neg hab) (hneg hbs) (hneg has) hπ hω hpw heps h
  refine ⟨I, hI, isIntegral_neg (F := fun x => (b - x) ^ π * (f.real ρ fun _ => x)) ?_⟩
  refine isIntegral_congr (neg_lt_neg hab) h2 fun x _ _ => ?_
  rw [reverse_real]
  rw [show x - -b = b - -x by ring]
end

/-! ## example -/

/-- `x^(1/2) x²`, with the exponent as an interval constant -/
def exPowRest : Integrand := ⟨.bin .mul (.pow (.var 0) (.par 0)) exSingSq, fun _ => pt (1 / 2), exPow⟩

theorem exPow_ok : Ode.PwOk exPow := fun a b _ => by
  unfold exPow
  split_ifs
  · exact NN.lit (by norm_num)
  · exact NN.lit (by norm_num)

/-- the integral of `x^(1/2) x²` from 0 to 2, one step with the weight and further ones without -/
example : ∃ Z st', (letI := scalI 200; defintPowerAuto 200 exPowRest exSingSq (fun _ => pt 0) (pt 0) (pt 2) 2 (pt (1 / 2)) (lit (1 / 2 ^ 52))) (st0 1) = (.ok Z, st') ∧
    ∃ I ∈ Z, IsIntegral (fun x => (x - 0) ^ (1 / 2 : ℝ) * (x * x)) 0 2 I := by
  obtain ⟨Z, st', h⟩ := okRun_iff (show okRun ((letI := scalI 200; defintPowerAuto 200 exPowRest exSingSq (fun _ => pt 0) (pt 0) (pt 2) 2 (pt (1 / 2))
    (lit (1 / 2 ^ 52))) (st0 1)) = true by decide +kernel)
  refine ⟨Z, st', h, C77_power_partial (ρ := fun _ => 0) (ρ' := fun _ => 1 / 2) (f := exSingSq) (rest := exPowRest) (fun _ => exIntSq_mem Interval.is_zero)
    ⟨by simp [exSingSq, Expr.FinCst], by simp [exSingSq, Expr.noInv], by simp [exSingSq, Expr.LDom]⟩ (fun _ => exIntSq_mem is_sing_1_2)
    ⟨by simp [exPowRest, exSingSq, Expr.FinCst], by simp [exPowRest, exSingSq, Expr.noInv], by simp [exPowRest, exSingSq, Expr.LDom, Expr.isC]⟩
    (fun x _ => ?_) (by norm_num) (by norm_num) (exIntSq_mem Interval.is_zero) (exIntSq_mem Interval.is_two) (by norm_num) (fun x hx => ?_) (fun x hx => ?_)
    (exIntSq_mem is_sing_1_2) (by norm_num) exPow_ok (NN.lit (by norm_num)) h⟩
  · show x ^ (1 / 2 : ℝ) * (x * x) = (x - 0) ^ (1 / 2 : ℝ) * (x * x)
    rw [sub_zero]
  · rw [(mem_pt Interval.is_zero).1 hx, abs_zero]; positivity
  · rw [(mem_pt Interval.is_two).1 hx, abs_of_pos two_pos]
    exact le_self_pow₀ (by norm_num) (by norm_num)

end Kv
