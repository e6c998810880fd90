import Verif.Ode.SingularRem
import Verif.Props.Singular

/-!
# C76: integrals of functions with a removable singularity at an end of the interval
-/

namespace Kv
open PowerSeries Psa PM MeasureTheory Filter Topology Defint
open Rop (lit)
set_option linter.unusedVariables false

/-! ## specification -/

/-- the point at which the body is evaluated: `x`, and the quotients `e(x)/w^n` -/
noncomputable def Removable.point {k : ℕ} (R : Removable k) (ρ : ℕ → ℝ) (x w : ℝ) : Fin (k + 1) → ℝ :=
  Fin.cons x fun i => ((R.cuts i).1.real ρ fun _ => x) / w ^ (R.cuts i).2

/-- the condition for `div_tn(e(x), n)` at the left end: `e` has a zero of order at least `n` -/
def VanishesTo (f : ℝ → ℝ) (a : ℝ) (n : ℕ) : Prop := ∀ i < n, Tendsto (fun x => f x / (x - a) ^ i) (𝓝[>] a) (𝓝 0)

/-- the same at the right end -/
def VanishesToR (f : ℝ → ℝ) (b : ℝ) (n : ℕ) : Prop := ∀ i < n, Tendsto (fun x => f x / (b - x) ^ i) (𝓝[<] b) (𝓝 0)

namespace Defint
variable {fuel : ℕ} {ρ : ℕ → ℝ} {p : ℕ → Interval D} {N n : ℕ} {a : ℝ}

theorem vanishes_co {f : Expr 1} (h : VanishesTo (fn f ρ) a n) (hS : Smooth f ρ a) : ∀ i < n, co f ρ a i = 0 := by
  refine taylor_zero (isTaylor_fn hS (m := n + 1) (by omega)) (by omega) fun i hi => ?_
  have := tendsto_shift (h i hi)
  simpa using this

theorem vanishes_reverse {f : Expr 1} {b : ℝ} (h : VanishesToR (fn f ρ) b n) : VanishesTo (fn (reverse f) ρ) (-b) n := by
  intro i hi
  have hneg : Tendsto (fun x : ℝ => -x) (𝓝[>] (-b)) (𝓝[<] b) := tendsto_neg_nhdsGT_neg (a := b)
  have e : (fun x => fn (reverse f) ρ x / (x - -b) ^ i) = (fun x => fn f ρ x / (b - x) ^ i) ∘ fun x => -x := by
    funext x
    simp only [Function.comp, fn, reverse_real]
    rw [show x - -b = b - -x by ring]
  rw [e]
  exact (h i hi).comp hneg

end Defint

/-! ## C76 -/

section
variable {fuel k : ℕ} {ρ : ℕ → ℝ} {p : ℕ → Interval D} {N : ℕ} {a b : ℝ} {R : Removable k} {start stop Z : Interval D} {st st' : PSt (Interval D)}

/-- C76: if `defint_singular` returns, then for all `a`, `b` in the given intervals and all values `ρ` of the interval constants: every
operation of the function is defined on `(a, b]`, the integral from `a` to `b` of the function with the quotients
`e(x)/(x-a)^n` in place of `div_tn(e(x), n)` exists, and it is in the result.  Needed: `a < b`, every `e` under `div_tn` depends on `x`
and vanishes to the order `n` at `a`, `n` is at most the order of the integrator, the order is at least 1, no inverse functions,
constant arguments of logarithms are positive. -/
theorem C76 (hp : ∀ i, ρ i ∈ p i) (hb : R.body.FinCst ∧ R.body.noInv ∧ ∀ x, R.body.LDom False ρ x)
    (hc : ∀ i, ((R.cuts i).1.FinCst ∧ (R.cuts i).1.noInv ∧ (R.cuts i).1.LDom False ρ fun _ => a) ∧ (R.cuts i).1.isC = false ∧ (R.cuts i).2 ≤ N ∧
      VanishesTo (fun x => (R.cuts i).1.real ρ fun _ => x) a (R.cuts i).2)
    (hN : 1 ≤ N) (hN' : N + 1 < 2 ^ 31) (ha : a ∈ start) (hb' : b ∈ stop) (hab : a < b)
    (h : (letI := scalI fuel; defintSingular (R.run p) start stop (N : ℤ)) st = (.ok Z, st')) :
    (∀ x, a < x → x ≤ b → R.body.SDom ρ (R.point ρ x (x - a))) ∧ ∃ I ∈ Z, IsIntegral (fun x => R.body.real ρ (R.point ρ x (x - a))) a b I := by
  let _ := semI fuel
  have hT : 0 < b - a := by linarith
  change defintSingular (R.run p) start stop (N : ℤ) st = (.ok Z, st') at h
  unfold defintSingular at h
  obtain ⟨s1, h⟩ := inMode2_run h
  have hs : b - a ∈ Interval.sub stop start := Interval.sub_mem hb' ha
  obtain ⟨hd0, hdT⟩ := sHull_mem hs
  obtain ⟨x, sx, e1, h1⟩ := bind_run h
  obtain ⟨rfl, hxl, hx⟩ := startAt_spec (fuel := fuel) hN ha e1
  obtain ⟨y, sy, e2, h2⟩ := bind_run h1
  obtain ⟨ys, s3, e3, h3⟩ := bind_run e2
  obtain ⟨h4, -⟩ := lift_run h2
  obtain ⟨z, h5, h6⟩ := bind_ok.1 h4
  have hd : ∀ t, 0 ≤ t → t ≤ b - a → t ∈ (st2 st (Interval.sub stop start)).domain := fun t h0 h1 =>
    convI fuel _ 0 (b - a) t hd0 hdT (by rw [Set.mem_uIcc]; exact Or.inl ⟨h0, h1⟩)
  have hc' : ∀ i, Fun (R.cuts i).1 ρ a ∧ (R.cuts i).1.isC = false ∧ (R.cuts i).2 ≤ N ∧
      (Smooth (R.cuts i).1 ρ a → ∀ j < (R.cuts i).2, co (R.cuts i).1 ρ a j = 0) := fun i => by
    obtain ⟨⟨q1, q2, q3⟩, q4, q5, q6⟩ := hc i
    exact ⟨⟨q1, q2, q3⟩, q4, q5, vanishes_co q6⟩
  obtain ⟨rfl, -⟩ := cuts_at (fuel := fuel) hp hN hN' hT (st := st2 st (Interval.sub stop start)) rfl rfl rfl hd hxl hx k hc' e3
  obtain ⟨r1, r2, r3⟩ := singular_core (fuel := fuel) hb hp hN hN' hT (st := st2 st (Interval.sub stop start)) rfl rfl rfl hd hxl hx hc' e3
    (u := fun t => a + t) (by fun_prop) (fun t _ _ => start_sem (fuel := fuel) hN hxl hx) h3 h5 hs h6
  have hpt : ∀ x, a < x → bodyAt R.cuts ρ a (fun t => a + t) (x - a) = R.point ρ x (x - a) := fun x hx => by
    funext i
    refine Fin.cases ?_ (fun i => ?_) i
    · show a + (x - a) = x; ring
    · show Defint.cv _ _ _ _ _ = _
      have : x - a ≠ 0 := by linarith
      rw [Defint.cv, if_neg this, add_sub_cancel]
      rfl
  refine ⟨fun x h1 h2 => by rw [← hpt x h1]; exact r1 _ (by linarith) (by linarith), _, r3,
    isIntegral_congr (F := fun x => R.body.real ρ (bodyAt R.cuts ρ a (fun t => a + t) (x - a))) hab (isIntegral_shift ?_)
      fun x h1 _ => by rw [hpt x h1]⟩
  simp only [add_sub_cancel_left]
  exact ⟨r2, rfl⟩

/-- C76 for `defint_singular_r`: the singularity is at the right end; the quotients are `e(x)/(b-x)^n` -/
theorem C76_r (hp : ∀ i, ρ i ∈ p i) (hb : R.body.FinCst ∧ R.body.noInv ∧ ∀ x, R.body.LDom False ρ x)
    (hc : ∀ i, ((R.cuts i).1.FinCst ∧ (R.cuts i).1.noInv ∧ (R.cuts i).1.LDom False ρ fun _ => b) ∧ (R.cuts i).1.isC = false ∧ (R.cuts i).2 ≤ N ∧
      VanishesToR (fun x => (R.cuts i).1.real ρ fun _ => x) b (R.cuts i).2)
    (hN : 1 ≤ N) (hN' : N + 1 < 2 ^ 31) (ha : a ∈ start) (hb' : b ∈ stop) (hab : a < b)
    (h : (letI := scalI fuel; defintSingularR R p start stop (N : ℤ)) st = (.ok Z, st')) :
    (∀ x, a ≤ x → x < b → R.body.SDom ρ (R.point ρ x (b - x))) ∧ ∃ I ∈ Z, IsIntegral (fun x => R.body.real ρ (R.point ρ x (b - x))) a b I := by
  let _ := semI fuel
  have hT : 0 < -a - -b := by linarith
  change defintSingular (R.runReverse p) (Interval.neg stop) (Interval.neg start) (N : ℤ) st = (.ok Z, st') at h
  unfold defintSingular at h
  obtain ⟨s1, h⟩ := inMode2_run h
  set step := Interval.sub (Interval.neg start) (Interval.neg stop) with hstep
  have hs : -a - -b ∈ step := Interval.sub_mem (Interval.neg_mem ha) (Interval.neg_mem hb')
  obtain ⟨hd0, hdT⟩ := sHull_mem hs
  obtain ⟨x, sx, e1, h1⟩ := bind_run h
  obtain ⟨rfl, hxl, hx⟩ := startAt_spec (fuel := fuel) hN (Interval.neg_mem hb') e1
  obtain ⟨y, sy, e2, h2⟩ := bind_run h1
  obtain ⟨ys, s3, e3, h3⟩ := bind_run e2
  obtain ⟨X, s4, e4, h3'⟩ := bind_run h3
  obtain ⟨h4, -⟩ := lift_run h2
  obtain ⟨z, h5, h6⟩ := bind_ok.1 h4
  have hd : ∀ t, 0 ≤ t → t ≤ -a - -b → t ∈ (st2 st step).domain := fun t h0 h1 =>
    convI fuel _ 0 (-a - -b) t hd0 hdT (by rw [Set.mem_uIcc]; exact Or.inl ⟨h0, h1⟩)
  set cuts' : Fin k → Expr 1 × ℕ := fun i => (reverse (R.cuts i).1, (R.cuts i).2) with hcuts
  have hc' : ∀ i, Fun (cuts' i).1 ρ (-b) ∧ (cuts' i).1.isC = false ∧ (cuts' i).2 ≤ N ∧
      (Smooth (cuts' i).1 ρ (-b) → ∀ j < (cuts' i).2, co (cuts' i).1 ρ (-b) j = 0) := fun i => by
    obtain ⟨⟨q1, q2, q3⟩, q4, q5, q6⟩ := hc i
    exact ⟨reverse_fun ⟨q1, q2, q3⟩, by rw [reverse_isC]; exact q4, q5, vanishes_co (vanishes_reverse q6)⟩
  obtain ⟨rfl, -⟩ := cuts_at (fuel := fuel) hp hN hN' hT (st := st2 st step) rfl rfl rfl hd hxl hx k hc' e3
  obtain ⟨e5, rfl⟩ := lift_run e4
  obtain ⟨r1, r2, r3⟩ := singular_core (fuel := fuel) hb hp hN hN' hT (st := st2 st step) rfl rfl rfl hd hxl hx hc' e3
    (u := fun t => -(-b + t)) (by fun_prop) (fun t _ _ => neg_sem (start_sem (fuel := fuel) hN hxl hx) e5) h3' h5 hs h6
  have hpt : ∀ x, -b < x → bodyAt cuts' ρ (-b) (fun t => -(-b + t)) (x - -b) = R.point ρ (-x) (b - -x) := fun x hx => by
    funext i
    refine Fin.cases ?_ (fun i => ?_) i
    · show -(-b + (x - -b)) = -x; ring
    · show Defint.cv _ _ _ _ _ = ((R.cuts i).1.real ρ fun _ => -x) / (b - -x) ^ (R.cuts i).2
      have : x - -b ≠ 0 := by linarith
      rw [Defint.cv, if_neg this, add_sub_cancel]
      show (reverse (R.cuts i).1).real ρ (fun _ => x) / _ = _
      rw [reverse_real, show x - -b = b - -x by ring]
  refine ⟨fun x h1 h2 => ?_, _, r3, isIntegral_neg (F := fun x => R.body.real ρ (R.point ρ x (b - x)))
    (isIntegral_congr (F := fun x => R.body.real ρ (bodyAt cuts' ρ (-b) (fun t => -(-b + t)) (x - -b))) (neg_lt_neg hab) (isIntegral_shift ?_)
      fun x h1 _ => by rw [hpt x h1])⟩
  · have := hpt (-x) (by linarith)
    rw [neg_neg] at this
    rw [← this]
    exact r1 _ (by linarith) (by linarith)
  · simp only [add_sub_cancel_left]
    exact ⟨r2, rfl⟩
end

/-! ## examples -/

/-- `div_reduce(x + x³, x, 1)` -/
def exRem : Removable 2 := ⟨![(exSingCub, 1), (.var 0, 1)], .bin .div (.var 1) (.var 2)⟩

theorem vanishes_one {f : ℝ → ℝ} {a : ℝ} (h : Tendsto f (𝓝[>] a) (𝓝 0)) : VanishesTo f a 1 := fun i hi => by
  obtain rfl : i = 0 := by omega
  simpa using h

/-- the integral of `(x + x³)/x` from 0 to 1 is 4/3 -/
example : ∃ Z st', (letI := scalI 200; defintSingular (exRem.run fun _ => pt 0) (pt 0) (pt 1) (2 : ℕ)) (st0 1) = (.ok Z, st') ∧ (4 / 3 : ℝ) ∈ Z := by
  obtain ⟨Z, st', h⟩ := okRun_iff (show okRun ((letI := scalI 200; defintSingular (exRem.run fun _ => pt 0) (pt 0) (pt 1) (2 : ℕ)) (st0 1)) = true by
    decide +kernel)
  obtain ⟨-, I, hI, -, e⟩ := C76 (ρ := fun _ => 0) (a := 0) (b := 1) (R := exRem) (fun _ => exIntSq_mem Interval.is_zero)
    ⟨by simp [exRem, Expr.FinCst], by simp [exRem, Expr.noInv], fun x => by simp [exRem, Expr.LDom]⟩ (fun i => by
      fin_cases i
      · exact ⟨⟨by simp [exRem, exSingCub, Expr.FinCst], by simp [exRem, exSingCub, Expr.noInv], by simp [exRem, exSingCub, Expr.LDom]⟩, rfl,
          by simp [exRem], exSingCub_order.1⟩
      · exact ⟨⟨trivial, trivial, trivial⟩, rfl, by simp [exRem], vanishes_one (continuous_id.tendsto 0 |>.mono_left nhdsWithin_le_nhds)⟩)
    (by norm_num) (by norm_num) (exIntSq_mem Interval.is_zero) (exIntSq_mem Interval.is_one) (by norm_num) h
  refine ⟨Z, st', h, ?_⟩
  have e2 : ∫ x in (0 : ℝ)..1, exRem.body.real (fun _ => 0) (exRem.point (fun _ => 0) x (x - 0)) = ∫ x in (0 : ℝ)..1, (x ^ 0 + x ^ 2) := by
    refine intervalIntegral.integral_congr_ae (Eventually.of_forall fun x hx => ?_)
    rw [Set.uIoc_of_le zero_le_one] at hx
    show ((x + x * (x * x)) / (x - 0) ^ 1) / (x / (x - 0) ^ 1) = _
    have := hx.1.ne'
    rw [sub_zero, pow_one, div_self this, div_one, div_eq_iff this]; ring
  rw [e2, intervalIntegral.integral_add (continuous_pow 0 |>.intervalIntegrable _ _) (continuous_pow 2 |>.intervalIntegrable _ _), integral_pow,
    integral_pow] at e
  norm_num at e
  rwa [e]

/-! ## disagreements -/

/-- `div_tn(x² , 2)` -/
def exRemAll : Removable 1 := ⟨![(exSingSq, 2)], .var 1⟩

/-- If the number of removed terms is the order plus 1, nothing remains, and `defint_singular` returns 0: for `x²/x²` with the
order 1 the integral from 0 to 1 is 1. -/
theorem C76_order_violated : ∃ Z st', (letI := scalI 200; defintSingular (exRemAll.run fun _ => pt 0) (pt 0) (pt 1) (1 : ℕ)) (st0 1) = (.ok Z, st') ∧
    (∀ y ∈ Z, y < 1 / 2) ∧ IsIntegral (fun x => exRemAll.body.real (fun _ => 0) (exRemAll.point (fun _ => 0) x (x - 0))) 0 1 1 := by
  obtain ⟨Z, st', h, h1⟩ := intSupBelow_iff is_sing_1_2
    (show intSupBelow ((letI := scalI 200; defintSingular (exRemAll.run fun _ => pt 0) (pt 0) (pt 1) (1 : ℕ)) (st0 1)) (1 / 2) = true by decide +kernel)
  refine ⟨Z, st', h, h1, isIntegral_congr (F := fun _ => 1) one_pos ⟨by simp, by simp⟩ fun x h0 _ => ?_⟩
  show 1 = (x * x) / (x - 0) ^ 2
  rw [sub_zero, ← pow_two, div_self (pow_pos h0 2).ne']

end Kv
