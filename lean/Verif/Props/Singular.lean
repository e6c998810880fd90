import Verif.Ode.SingularPower
import Verif.Props.Defint

/-!
# C74: integrals of functions with a singularity at an end of the interval

`f` and `g` are template functions, `f.real ρ` their exact meaning for the choice `ρ` of the interval constants.
-/

namespace Kv
open PowerSeries Psa PM MeasureTheory Filter Topology Defint
open Rop (lit)
set_option linter.unusedVariables false

/-! ## specification -/

/-- the documented condition for `f` with the multiplicity `n` at the left end: `lim f(x)/(x-a)^i = 0` for `i < n`,
`lim f(x)/(x-a)^n ≠ 0` (defint-singular.hpp:134-136) -/
def ZeroOfOrder (f : ℝ → ℝ) (a : ℝ) (n : ℕ) : Prop :=
  (∀ i < n, Tendsto (fun x => f x / (x - a) ^ i) (𝓝[>] a) (𝓝 0)) ∧
    ∃ L, L ≠ 0 ∧ Tendsto (fun x => f x / (x - a) ^ n) (𝓝[>] a) (𝓝 L)

/-- the same at the right end -/
def ZeroOfOrderR (f : ℝ → ℝ) (b : ℝ) (n : ℕ) : Prop :=
  (∀ i < n, Tendsto (fun x => f x / (b - x) ^ i) (𝓝[<] b) (𝓝 0)) ∧
    ∃ L, L ≠ 0 ∧ Tendsto (fun x => f x / (b - x) ^ n) (𝓝[<] b) (𝓝 L)

/-- `I` is the integral of `F` from `a` to `b`, which exists -/
def IsIntegral (F : ℝ → ℝ) (a b I : ℝ) : Prop := IntervalIntegrable F volume a b ∧ ∫ x in a..b, F x = I

namespace Defint
variable {fuel : ℕ} {ρ : ℕ → ℝ} {p : ℕ → Interval D} {N n : ℕ} {a : ℝ}

theorem isIntegral_shift {F : ℝ → ℝ} {b I : ℝ} (h : IsIntegral (fun t => F (a + t)) 0 (b - a) I) : IsIntegral F a b I := by
  constructor
  · have := h.1.comp_add_right (-a)
    simp only [sub_neg_eq_add, zero_add, sub_add_cancel] at this
    refine this.congr fun x _ => ?_
    simp
  · rw [← h.2, intervalIntegral.integral_comp_add_left]
    simp

theorem isIntegral_neg {F : ℝ → ℝ} {b I : ℝ} (h : IsIntegral (fun t => F (-t)) (-b) (-a) I) : IsIntegral F a b I := by
  constructor
  · have := (IntervalIntegrable.iff_comp_neg (f := F) (a := a) (b := b)).2 (by simpa using h.1.symm)
    exact this
  · rw [← h.2, intervalIntegral.integral_comp_neg]
    simp

theorem isIntegral_congr {F G : ℝ → ℝ} {b I : ℝ} (hab : a < b) (h : IsIntegral F a b I) (e : ∀ x, a < x → x ≤ b → F x = G x) : IsIntegral G a b I := by
  have e' : ∀ x ∈ Set.uIoc a b, F x = G x := fun x hx => by
    rw [Set.uIoc_of_le hab.le] at hx
    exact e x hx.1 hx.2
  exact ⟨h.1.congr e', by rw [← h.2, intervalIntegral.integral_congr_ae (Eventually.of_forall e')]⟩

theorem tail_zero {f : Expr 1} (hN : n ≤ N) (hN1 : 1 ≤ N) (hS : Smooth f ρ a) (hz : ∀ i < n, Tendsto (fun x => fn f ρ x / (x - a) ^ i) (𝓝[>] a) (𝓝 0)) (t : ℝ) :
    tail f ρ a n t = fn f ρ (a + t) := by
  have h := taylor_zero (isTaylor_fn hS hN1) hN (fun i hi => by
    have := tendsto_shift (hz i hi)
    simpa using this)
  unfold tail
  rw [Finset.sum_eq_zero (fun k hk => by rw [h k (Finset.mem_range.1 hk), zero_mul]), sub_zero]

/-- a constant is not a zero of order `n` -/
theorem not_isC {f : Expr 1} (hn : 1 ≤ n) (h : ZeroOfOrder (fn f ρ) a n) : f.isC = false := by
  by_contra hc
  have hc : f.isC = true := by simpa using hc
  have hconst : ∀ x, fn f ρ x = fn f ρ a := fun x => Expr.real_isC hc
  obtain ⟨h1, L, hL, h2⟩ := h
  have e0 := h1 0 (by omega)
  simp only [pow_zero, div_one, hconst] at e0
  have ez : fn f ρ a = 0 := tendsto_nhds_unique tendsto_const_nhds e0
  simp only [hconst, ez, zero_div] at h2
  exact hL (tendsto_nhds_unique h2 tendsto_const_nhds)

theorem reverse_real (e : Expr 1) (x : Fin 1 → ℝ) : (reverse e).real ρ x = e.real ρ (fun i => - x i) := by
  induction e with
  | var i => rfl
  | par i => rfl
  | cst k => rfl
  | un f a ih => simp only [reverse, Expr.real, ih]
  | bin o a b iha ihb => simp only [reverse, Expr.real, iha, ihb]
  | binC o a k ih => simp only [reverse, Expr.real, ih]
  | cBin o k b ih => simp only [reverse, Expr.real, ih]
  | powI a y ih => simp only [reverse, Expr.real, ih]
  | pow a b iha ihb => simp only [reverse, Expr.real, iha, ihb]

theorem reverse_isC (e : Expr 1) : (reverse e).isC = e.isC := by
  induction e with
  | var i => rfl
  | par i => rfl
  | cst k => rfl
  | un f a ih => simpa only [reverse, Expr.isC] using ih
  | bin o a b iha ihb => simp only [reverse, Expr.isC, iha, ihb]
  | binC o a k ih => simp only [reverse, Expr.isC, ih]
  | cBin o k b ih => simp only [reverse, Expr.isC, ih]
  | powI a y ih => simp only [reverse, Expr.isC, ih]
  | pow a b iha ihb => simp only [reverse, Expr.isC, iha, ihb]

theorem reverse_fin {e : Expr 1} (h : e.FinCst) : (reverse e).FinCst := by
  induction e with
  | var i => exact h
  | par i => exact h
  | cst k => exact h
  | un f a ih => exact ih h
  | bin o a b iha ihb => exact ⟨iha h.1, ihb h.2⟩
  | binC o a k ih => exact ⟨ih h.1, h.2⟩
  | cBin o k b ih => exact ⟨ih h.1, h.2⟩
  | powI a y ih => exact ⟨ih h.1, h.2⟩
  | pow a b iha ihb => exact ⟨iha h.1, ihb h.2⟩

theorem reverse_noInv {e : Expr 1} (h : e.noInv) : (reverse e).noInv := by
  induction e with
  | var i => exact ⟨h, rfl⟩
  | par i => exact h
  | cst k => exact h
  | un f a ih => exact ⟨ih h.1, h.2⟩
  | bin o a b iha ihb => exact ⟨iha h.1, ihb h.2⟩
  | binC o a k ih => exact ih h
  | cBin o k b ih => exact ih h
  | powI a y ih => exact ih h
  | pow a b iha ihb => exact ⟨iha h.1, ihb h.2⟩

theorem reverse_ldom {e : Expr 1} {all : Prop} {x : Fin 1 → ℝ} (h : e.LDom all ρ fun i => - x i) : (reverse e).LDom all ρ x := by
  induction e with
  | var i => exact ⟨trivial, fun h => by cases h⟩
  | par i => exact h
  | cst k => exact h
  | un f a ih => exact ⟨ih h.1, fun e c => by rw [reverse_real]; exact h.2 e (by rwa [reverse_isC] at c)⟩
  | bin o a b iha ihb => exact ⟨iha h.1, ihb h.2⟩
  | binC o a k ih => exact ih h
  | cBin o k b ih => exact ih h
  | powI a y ih => exact ih h
  | pow a b iha ihb => exact ⟨iha h.1, ihb h.2.1, fun c => by rw [reverse_real]; exact h.2.2 (by rwa [reverse_isC] at c)⟩

theorem reverse_fun {e : Expr 1} {b : ℝ} (h : Fun e ρ b) : Fun (reverse e) ρ (-b) :=
  ⟨reverse_fin h.fin, reverse_noInv h.noInv, reverse_ldom (by simpa using h.ldom)⟩

theorem reverse_order {f : Expr 1} {b : ℝ} (h : ZeroOfOrderR (fn f ρ) b n) : ZeroOfOrder (fn (reverse f) ρ) (-b) n := by
  have hneg : Tendsto (fun x : ℝ => -x) (𝓝[>] (-b)) (𝓝[<] b) := by
    have := tendsto_neg_nhdsGT_neg (a := b)
    exact this
  have e : ∀ i, (fun x => fn (reverse f) ρ x / (x - -b) ^ i) = (fun x => fn f ρ x / (b - x) ^ i) ∘ fun x => -x := fun i => by
    funext x
    simp only [Function.comp, fn, reverse_real]
    rw [show x - -b = b - -x by ring]
  obtain ⟨h1, L, hL, h2⟩ := h
  exact ⟨fun i hi => by rw [e]; exact (h1 i hi).comp hneg, L, hL, by rw [e]; exact h2.comp hneg⟩

theorem fun_x : Fun fnX ρ a := ⟨trivial, trivial, trivial⟩
theorem fun_one : Fun fnOne ρ a := ⟨(by rw [is_dbl Interval.is_one]; exact Interval.is_one : Is (lit 1 : D) (dbl (lit 1))), trivial, trivial⟩

end Defint

/-! ## C74 -/

section
variable {fuel : ℕ} {ρ : ℕ → ℝ} {p : ℕ → Interval D} {N n : ℕ} {a b π : ℝ} {f g : Expr 1} {start stop power Z : Interval D}
  {st st' : PSt (Interval D)}

/-- C74: if `defint_power3` returns, then for all `a`, `b`, `π` in the given intervals and all values `ρ` of the interval
constants: `f` is positive on `(a, b]`, the integral of `f(x)^π g(x)` from `a` to `b` exists, and it is in the result.  Needed:
`a < b`, `f` has a zero of the given multiplicity at `a` as documented, `n π > -1`, the order is at least 1, no inverse
functions, constant arguments of logarithms are positive. -/
theorem C74 (hp : ∀ i, ρ i ∈ p i) (hf : f.FinCst ∧ f.noInv ∧ f.LDom False ρ fun _ => a) (hg : g.FinCst ∧ g.noInv ∧ g.LDom False ρ fun _ => a)
    (hN : 1 ≤ N) (hN' : N + 1 < 2 ^ 31) (hn : 1 ≤ n) (ha : a ∈ start) (hb : b ∈ stop) (hab : a < b) (hπ : π ∈ power) (hω : -1 < π * n)
    (hz : ZeroOfOrder (fun x => f.real ρ fun _ => x) a n)
    (h : (letI := scalI fuel; defintPower3 fuel f g p start stop (N : ℤ) power (n : ℤ)) st = (.ok Z, st')) :
    (∀ x, a < x → x ≤ b → 0 < f.real ρ fun _ => x) ∧
      ∃ I ∈ Z, IsIntegral (fun x => (f.real ρ fun _ => x) ^ π * (g.real ρ fun _ => x)) a b I := by
  obtain ⟨hnN, hS, hpos, key⟩ := power3_core ⟨hf.1, hf.2.1, hf.2.2⟩ ⟨hg.1, hg.2.1, hg.2.2⟩ (not_isC hn hz) hp hN hN' ha hb hab hπ hω h
  have ht : ∀ t, tail f ρ a n t = fn f ρ (a + t) := tail_zero hnN hN (by simpa using (hS 0 le_rfl (by linarith)).1) hz.1
  have hpos' : ∀ x, a < x → x ≤ b → 0 < fn f ρ x := fun x h1 h2 => by
    have := hpos (x - a) (by linarith) (by linarith)
    rw [ht] at this
    simpa using this
  obtain ⟨L, hL, hlim⟩ := hz.2
  have hlim' := tendsto_shift hlim
  simp only [add_sub_cancel_left] at hlim'
  have hL0 : 0 ≤ L := by
    refine ge_of_tendsto hlim' ?_
    filter_upwards [Ioc_mem_nhdsGT (show (0 : ℝ) < b - a by linarith)] with t ht
    have := hpos' (a + t) (by linarith [ht.1]) (by linarith [ht.2])
    exact div_nonneg this.le (pow_pos ht.1 n).le
  simp only [ht] at key
  obtain ⟨h1, h2⟩ := key L (lt_of_le_of_ne hL0 (Ne.symm hL)) hlim'
  exact ⟨hpos', _, h2, isIntegral_shift (F := fun x => fn f ρ x ^ π * fn g ρ x) ⟨h1, rfl⟩⟩

/-- C74 for `defint_power2` -/
theorem C74_power2 (hp : ∀ i, ρ i ∈ p i) (hf : f.FinCst ∧ f.noInv ∧ f.LDom False ρ fun _ => a)
    (hN : 1 ≤ N) (hN' : N + 1 < 2 ^ 31) (hn : 1 ≤ n) (ha : a ∈ start) (hb : b ∈ stop) (hab : a < b) (hπ : π ∈ power) (hω : -1 < π * n)
    (hz : ZeroOfOrder (fun x => f.real ρ fun _ => x) a n)
    (h : (letI := scalI fuel; defintPower2 fuel f p start stop (N : ℤ) power (n : ℤ)) st = (.ok Z, st')) :
    (∀ x, a < x → x ≤ b → 0 < f.real ρ fun _ => x) ∧ ∃ I ∈ Z, IsIntegral (fun x => (f.real ρ fun _ => x) ^ π) a b I := by
  have h1 := fun_one (ρ := ρ) (a := a)
  obtain ⟨h1, I, hI, h2⟩ := C74 (g := fnOne) hp hf ⟨h1.fin, h1.noInv, h1.ldom⟩ hN hN' hn ha hb hab hπ hω hz h
  refine ⟨h1, I, hI, isIntegral_congr hab h2 fun x _ _ => ?_⟩
  show (f.real ρ fun _ => x) ^ π * dbl (lit 1 : D) = _
  rw [is_dbl Interval.is_one, mul_one]

/-- C74 for `defint_power`: the integral of `(x-a)^π f(x)`, for every `a` -/
theorem C74_power (hp : ∀ i, ρ i ∈ p i) (hf : f.FinCst ∧ f.noInv ∧ f.LDom False ρ fun _ => a)
    (hN : 1 ≤ N) (hN' : N + 1 < 2 ^ 31) (ha : a ∈ start) (hb : b ∈ stop) (hab : a < b) (hπ : π ∈ power) (hω : -1 < π)
    (h : (letI := scalI fuel; defintPower fuel f p start stop (N : ℤ) power) st = (.ok Z, st')) :
    ∃ I ∈ Z, IsIntegral (fun x => (x - a) ^ π * (f.real ρ fun _ => x)) a b I := by
  obtain ⟨hnN, hS, -, key⟩ := power3_core (n := 1) (fun_x (a := a) (ρ := ρ)) ⟨hf.1, hf.2.1, hf.2.2⟩ rfl hp hN hN' ha hb hab hπ
    (by simpa using hω) h
  have ht : ∀ t, tail fnX ρ a 1 t = t := fun t => by
    show a + t - ∑ k ∈ Finset.range 1, coeff k (idPs a) * t ^ k = t
    rw [Finset.sum_range_one, coeff_idPs]; ring
  simp only [ht] at key
  obtain ⟨h1, h2⟩ := key 1 one_pos (by
    refine tendsto_const_nhds.congr' ?_
    filter_upwards [self_mem_nhdsWithin] with t ht
    have : (0 : ℝ) < t := ht
    rw [pow_one, div_self this.ne'])
  refine ⟨_, h2, isIntegral_shift (F := fun x => (x - a) ^ π * fn f ρ x) ?_⟩
  simp only [add_sub_cancel_left]
  exact ⟨h1, rfl⟩

/-- C74 for `defint_power3_r`: the singularity is at the right end -/
theorem C74_power3_r (hp : ∀ i, ρ i ∈ p i) (hf : f.FinCst ∧ f.noInv ∧ f.LDom False ρ fun _ => b) (hg : g.FinCst ∧ g.noInv ∧ g.LDom False ρ fun _ => b)
    (hN : 1 ≤ N) (hN' : N + 1 < 2 ^ 31) (hn : 1 ≤ n) (ha : a ∈ start) (hb : b ∈ stop) (hab : a < b) (hπ : π ∈ power) (hω : -1 < π * n)
    (hz : ZeroOfOrderR (fun x => f.real ρ fun _ => x) b n)
    (h : (letI := scalI fuel; defintPower3R fuel f g p start stop (N : ℤ) power (n : ℤ)) st = (.ok Z, st')) :
    (∀ x, a ≤ x → x < b → 0 < f.real ρ fun _ => x) ∧
      ∃ I ∈ Z, IsIntegral (fun x => (f.real ρ fun _ => x) ^ π * (g.real ρ fun _ => x)) a b I := by
  obtain ⟨f1, f2, f3⟩ := reverse_fun (ρ := ρ) (b := b) ⟨hf.1, hf.2.1, hf.2.2⟩
  obtain ⟨g1, g2, g3⟩ := reverse_fun (ρ := ρ) (b := b) ⟨hg.1, hg.2.1, hg.2.2⟩
  obtain ⟨h1, I, hI, h2⟩ := C74 hp ⟨f1, f2, f3⟩ ⟨g1, g2, g3⟩ hN hN' hn (Interval.neg_mem hb) (Interval.neg_mem ha) (neg_lt_neg hab) hπ hω
    (reverse_order hz) h
  simp only [reverse_real] at h1 h2
  refine ⟨fun x hx1 hx2 => by simpa using h1 (-x) (by linarith) (by linarith), I, hI, isIntegral_neg h2⟩

/-- C74 for `defint_power2_r` -/
theorem C74_power2_r (hp : ∀ i, ρ i ∈ p i) (hf : f.FinCst ∧ f.noInv ∧ f.LDom False ρ fun _ => b)
    (hN : 1 ≤ N) (hN' : N + 1 < 2 ^ 31) (hn : 1 ≤ n) (ha : a ∈ start) (hb : b ∈ stop) (hab : a < b) (hπ : π ∈ power) (hω : -1 < π * n)
    (hz : ZeroOfOrderR (fun x => f.real ρ fun _ => x) b n)
    (h : (letI := scalI fuel; defintPower2R fuel f p start stop (N : ℤ) power (n : ℤ)) st = (.ok Z, st')) :
    (∀ x, a ≤ x → x < b → 0 < f.real ρ fun _ => x) ∧ ∃ I ∈ Z, IsIntegral (fun x => (f.real ρ fun _ => x) ^ π) a b I := by
  obtain ⟨f1, f2, f3⟩ := reverse_fun (ρ := ρ) (b := b) ⟨hf.1, hf.2.1, hf.2.2⟩
  obtain ⟨h1, I, hI, h2⟩ := C74_power2 hp ⟨f1, f2, f3⟩ hN hN' hn (Interval.neg_mem hb) (Interval.neg_mem ha) (neg_lt_neg hab) hπ hω
    (reverse_order hz) h
  simp only [reverse_real] at h1 h2
  refine ⟨fun x hx1 hx2 => by simpa using h1 (-x) (by linarith) (by linarith), I, hI,
    isIntegral_neg (F := fun x => (f.real ρ fun _ => x) ^ π) h2⟩

/-- C74 for `defint_power_r`: the integral of `(b-x)^π f(x)` -/
theorem C74_power_r (hp : ∀ i, ρ i ∈ p i) (hf : f.FinCst ∧ f.noInv ∧ f.LDom False ρ fun _ => b)
    (hN : 1 ≤ N) (hN' : N + 1 < 2 ^ 31) (ha : a ∈ start) (hb : b ∈ stop) (hab : a < b) (hπ : π ∈ power) (hω : -1 < π)
    (h : (letI := scalI fuel; defintPowerR fuel f p start stop (N : ℤ) power) st = (.ok Z, st')) :
    ∃ I ∈ Z, IsIntegral (fun x => (b - x) ^ π * (f.real ρ fun _ => x)) a b I := by
  obtain ⟨f1, f2, f3⟩ := reverse_fun (ρ := ρ) (b := b) ⟨hf.1, hf.2.1, hf.2.2⟩
  obtain ⟨I, hI, h2⟩ := C74_power (f := reverse f) hp ⟨f1, f2, f3⟩ hN hN' (Interval.neg_mem hb) (Interval.neg_mem ha) (neg_lt_neg hab) hπ hω h
  refine ⟨I, hI, isIntegral_neg (F := fun x => (b - x) ^ π * (f.real ρ fun _ => x)) ?_⟩
  refine isIntegral_congr (neg_lt_neg hab) h2 fun x _ _ => ?_
  rw [reverse_real]
  rw [show x - -b = b - -x by ring]
end

/-! ## examples -/

/-- `x²` -/
def exSingSq : Expr 1 := .bin .mul (.var 0) (.var 0)

/-- `x + x³` -/
def exSingCub : Expr 1 := .bin .add (.var 0) (.bin .mul (.var 0) (.bin .mul (.var 0) (.var 0)))

theorem is_sing_1_2 : Is (lit (1 / 2 : ℚ) : D) (1 / 2 : ℝ) := by
  have := Interval.is_cst (q := 1 / 2) 1 (-1) (by norm_num) (by norm_num) (by norm_num) (by norm_num)
  convert this using 1; norm_num

/-- the integral of `x^(1/2) x²` from 0 to 1 is 2/7 -/
example : ∃ Z st', (letI := scalI 200; defintPower 200 exSingSq (fun _ => pt 0) (pt 0) (pt 1) (2 : ℕ) (pt (1 / 2))) (st0 1) = (.ok Z, st') ∧ (2 / 7 : ℝ) ∈ Z := by
  obtain ⟨Z, st', h⟩ := okRun_iff (show okRun ((letI := scalI 200; defintPower 200 exSingSq (fun _ => pt 0) (pt 0) (pt 1) (2 : ℕ) (pt (1 / 2))) (st0 1)) = true by
    decide +kernel)
  obtain ⟨I, hI, -, e⟩ := C74_power (ρ := fun _ => 0) (a := 0) (b := 1) (π := 1 / 2) (fun _ => exIntSq_mem Interval.is_zero)
    ⟨by simp [exSingSq, Expr.FinCst], by simp [exSingSq, Expr.noInv], by simp [exSingSq, Expr.LDom]⟩ (by norm_num) (by norm_num) (exIntSq_mem Interval.is_zero)
    (exIntSq_mem Interval.is_one) (by norm_num) (exIntSq_mem is_sing_1_2) (by norm_num) h
  refine ⟨Z, st', h, ?_⟩
  have e2 : ∫ x in (0 : ℝ)..1, (x - 0) ^ (1 / 2 : ℝ) * (exSingSq.real (fun _ => 0) fun _ => x) = ∫ x in (0 : ℝ)..1, x ^ (5 / 2 : ℝ) := by
    refine intervalIntegral.integral_congr_ae (Eventually.of_forall fun x hx => ?_)
    rw [Set.uIoc_of_le zero_le_one] at hx
    show (x - 0) ^ (1 / 2 : ℝ) * (x * x) = _
    rw [sub_zero, ← pow_two, ← Real.rpow_natCast, ← Real.rpow_add hx.1]
    norm_num
  rw [e2, integral_rpow (Or.inl (by norm_num))] at e
  norm_num at e
  rwa [e]

theorem exSingCub_order : ZeroOfOrder (fun x => exSingCub.real (fun _ => 0) fun _ => x) 0 1 := by
  show ZeroOfOrder (fun x => x + x * (x * x)) 0 1
  refine ⟨fun i hi => ?_, 1, one_ne_zero, ?_⟩
  · obtain rfl : i = 0 := by omega
    simp only [pow_zero, div_one]
    have : Tendsto (fun x : ℝ => x + x * (x * x)) (𝓝 0) (𝓝 (0 + 0 * (0 * 0))) := (by fun_prop : Continuous fun x : ℝ => x + x * (x * x)).tendsto 0
    norm_num at this
    exact this.mono_left nhdsWithin_le_nhds
  · have : Tendsto (fun x : ℝ => 1 + x * x) (𝓝 0) (𝓝 (1 + 0 * 0)) := (by fun_prop : Continuous fun x : ℝ => 1 + x * x).tendsto 0
    norm_num at this
    refine (this.mono_left nhdsWithin_le_nhds).congr' ?_
    filter_upwards [self_mem_nhdsWithin] with t ht
    have ht : (0 : ℝ) < t := ht
    rw [sub_zero, pow_one, eq_div_iff ht.ne']; ring

/-- the integral of `(x + x³)^(1/2)` from 0 to 1 -/
example : ∃ Z st', (letI := scalI 200; defintPower2 200 exSingCub (fun _ => pt 0) (pt 0) (pt 1) (2 : ℕ) (pt (1 / 2)) (1 : ℕ)) (st0 1) = (.ok Z, st') ∧
    ∃ I ∈ Z, IsIntegral (fun x => (x + x * (x * x)) ^ (1 / 2 : ℝ)) 0 1 I := by
  obtain ⟨Z, st', h⟩ := okRun_iff (show okRun ((letI := scalI 200; defintPower2 200 exSingCub (fun _ => pt 0) (pt 0) (pt 1) (2 : ℕ) (pt (1 / 2)) (1 : ℕ)) (st0 1)) = true by
    decide +kernel)
  exact ⟨Z, st', h, (C74_power2 (ρ := fun _ => 0) (a := 0) (b := 1) (π := 1 / 2) (fun _ => exIntSq_mem Interval.is_zero)
    ⟨by simp [exSingCub, Expr.FinCst], by simp [exSingCub, Expr.noInv], by simp [exSingCub, Expr.LDom]⟩ (by norm_num) (by norm_num) le_rfl (exIntSq_mem Interval.is_zero)
    (exIntSq_mem Interval.is_one) (by norm_num) (exIntSq_mem is_sing_1_2) (by norm_num) exSingCub_order h).2⟩

/-! ## disagreements -/

/-- If the integral diverges, `defint_power` returns a finite interval nevertheless: for `x^(-3/2)` from 0 to 1 the result is an
interval of negative numbers, although the function is positive and not integrable. -/
theorem C74_divergent_violated : ∃ Z st', (letI := scalI 200; defintPower 200 fnOne (fun _ => pt 0) (pt 0) (pt 1) 2 (pt (-3 / 2))) (st0 1) = (.ok Z, st') ∧
    (∀ y ∈ Z, y < 0) ∧ ¬ ∃ I, IsIntegral (fun x => (x - 0) ^ (-3 / 2 : ℝ) * (fnOne.real (fun _ => 0) fun _ => x)) 0 1 I := by
  obtain ⟨Z, st', h, h1⟩ := intSupBelow_iff Interval.is_zero
    (show intSupBelow ((letI := scalI 200; defintPower 200 fnOne (fun _ => pt 0) (pt 0) (pt 1) 2 (pt (-3 / 2))) (st0 1)) 0 = true by decide +kernel)
  refine ⟨Z, st', h, h1, ?_⟩
  · rintro ⟨I, hI, -⟩
    have e : ∀ x ∈ Set.uIoc (0 : ℝ) 1, (x - 0) ^ (-3 / 2 : ℝ) * (fnOne.real (fun _ => 0) fun _ => x) = x ^ (-3 / 2 : ℝ) := fun x hx => by
      show (x - 0) ^ (-3 / 2 : ℝ) * dbl (lit 1 : D) = _
      rw [is_dbl Interval.is_one, mul_one, sub_zero]
    have h2 := (hI.congr e)
    rw [intervalIntegrable_iff_integrableOn_Ioo_of_le zero_le_one, intervalIntegral.integrableOn_Ioo_rpow_iff one_pos] at h2
    norm_num at h2
end Kv
