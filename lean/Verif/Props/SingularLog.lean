import Verif.Ode.SingularLog
import Verif.Props.Singular

/-!
# C75: integrals of `log(f(x)) * g(x)` where `f` vanishes at an end of the interval
-/

namespace Kv
open PowerSeries Psa PM MeasureTheory Filter Topology Defint
open Rop (lit)
set_option linter.unusedVariables false

section
variable {fuel : ℕ} {ρ : ℕ → ℝ} {p : ℕ → Interval D} {N n : ℕ} {a b : ℝ} {f g : Expr 1} {start stop Z : Interval D}
  {st st' : PSt (Interval D)}

/-- C75 for `defint_log3`, for intervals of length at most 1 or constant `g`.  Missing: longer intervals, where it is false, see
`C75_long_interval_violated`. -/
theorem C75_partial (hp : ∀ i, ρ i ∈ p i) (hf : f.FinCst ∧ f.noInv ∧ f.LDom False ρ fun _ => a) (hg : g.FinCst ∧ g.noInv ∧ g.LDom False ρ fun _ => a)
    (hN : 1 ≤ N) (hN' : N + n + 1 < 2 ^ 31) (hn : 1 ≤ n) (ha : a ∈ start) (hb : b ∈ stop) (hab : a < b) (hab1 : b - a ≤ 1 ∨ g.isC = true)
    (hz : ZeroOfOrder (fun x => f.real ρ fun _ => x) a n)
    (h : (letI := scalI fuel; defintLog3 fuel f g p start stop (N : ℤ) (n : ℤ)) st = (.ok Z, st')) :
    (∀ x, a < x → x ≤ b → 0 < f.real ρ fun _ => x) ∧
      ∃ I ∈ Z, IsIntegral (fun x => Real.log (f.real ρ fun _ => x) * (g.real ρ fun _ => x)) a b I := by
  obtain ⟨hS, hpos, key⟩ := log3_core ⟨hf.1, hf.2.1, hf.2.2⟩ ⟨hg.1, hg.2.1, hg.2.2⟩ (not_isC hn hz) hp hN hN' ha hb hab hab1 h
  have ht : ∀ t, tail f ρ a n t = fn f ρ (a + t) := tail_zero (N := N + n) (by omega) (by omega) (by simpa using (hS 0 le_rfl (by linarith)).1) hz.1
  have hpos' : ∀ x, a < x → x ≤ b → 0 < fn f ρ x := fun x h1 h2 => by
    have := hpos (x - a) (by linarith) (by linarith)
    rw [ht] at this
    simpa using this
  obtain ⟨L, hL, hlim⟩ := hz.2
  have hlim' := tendsto_shift hlim
  simp only [add_sub_cancel_left] at hlim'
  have hL0 : 0 ≤ L := by
    refine ge_of_tendsto hlim' ?_
    filter_upwards [Ioc_mem_nhdsGT (show (0 : ℝ) < b - a by linarith)] with t ht
    have := hpos' (a + t) (by linarith [ht.1]) (by linarith [ht.2])
    exact div_nonneg this.le (pow_pos ht.1 n).le
  simp only [ht] at key
  obtain ⟨h1, h2⟩ := key L (lt_of_le_of_ne hL0 (Ne.symm hL)) hlim'
  exact ⟨hpos', _, h2, isIntegral_shift (F := fun x => Real.log (fn f ρ x) * fn g ρ x) ⟨h1, rfl⟩⟩

/-- C75 for `defint_log2`: the integral of `log(f(x))`, for every length of the interval -/
theorem C75_log2 (hp : ∀ i, ρ i ∈ p i) (hf : f.FinCst ∧ f.noInv ∧ f.LDom False ρ fun _ => a)
    (hN : 1 ≤ N) (hN' : N + n + 1 < 2 ^ 31) (hn : 1 ≤ n) (ha : a ∈ start) (hb : b ∈ stop) (hab : a < b)
    (hz : ZeroOfOrder (fun x => f.real ρ fun _ => x) a n)
    (h : (letI := scalI fuel; defintLog2 fuel f p start stop (N : ℤ) (n : ℤ)) st = (.ok Z, st')) :
    (∀ x, a < x → x ≤ b → 0 < f.real ρ fun _ => x) ∧ ∃ I ∈ Z, IsIntegral (fun x => Real.log (f.real ρ fun _ => x)) a b I := by
  have h1 := fun_one (ρ := ρ) (a := a)
  obtain ⟨h1, I, hI, h2⟩ := C75_partial (g := fnOne) hp hf ⟨h1.fin, h1.noInv, h1.ldom⟩ hN hN' hn ha hb hab (Or.inr rfl) hz h
  refine ⟨h1, I, hI, isIntegral_congr hab h2 fun x _ _ => ?_⟩
  show Real.log (f.real ρ fun _ => x) * dbl (lit 1 : D) = _
  rw [is_dbl Interval.is_one, mul_one]

/-- C75 for `defint_log`: the integral of `log(x-a) f(x)`, for every `a`, for intervals of length at most 1 or constant `f` -/
theorem C75_log_partial (hp : ∀ i, ρ i ∈ p i) (hf : f.FinCst ∧ f.noInv ∧ f.LDom False ρ fun _ => a)
    (hN : 1 ≤ N) (hN' : N + 2 < 2 ^ 31) (ha : a ∈ start) (hb : b ∈ stop) (hab : a < b) (hab1 : b - a ≤ 1 ∨ f.isC = true)
    (h : (letI := scalI fuel; defintLog fuel f p start stop (N : ℤ)) st = (.ok Z, st')) :
    ∃ I ∈ Z, IsIntegral (fun x => Real.log (x - a) * (f.real ρ fun _ => x)) a b I := by
  obtain ⟨hS, -, key⟩ := log3_core (n := 1) (fun_x (a := a) (ρ := ρ)) ⟨hf.1, hf.2.1, hf.2.2⟩ rfl hp hN (by omega) ha hb hab hab1 h
  have ht : ∀ t, tail fnX ρ a 1 t = t := fun t => by
    show a + t - ∑ k ∈ Finset.range 1, coeff k (idPs a) * t ^ k = t
    rw [Finset.sum_range_one, coeff_idPs]; ring
  simp only [ht] at key
  obtain ⟨h1, h2⟩ := key 1 one_pos (by
    refine tendsto_const_nhds.congr' ?_
    filter_upwards [self_mem_nhdsWithin] with t ht
    have : (0 : ℝ) < t := ht
    rw [pow_one, div_self this.ne'])
  refine ⟨_, h2, isIntegral_shift (F := fun x => Real.log (x - a) * fn f ρ x) ?_⟩
  simp only [add_sub_cancel_left]
  exact ⟨h1, rfl⟩

/-- C75 for `defint_log3_r`: the singularity is at the right end -/
theorem C75_log3_r_partial (hp : ∀ i, ρ i ∈ p i) (hf : f.FinCst ∧ f.noInv ∧ f.LDom False ρ fun _ => b) (hg : g.FinCst ∧ g.noInv ∧ g.LDom False ρ fun _ => b)
    (hN : 1 ≤ N) (hN' : N + n + 1 < 2 ^ 31) (hn : 1 ≤ n) (ha : a ∈ start) (hb : b ∈ stop) (hab : a < b) (hab1 : b - a ≤ 1 ∨ g.isC = true)
    (hz : ZeroOfOrderR (fun x => f.real ρ fun _ => x) b n)
    (h : (letI := scalI fuel; defintLog3R fuel f g p start stop (N : ℤ) (n : ℤ)) st = (.ok Z, st')) :
    (∀ x, a ≤ x → x < b → 0 < f.real ρ fun _ => x) ∧
      ∃ I ∈ Z, IsIntegral (fun x => Real.log (f.real ρ fun _ => x) * (g.real ρ fun _ => x)) a b I := by
  obtain ⟨f1, f2, f3⟩ := reverse_fun (ρ := ρ) (b := b) ⟨hf.1, hf.2.1, hf.2.2⟩
  obtain ⟨g1, g2, g3⟩ := reverse_fun (ρ := ρ) (b := b) ⟨hg.1, hg.2.1, hg.2.2⟩
  obtain ⟨h1, I, hI, h2⟩ := C75_partial hp ⟨f1, f2, f3⟩ ⟨g1, g2, g3⟩ hN hN' hn (Interval.neg_mem hb) (Interval.neg_mem ha) (neg_lt_neg hab)
    (hab1.imp (fun h => by linarith) fun h => by rw [reverse_isC]; exact h) (reverse_order hz) h
  simp only [reverse_real] at h1 h2
  refine ⟨fun x hx1 hx2 => by simpa using h1 (-x) (by linarith) (by linarith), I, hI,
    isIntegral_neg (F := fun x => Real.log (f.real ρ fun _ => x) * (g.real ρ fun _ => x)) h2⟩

/-- C75 for `defint_log2_r` -/
theorem C75_log2_r (hp : ∀ i, ρ i ∈ p i) (hf : f.FinCst ∧ f.noInv ∧ f.LDom False ρ fun _ => b)
    (hN : 1 ≤ N) (hN' : N + n + 1 < 2 ^ 31) (hn : 1 ≤ n) (ha : a ∈ start) (hb : b ∈ stop) (hab : a < b)
    (hz : ZeroOfOrderR (fun x => f.real ρ fun _ => x) b n)
    (h : (letI := scalI fuel; defintLog2R fuel f p start stop (N : ℤ) (n : ℤ)) st = (.ok Z, st')) :
    (∀ x, a ≤ x → x < b → 0 < f.real ρ fun _ => x) ∧ ∃ I ∈ Z, IsIntegral (fun x => Real.log (f.real ρ fun _ => x)) a b I := by
  obtain ⟨f1, f2, f3⟩ := reverse_fun (ρ := ρ) (b := b) ⟨hf.1, hf.2.1, hf.2.2⟩
  obtain ⟨h1, I, hI, h2⟩ := C75_log2 hp ⟨f1, f2, f3⟩ hN hN' hn (Interval.neg_mem hb) (Interval.neg_mem ha) (neg_lt_neg hab) (reverse_order hz) h
  simp only [reverse_real] at h1 h2
  refine ⟨fun x hx1 hx2 => by simpa using h1 (-x) (by linarith) (by linarith), I, hI,
    isIntegral_neg (F := fun x => Real.log (f.real ρ fun _ => x)) h2⟩

/-- C75 for `defint_log_r`: the integral of `log(b-x) f(x)` -/
theorem C75_log_r_partial (hp : ∀ i, ρ i ∈ p i) (hf : f.FinCst ∧ f.noInv ∧ f.LDom False ρ fun _ => b)
    (hN : 1 ≤ N) (hN' : N + 2 < 2 ^ 31) (ha : a ∈ start) (hb : b ∈ stop) (hab : a < b) (hab1 : b - a ≤ 1 ∨ f.isC = true)
    (h : (letI := scalI fuel; defintLogR fuel f p start stop (N : ℤ)) st = (.ok Z, st')) :
    ∃ I ∈ Z, IsIntegral (fun x => Real.log (b - x) * (f.real ρ fun _ => x)) a b I := by
  obtain ⟨f1, f2, f3⟩ := reverse_fun (ρ := ρ) (b := b) ⟨hf.1, hf.2.1, hf.2.2⟩
  obtain ⟨I, hI, h2⟩ := C75_log_partial (f := reverse f) hp ⟨f1, f2, f3⟩ hN hN' (Interval.neg_mem hb) (Interval.neg_mem ha) (neg_lt_neg hab)
    (hab1.imp (fun h => by linarith) fun h => by rw [reverse_isC]; exact h) h
  refine ⟨I, hI, isIntegral_neg (F := fun x => Real.log (b - x) * (f.real ρ fun _ => x)) ?_⟩
  refine isIntegral_congr (neg_lt_neg hab) h2 fun x _ _ => ?_
  rw [reverse_real]
  rw [show x - -b = b - -x by ring]
end

/-! ## examples -/

/-- the integral of `x² log x` from 0 to 1 is -1/9 -/
example : ∃ Z st', (letI := scalI 200; defintLog 200 exSingSq (fun _ => pt 0) (pt 0) (pt 1) (1 : ℕ)) (st0 1) = (.ok Z, st') ∧ (-1 / 9 : ℝ) ∈ Z := by
  obtain ⟨Z, st', h⟩ := okRun_iff (show okRun ((letI := scalI 200; defintLog 200 exSingSq (fun _ => pt 0) (pt 0) (pt 1) (1 : ℕ)) (st0 1)) = true by decide +kernel)
  obtain ⟨I, hI, -, e⟩ := C75_log_partial (ρ := fun _ => 0) (a := 0) (b := 1) (fun _ => exIntSq_mem Interval.is_zero)
    ⟨by simp [exSingSq, Expr.FinCst], by simp [exSingSq, Expr.noInv], by simp [exSingSq, Expr.LDom]⟩ le_rfl (by norm_num) (exIntSq_mem Interval.is_zero)
    (exIntSq_mem Interval.is_one) (by norm_num) (Or.inl (by norm_num)) h
  refine ⟨Z, st', h, ?_⟩
  have := Weighted.log_integral (T := 1) one_pos 2
  have e2 : (fun x => Real.log (x - 0) * (exSingSq.real (fun _ => 0) fun _ => x)) = fun x => Real.log x * x ^ 2 := by
    funext x
    show Real.log (x - 0) * (x * x) = _
    rw [sub_zero, pow_two]
  rw [e2, this] at e
  rw [← e] at hI
  have e3 : ((1 : ℝ) ^ (2 + 1) * ((((2 : ℕ) : ℝ) + 1) * Real.log 1 - 1) / ((((2 : ℕ) : ℝ) + 1) * (((2 : ℕ) : ℝ) + 1))) = -1 / 9 := by
    rw [Real.log_one]; norm_num
  rwa [e3] at hI

/-- the integral of `log (x²)` from 0 to 2, a zero of order 2 -/
example : ∃ Z st', (letI := scalI 200; defintLog2 200 exSingSq (fun _ => pt 0) (pt 0) (pt 2) (1 : ℕ) (2 : ℕ)) (st0 1) = (.ok Z, st') ∧
    ∃ I ∈ Z, IsIntegral (fun x => Real.log (x * x)) 0 2 I := by
  obtain ⟨Z, st', h⟩ := okRun_iff (show okRun ((letI := scalI 200; defintLog2 200 exSingSq (fun _ => pt 0) (pt 0) (pt 2) (1 : ℕ) (2 : ℕ)) (st0 1)) = true by decide +kernel)
  refine ⟨Z, st', h, (C75_log2 (ρ := fun _ => 0) (a := 0) (b := 2) (fun _ => exIntSq_mem Interval.is_zero)
    ⟨by simp [exSingSq, Expr.FinCst], by simp [exSingSq, Expr.noInv], by simp [exSingSq, Expr.LDom]⟩ le_rfl (by norm_num) (by norm_num) (exIntSq_mem Interval.is_zero)
    (exIntSq_mem (Interval.is_two (T := D))) (by norm_num) ?_ h).2⟩
  show ZeroOfOrder (fun x => x * x) 0 2
  have h2 : ∀ i < 2, Tendsto (fun x : ℝ => x * x / (x - 0) ^ i) (𝓝[>] 0) (𝓝 0) := fun i hi => by
    have : Tendsto (fun x : ℝ => x ^ (2 - i)) (𝓝[>] 0) (𝓝 0) := by
      have := (continuous_pow (M := ℝ) (2 - i)).tendsto 0
      rw [zero_pow (by omega)] at this
      exact this.mono_left nhdsWithin_le_nhds
    refine this.congr' ?_
    filter_upwards [self_mem_nhdsWithin] with t ht
    have ht : (0 : ℝ) < t := ht
    rw [sub_zero, ← pow_two, eq_div_iff (pow_pos ht i).ne', ← pow_add, Nat.sub_add_cancel hi.le]
  refine ⟨h2, 1, one_ne_zero, tendsto_const_nhds.congr' ?_⟩
  filter_upwards [self_mem_nhdsWithin] with t ht
  have ht : (0 : ℝ) < t := ht
  rw [sub_zero, ← pow_two, div_self (pow_pos ht 2).ne']

/-! ## disagreements -/

theorem is_sing_1_8 : Is (lit (1 / 8 : ℚ) : D) (1 / 8 : ℝ) := by
  have := Interval.is_cst (q := 1 / 8) 1 (-3) (by norm_num) (by norm_num) (by norm_num) (by norm_num)
  convert this using 1; norm_num

/-- C75 does not hold for longer intervals: the logarithm changes its sign, and the terms with interval coefficients are then not
monotone in the weight.  The integral of `x² log x` from 0 to `105/64` is larger than 1/5, the upper end of the result is below 1/8. -/
theorem C75_long_interval_violated : ∃ Z st', (letI := scalI 200; defintLog 200 exSingSq (fun _ => pt 0) (pt 0) (pt (105 / 64)) 1) (st0 1) = (.ok Z, st') ∧
    ∀ I, IsIntegral (fun x => Real.log (x - 0) * (exSingSq.real (fun _ => 0) fun _ => x)) 0 (105 / 64) I → I ∉ Z := by
  obtain ⟨Z, st', h, h1⟩ := intSupBelow_iff (c := 1 / 8) is_sing_1_8
    (show intSupBelow ((letI := scalI 200; defintLog 200 exSingSq (fun _ => pt 0) (pt 0) (pt (105 / 64)) 1) (st0 1)) (1 / 8) = true by decide +kernel)
  refine ⟨Z, st', h, fun I hI hm => ?_⟩
  have e := hI.2
  have := Weighted.log_integral (T := 105 / 64) (by norm_num) 2
  have e2 : (fun x => Real.log (x - 0) * (exSingSq.real (fun _ => 0) fun _ => x)) = fun x => Real.log x * x ^ 2 := by
    funext x
    show Real.log (x - 0) * (x * x) = _
    rw [sub_zero, pow_two]
  rw [e2, this] at e
  have h2 := h1 _ hm
  have h3 : (12 / 25 : ℝ) ≤ Real.log (105 / 64) := by
    have := Real.one_sub_inv_le_log_of_pos (x := Real.sqrt (105 / 64)) (by positivity)
    rw [Real.log_sqrt (by norm_num)] at this
    have h4 : (21 / 25 : ℝ) ≤ 1 := by norm_num
    have h5 : (32 / 25 : ℝ) ≤ Real.sqrt (105 / 64) := Real.le_sqrt_of_sq_le (by norm_num)
    have h6 : (Real.sqrt (105 / 64))⁻¹ ≤ 25 / 32 := by
      rw [inv_le_comm₀ (by positivity) (by norm_num)]; linarith
    linarith
  rw [← e] at h2
  norm_num at h2
  linarith
end Kv
