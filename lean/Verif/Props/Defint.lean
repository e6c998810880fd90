import Verif.Ode.DefintAuto
import Verif.Props.Psa

/-! # Property theorems C63, C64: enclosure of definite integrals -/

namespace Kv
open PowerSeries Psa PM MeasureTheory Defint
open Rop (lit)
set_option linter.unusedVariables false

namespace Defint
variable {P : Integrand} {ρ : ℕ → ℝ} {N fuel : ℕ} {a h : ℝ} {x : Ode.Ser} {start step r : Interval D}

theorem is_int {n : ℤ} (hn : |n| < 2 ^ 31) : Is (lit (n : ℚ) : D) n := by
  have := Interval.is_cst n 0 (by omega) (by decide) (by decide) (q := (n : ℚ)) (by push_cast; ring)
  simpa using this

theorem piece_spec (hd : Data P ρ) (hN : 1 ≤ N) (hN' : N + 1 < 2 ^ 31) (hxl : x.length = N + 1)
    (hx : ∀ (t : Interval D) (t0 : ℝ), t0 ∈ t → Contains (x.set 0 t) (idCo t0)) {c r : Interval D} {c0 δ : ℝ} (hc : c0 ∈ c) (hr : δ ∈ r)
    (hl : P.f.LDom False ρ fun _ => c0) {st st' : PSt (Interval D)} (hmode : st.mode = 2) (hu : st.use = false)
    (hdom : st.domain = Interval.hull (Interval.neg r) r) {Z : Interval D} (hrun : (letI := scalI fuel; piece P x c r) st = (.ok Z, st')) :
    (st'.mode = 2 ∧ st'.use = false ∧ st'.domain = st.domain) ∧ (∀ y ∈ Set.uIcc (c0 - δ) (c0 + δ), Smooth P.f ρ y) ∧
      (∫ y in c0 - δ..c0 + δ, fn P.f ρ y) ∈ Z := by
  let _ := semI fuel
  change piece P x c r st = (.ok Z, st') at hrun
  unfold piece at hrun
  obtain ⟨z, s1, h1, h2⟩ := bind_run hrun
  obtain ⟨T, hT⟩ := exists_trace (fuel := fuel) hd c0
  have hp : δ ∈ st.domain := by rw [hdom]; exact Interval.hull_mem_right (Interval.neg_mem hr) hr
  have hm : -δ ∈ st.domain := by rw [hdom]; exact Interval.hull_mem_left (Interval.neg_mem hr) hr
  have h0 : (0 : ℝ) ∈ st.domain := convI fuel st.domain δ (-δ) 0 hp hm (by
    rw [Set.mem_uIcc]; rcases le_total 0 δ with h | h
    · exact Or.inr ⟨by linarith, h⟩
    · exact Or.inl ⟨h, by linarith⟩)
  obtain ⟨⟨m1, m2, mu, m3⟩, l1, l2, hz, hS⟩ := eval2 hd hT hN hN' (le_refl 1) (by omega) hmode h0 (Or.inl hu) (by simpa using hxl) (hx c c0 hc) hl h1
  obtain ⟨h3, rfl⟩ := lift_run h2
  obtain ⟨y, hy, h3⟩ := bind_ok.1 h3
  obtain ⟨A, hA, h3⟩ := bind_ok.1 h3
  obtain ⟨B, hB, h3⟩ := bind_ok.1 h3
  cases h3
  have i1 := integral_mem (fuel := fuel) h0 l1 (by omega) hz hS hy hp hr hA
  have i2 := integral_mem (fuel := fuel) h0 l1 (by omega) hz hS hy hm (Interval.neg_mem hr) hB
  have s1 := smooth_seg h0 hS hp
  have s2 := smooth_seg h0 hS hm
  rw [← sub_eq_add_neg] at i2 s2
  refine ⟨⟨m1, mu.trans hu, m2⟩, fun y hy => ?_, ?_⟩
  · rcases Set.uIcc_subset_uIcc_union_uIcc (b := c0) hy with h | h
    · exact s2 y (by rwa [Set.uIcc_comm] at h)
    · exact s1 y h
  · have := Interval.sub_mem i1 i2
    have e := intervalIntegral.integral_interval_sub_left (integrable s1) (integrable s2)
    rw [← e]; exact this

theorem sumLoop_spec (hd : Data P ρ) (hN : 1 ≤ N) (hN' : N + 1 < 2 ^ 31) (hxl : x.length = N + 1)
    (hx : ∀ (t : Interval D) (t0 : ℝ), t0 ∈ t → Contains (x.set 0 t) (idCo t0)) (ha : a ∈ start) (hs : h ∈ step) (hr : h / 2 ∈ r)
    (hl : P.f.LDom False ρ fun _ => a) {st : PSt (Interval D)} (hmode : st.mode = 2) (hu : st.use = false)
    (hdom : st.domain = Interval.hull (Interval.neg r) r) : ∀ (i : ℕ), i < 2 ^ 31 → ∀ {st' : PSt (Interval D)} {Z : Interval D},
    (letI := scalI fuel; sumLoop P x start step r i) st = (.ok Z, st') →
    (st'.mode = 2 ∧ st'.use = false ∧ st'.domain = st.domain) ∧ (0 < i → ∀ y ∈ Set.uIcc a (a + i * h), Smooth P.f ρ y) ∧
      (∫ y in a..a + i * h, fn P.f ρ y) ∈ Z
  | 0, _, st', Z, hrun => by
    obtain ⟨rfl, rfl⟩ := pure_run hrun
    exact ⟨⟨hmode, hu, rfl⟩, fun h => absurd h (lt_irrefl 0), by
      simpa using Interval.mem_zero (T := D) rfl⟩
  | i + 1, hi, st', Z, hrun => by
    let _ := semI fuel
    change sumLoop P x start step r (i + 1) st = (.ok Z, st') at hrun
    unfold sumLoop at hrun
    obtain ⟨R, s1, h1, h2⟩ := bind_run hrun
    obtain ⟨⟨m1, m2, m3⟩, hS, hR⟩ := sumLoop_spec hd hN hN' hxl hx ha hs hr hl hmode hu hdom i (by omega) h1
    obtain ⟨z, s2, h3, h4⟩ := bind_run h2
    obtain ⟨rfl, rfl⟩ := pure_run h4
    have hc : a + i * h + h / 2 ∈ Interval.add (Interval.add start (Interval.sMul (lit (i : ℚ)) step)) r := by
      have hi' : Is (lit (i : ℚ) : D) (i : ℝ) := by
        have := is_int (n := (i : ℤ)) (by rw [abs_of_nonneg (by positivity)]; omega)
        simpa using this
      exact Interval.add_mem (Interval.add_mem ha (Interval.sMul_mem hs hi')) hr
    obtain ⟨⟨n1, n2, n3⟩, hS2, hz⟩ := piece_spec hd hN hN' hxl hx hc hr hl.move m1 m2 (by rw [m3]; exact hdom) h3
    have e1 : a + i * h + h / 2 - h / 2 = a + i * h := by ring
    have e2 : a + i * h + h / 2 + h / 2 = a + (i + 1 : ℕ) * h := by push_cast; ring
    rw [e1, e2] at hS2 hz
    have hS1 : ∀ y ∈ Set.uIcc a (a + i * h), Smooth P.f ρ y := by
      rcases Nat.eq_zero_or_pos i with rfl | h0
      · intro y hy
        have : y = a := by simpa using hy
        rw [this]
        exact hS2 a (by simp)
      · exact hS h0
    refine ⟨⟨n1, n2, by rw [n3, m3]⟩, fun _ y hy => ?_, ?_⟩
    · rcases Set.uIcc_subset_uIcc_union_uIcc (b := a + i * h) hy with h | h
      · exact hS1 y h
      · exact hS2 y h
    · rw [← intervalIntegral.integral_add_adjacent_intervals (integrable hS1) (integrable hS2)]
      exact Interval.add_mem hR hz

end Defint

variable {P : Integrand} {ρ : ℕ → ℝ} {start stop Z : Interval D} {order : ℕ} {n : ℤ} {st st' : PSt (Interval D)} {a b : ℝ} {fuel : ℕ}

/-- C63: `defint` returns an enclosure of the integral between any points of `start` and `end`, for all values of the
interval constants in the integrand; in particular the integrand is defined and smooth in between.  The order is at least 1;
inverse functions do not occur in the integrand; constant arguments of its logarithms are positive. -/
theorem C63 (hp : ∀ i, ρ i ∈ P.p i) (he : P.f.FinCst) (hi : P.f.noInv) (hl : P.f.LDom False ρ fun _ => a) (ha : a ∈ start) (hb : b ∈ stop)
    (ho : 1 ≤ order) (ho' : order + 1 < 2 ^ 31) (hn : 1 ≤ n) (hn' : n < 2 ^ 31)
    (h : (letI := scalI fuel; defint P start stop order n) st = (.ok Z, st')) :
    (∀ x ∈ Set.uIcc a b, P.f.SDom ρ fun _ => x) ∧ IntervalIntegrable (fun x => P.f.real ρ fun _ => x) volume a b ∧
      (∫ x in a..b, P.f.real ρ fun _ => x) ∈ Z := by
  let _ := semI fuel
  change defint P start stop order n st = (.ok Z, st') at h
  have hd : Data P ρ := ⟨hp, he, hi⟩
  unfold defint at h
  obtain ⟨step, s1, h1, g⟩ := bind_run h
  obtain ⟨hstep, rfl⟩ := lift_run h1
  dsimp only at g
  obtain ⟨x, s2, h2, g2⟩ := bind_run g
  obtain ⟨rfl, hxl, hx⟩ := startSeries_spec (fuel := fuel) ho h2
  rw [get_bind] at g2
  obtain ⟨R, s3, h3, g3⟩ := bind_run (m := sumLoop P x start step _ n.toNat) (show _ = _ from g2)
  obtain ⟨_, s4, h4, g4⟩ := bind_run g3
  obtain ⟨_, s5, h5, g5⟩ := bind_run g4
  obtain ⟨_, s6, h6, g6⟩ := bind_run g5
  obtain ⟨rfl, -⟩ := pure_run g6
  have hin : Is (lit (n : ℚ) : D) n := is_int (by rw [abs_of_nonneg (by omega)]; exact hn')
  have hs : (b - a) / n ∈ step := Interval.divS_mem hstep (Interval.sub_mem hb ha) hin
  have hr := Interval.mulS_mem hs (Interval.is_half (T := D))
  have e2 : (b - a) / n * (1 / 2 : ℝ) = (b - a) / n / 2 := by ring
  rw [e2] at hr
  have hnt : ((n.toNat : ℕ) : ℝ) = n := by
    have : ((n.toNat : ℕ) : ℤ) = n := Int.toNat_of_nonneg (by omega)
    exact_mod_cast this
  have hn0 : (n : ℝ) ≠ 0 := by
    have : n ≠ 0 := by omega
    exact_mod_cast this
  obtain ⟨-, hS, hI⟩ := sumLoop_spec hd ho ho' hxl hx ha hs hr hl rfl rfl rfl n.toNat (by omega) h3
  have eb : a + (n.toNat : ℕ) * ((b - a) / n) = b := by rw [hnt]; field_simp; ring
  rw [eb] at hS hI
  have hS' := hS (by omega)
  exact ⟨hS', integrable hS', hI⟩

/-- C64: `defint_autostep` returns an enclosure of the integral between any points of `start` and `end`, for all values of the
interval constants in the integrand, whatever steps it chooses: `pw` stands for `std::pow`, of which only the sign matters.  The order is
at least 1; inverse functions do not occur in the integrand; constant arguments of logarithms are positive (a throw
excludes the others). -/
theorem C64 {epsilon : D} {k : ℕ} (hp : ∀ i, ρ i ∈ P.p i) (he : P.f.FinCst) (hi : P.f.noInv) (hl : P.f.LDom False ρ fun _ => a) (ha : a ∈ start)
    (hb : b ∈ stop) (has : ∀ x ∈ start, |x| ≤ 2 ^ 1000) (hbs : ∀ x ∈ stop, |x| ≤ 2 ^ 1000) (hpw : Ode.PwOk P.pw) (heps : NN epsilon)
    (ho : 1 ≤ order) (ho' : order + 1 < 2 ^ 31)
    (h : (letI := scalI fuel; defintAutostep k P start stop order epsilon) st = (.ok Z, st')) :
    (∀ x ∈ Set.uIcc a b, P.f.SDom ρ fun _ => x) ∧ IntervalIntegrable (fun x => P.f.real ρ fun _ => x) volume a b ∧
      (∫ x in a..b, P.f.real ρ fun _ => x) ∈ Z := by
  let _ := semI fuel
  change defintAutostep k P start stop order epsilon st = (.ok Z, st') at h
  have hd : Data P ρ := ⟨hp, he, hi⟩
  unfold defintAutostep at h
  rw [get_bind] at h
  obtain ⟨x, s2, h3, h4⟩ := bind_run (m := startSeries order) (show _ = _ from h)
  obtain ⟨rfl, hxl, hx⟩ := startSeries_spec (fuel := fuel) ho h3
  obtain ⟨R, s3, h5, g3⟩ := bind_run h4
  obtain ⟨_, s4, h6, g4⟩ := bind_run g3
  obtain ⟨_, s5, h7, g5⟩ := bind_run g4
  obtain ⟨_, s6, h8, g6⟩ := bind_run g5
  obtain ⟨rfl, -⟩ := pure_run g6
  obtain ⟨e1, e2⟩ := autoLoop_spec hd hpw scale ho ho' hb (in_of_bounded hb hbs) heps k (a := a) ha (Or.inl (in_of_bounded ha has)) hxl hx hl
    (fun y hy hne => absurd (by simpa using hy) hne) (by simp) (Interval.mem_zero (by simp)) h5
  exact ⟨e1, integrable e1, e2⟩

/-- C65: `besselj(n, x)` returns an enclosure of Bessel's integral `1/π ∫_0^π cos(x sin s - n s) ds` for every `x` in the argument -/
theorem C65 {k fuelPi : ℕ} {pw : D → D → D} {X : Interval D} {x : ℝ} (hx : x ∈ X) (hn : |n| < 2 ^ 31) (hpw : Ode.PwOk pw)
    (h : (letI := scalI fuel; besselj k fuelPi pw n X) st = (.ok Z, st')) :
    1 / Real.pi * (∫ s in (0 : ℝ)..Real.pi, Real.cos (x * Real.sin s - n * s)) ∈ Z := by
  let _ := semI fuel
  change besselj k fuelPi pw n X st = (.ok Z, st') at h
  unfold besselj at h
  obtain ⟨p, s1, h1, h2⟩ := bind_run h
  obtain ⟨h3, rfl⟩ := lift_run h1
  obtain ⟨z, s2, h4, h5⟩ := bind_run h2
  obtain ⟨h6, rfl⟩ := lift_run h5
  obtain rfl := Interval.constPi_eq h3
  have hin : Is (lit (n : ℚ) : D) n := is_int hn
  have e0 : ∀ y ∈ (Interval.point (lit 0) : Interval D), |y| ≤ 2 ^ 1000 := fun y hy => by
    rw [(mem_pt Interval.is_zero).1 hy, abs_zero]; positivity
  have e1 : ∀ y ∈ Interval.P0, |y| ≤ 2 ^ 1000 := fun y hy => by
    obtain ⟨p1, p2⟩ := Interval.mem_P0.1 hy
    have q1 : (0 : ℝ) ≤ (Interval.piL : ℚ) := by exact_mod_cast (by norm_num [Interval.piL] : (0 : ℚ) ≤ Interval.piL)
    have q2 : ((Interval.piU : ℚ) : ℝ) ≤ 2 ^ 2 := by exact_mod_cast (by norm_num [Interval.piU] : Interval.piU ≤ 2 ^ 2)
    rw [abs_of_nonneg (q1.trans p1)]
    exact (p2.trans q2).trans (pow_le_pow_right₀ (by norm_num) (by norm_num))
  obtain ⟨-, -, e⟩ := C64 (P := ⟨besseljF n, fun _ => X, pw⟩) (ρ := fun _ => x) (fun _ => hx) (by simp [besseljF, Expr.FinCst]; exact is_dbl' ⟨_, hin⟩)
    (by simp [besseljF, Expr.noInv, Un.isInv]) (by simp [besseljF, Expr.LDom]) (Interval.point_mem Interval.is_zero) Interval.pi_mem_P0
    e0 e1 hpw (NN.lit (by norm_num)) (by norm_num) (by norm_num) h4
  have := Interval.div_mem h6 e Interval.pi_mem_P0
  have e3 : (fun s : ℝ => (besseljF n).real (fun _ => x) fun _ => s) = fun s => Real.cos (x * Real.sin s - n * s) := by
    funext s
    simp only [besseljF, Expr.real, is_dbl hin]
    rfl
  rw [e3, div_eq_inv_mul, ← one_div] at this
  exact this

/-! ## the global switches -/

/-- C66: `defint` leaves the switches `mode` (if 0 or 1), `use_history` and `record_history` as they were, if it returns -/
theorem C66_defint {o : ℤ} [Scal (Interval D)] (hm : st.mode = 0 ∨ st.mode = 1) (h : defint P start stop o n st = (.ok Z, st')) :
    st'.mode = st.mode ∧ st'.use = st.use ∧ st'.record = st.record := by
  unfold defint at h
  obtain ⟨step, s1, h1, g⟩ := bind_run h
  obtain ⟨hstep, rfl⟩ := lift_run h1
  dsimp only at g
  obtain ⟨x, s2, h2, g2⟩ := bind_run g
  have := setorder_st h2
  subst this
  rw [get_bind] at g2
  obtain ⟨R, s3, h3, g3⟩ := bind_run (m := sumLoop P x start step _ n.toNat) (show _ = _ from g2)
  obtain ⟨_, s4, h4, g4⟩ := bind_run g3
  obtain ⟨_, s5, h5, g5⟩ := bind_run g4
  obtain ⟨_, s6, h6, g6⟩ := bind_run g5
  obtain ⟨rfl, rfl⟩ := pure_run g6
  cases h4; cases h5; cases h6
  refine ⟨?_, rfl, rfl⟩
  rcases hm with e | e <;> simp [e]

/-- C66 for `defint_autostep` -/
theorem C66_autostep {k : ℕ} {epsilon : D} [Scal (Interval D)] (hm : st.mode = 0 ∨ st.mode = 1)
    (h : defintAutostep k P start stop order epsilon st = (.ok Z, st')) :
    st'.mode = st.mode ∧ st'.use = st.use ∧ st'.record = st.record := by
  unfold defintAutostep at h
  rw [get_bind] at h
  obtain ⟨x, s2, h3, h4⟩ := bind_run (m := startSeries order) (show _ = _ from h)
  obtain ⟨R, s3, h5, g3⟩ := bind_run h4
  obtain ⟨_, s4, h6, g4⟩ := bind_run g3
  obtain ⟨_, s5, h7, g5⟩ := bind_run g4
  obtain ⟨_, s6, h8, g6⟩ := bind_run g5
  obtain ⟨rfl, rfl⟩ := pure_run g6
  cases h6; cases h7; cases h8
  refine ⟨?_, rfl, rfl⟩
  rcases hm with e | e <;> simp [e]

/-! ## runs of the model: the hypotheses are met, and where the properties fail -/

/-- `x * x`, `std::pow` replaced by the constant 1 -/
def exIntSq : Integrand := ⟨.bin .mul (.var 0) (.var 0), fun _ => pt 0, fun _ _ => lit 1⟩

theorem exIntSq_pw : Ode.PwOk exIntSq.pw := fun _ _ _ => NN.lit (by norm_num)

theorem exIntSq_real (x : ℝ) : (exIntSq.f.real (fun _ => 0) fun _ => x) = x * x := rfl

theorem exIntSq_int (a b : ℝ) : (∫ x in a..b, exIntSq.f.real (fun _ => 0) fun _ => x) = (b ^ 3 - a ^ 3) / 3 := by
  simp only [exIntSq_real, ← pow_two]
  rw [integral_pow]; norm_num

theorem exIntSq_mem {q : ℚ} {c : ℝ} (h : Is (lit q : D) c) : c ∈ pt q := (mem_pt h).2 rfl

/-- C63 applies to two pieces of the integral of `x²` from 0 to 1 -/
example : ∃ Z st', (letI := scalI 100; defint exIntSq (pt 0) (pt 1) (2 : ℕ) 2) (st0 1) = (.ok Z, st') ∧ (1 / 3 : ℝ) ∈ Z := by
  obtain ⟨Z, st', h⟩ := okRun_iff (show okRun ((letI := scalI 100; defint exIntSq (pt 0) (pt 1) (2 : ℕ) 2) (st0 1)) = true by decide +kernel)
  obtain ⟨-, -, e⟩ := C63 (P := exIntSq) (ρ := fun _ => 0) (fun _ => exIntSq_mem Interval.is_zero) (by simp [exIntSq, Expr.FinCst])
    (by simp [exIntSq, Expr.noInv]) (by simp [exIntSq, Expr.LDom]) (exIntSq_mem Interval.is_zero) (exIntSq_mem Interval.is_one)
    (by norm_num) (by norm_num) (by norm_num) (by norm_num) h
  rw [exIntSq_int] at e
  norm_num at e
  exact ⟨Z, st', h, by norm_num; exact e⟩

/-- C64 applies to the integral of `x²` from 0 to 2, in two steps -/
example : ∃ Z st', (letI := scalI 100; defintAutostep 2 exIntSq (pt 0) (pt 2) 2 (lit (1 / 2 ^ 52))) (st0 1) = (.ok Z, st') ∧ (8 / 3 : ℝ) ∈ Z := by
  obtain ⟨Z, st', h⟩ := okRun_iff (show okRun ((letI := scalI 100; defintAutostep 2 exIntSq (pt 0) (pt 2) 2 (lit (1 / 2 ^ 52))) (st0 1)) = true by
    decide +kernel)
  have b2 : (2 : ℝ) ≤ 2 ^ 1000 := scale.one
  obtain ⟨-, -, e⟩ := C64 (P := exIntSq) (ρ := fun _ => 0) (fun _ => exIntSq_mem Interval.is_zero) (by simp [exIntSq, Expr.FinCst])
    (by simp [exIntSq, Expr.noInv]) (by simp [exIntSq, Expr.LDom]) (exIntSq_mem Interval.is_zero) (exIntSq_mem (Interval.is_two (T := D)))
    (fun y hy => by rw [(mem_pt Interval.is_zero).1 hy, abs_zero]; positivity)
    (fun y hy => by rw [(mem_pt (Interval.is_two (T := D))).1 hy, abs_of_pos (by norm_num)]; exact b2)
    exIntSq_pw (NN.lit (by norm_num)) (by norm_num) (by norm_num) h
  rw [exIntSq_int] at e
  norm_num at e
  exact ⟨Z, st', h, by norm_num; exact e⟩

/-- large for small arguments: one step -/
def exIntPw (a _ : D) : D := if Rop.lt a (lit (1 / 2 ^ 40)) then lit 4 else lit 1

theorem exIntPw_ok : Ode.PwOk exIntPw := fun _ _ _ => by
  unfold exIntPw
  split_ifs
  · exact NN.lit (by norm_num)
  · exact NN.lit (by norm_num)

/-- C65 applies to `J_1(1)` -/
example : ∃ Z st', (letI := scalI 100; besselj 2 100 exIntPw 1 (pt 1)) (st0 1) = (.ok Z, st') ∧
    1 / Real.pi * (∫ s in (0 : ℝ)..Real.pi, Real.cos (1 * Real.sin s - (1 : ℤ) * s)) ∈ Z := by
  obtain ⟨Z, st', h⟩ := okRun_iff (show okRun ((letI := scalI 100; besselj 2 100 exIntPw 1 (pt 1)) (st0 1)) = true by decide +kernel)
  exact ⟨Z, st', h, C65 (exIntSq_mem Interval.is_one) (by norm_num) exIntPw_ok h⟩

/-- the result is an interval below the bound -/
def intSupBelow {β : Type} (r : Res (Interval D) × β) (q : ℚ) : Bool := match r.1 with
  | .ok Z => Rop.lt Z.sup (lit q)
  | .error _ => false

theorem intSupBelow_iff {β : Type} {r : Res (Interval D) × β} {q : ℚ} {c : ℝ} (hq : Is (lit q : D) c) (h : intSupBelow r q = true) :
    ∃ Z st', r = (.ok Z, st') ∧ ∀ y ∈ Z, y < c := by
  obtain ⟨r1, r2⟩ := r
  cases r1 with
  | ok Z =>
    refine ⟨Z, r2, rfl, fun y hy => ?_⟩
    have h1 := (RopSem.lt_iff Z.sup (lit q : D)).1 h
    rw [hq.2] at h1
    exact_mod_cast lt_of_le_of_lt hy.2.2 h1.2.2
  | error e => cases h

theorem is_5_16 : Is (lit (5 / 16) : D) (5 / 16 : ℝ) := by
  have := Interval.is_cst 5 (-4) (by decide) (by decide) (by decide) (q := 5 / 16) (by norm_num)
  simpa using this

/-- C63 fails for the order 0: the integral of `x²` from 0 to 1 is not in the result -/
theorem C63_order_zero_violated : ∃ Z st', (letI := scalI 100; defint exIntSq (pt 0) (pt 1) 0 1) (st0 1) = (.ok Z, st') ∧
    (∫ x in (0 : ℝ)..1, exIntSq.f.real (fun _ => 0) fun _ => x) ∉ Z := by
  obtain ⟨Z, st', h, h1⟩ := intSupBelow_iff is_5_16
    (show intSupBelow ((letI := scalI 100; defint exIntSq (pt 0) (pt 1) 0 1) (st0 1)) (5 / 16) = true by decide +kernel)
  refine ⟨Z, st', h, fun hm => ?_⟩
  rw [exIntSq_int] at hm
  have := h1 _ hm
  norm_num at this

/-- C63 fails for a negative number of pieces: the result is `[0, 0]` -/
theorem C63_negative_pieces_violated : ∃ Z st', (letI := scalI 100; defint exIntSq (pt 0) (pt 1) 2 (-1)) (st0 1) = (.ok Z, st') ∧
    (∫ x in (0 : ℝ)..1, exIntSq.f.real (fun _ => 0) fun _ => x) ∉ Z := by
  obtain ⟨Z, st', h, h1⟩ := intSupBelow_iff is_5_16
    (show intSupBelow ((letI := scalI 100; defint exIntSq (pt 0) (pt 1) 2 (-1)) (st0 1)) (5 / 16) = true by decide +kernel)
  refine ⟨Z, st', h, fun hm => ?_⟩
  rw [exIntSq_int] at hm
  have := h1 _ hm
  norm_num at this

/-- C64 fails for the order 0 -/
theorem C64_order_zero_violated : ∃ Z st', (letI := scalI 100; defintAutostep 1 exIntSq (pt 0) (pt 1) 0 (lit (1 / 2 ^ 52))) (st0 1) = (.ok Z, st') ∧
    (∫ x in (0 : ℝ)..1, exIntSq.f.real (fun _ => 0) fun _ => x) ∉ Z := by
  obtain ⟨Z, st', h, h1⟩ := intSupBelow_iff is_5_16
    (show intSupBelow ((letI := scalI 100; defintAutostep 1 exIntSq (pt 0) (pt 1) 0 (lit (1 / 2 ^ 52))) (st0 1)) (5 / 16) = true by decide +kernel)
  refine ⟨Z, st', h, fun hm => ?_⟩
  rw [exIntSq_int] at hm
  have := h1 _ hm
  norm_num at this

/-- C66 fails in mode 2: the mode is 1 afterwards -/
theorem C66_mode_two_violated : ∃ Z st', (letI := scalI 100; defint exIntSq (pt 0) (pt 1) 2 1) (st0 2) = (.ok Z, st') ∧ (st0 2).mode = 2 ∧ st'.mode = 1 := by
  obtain ⟨Z, st', h⟩ := okRun_iff (show okRun ((letI := scalI 100; defint exIntSq (pt 0) (pt 1) 2 1) (st0 2)) = true by decide +kernel)
  have e : ((letI := scalI 100; defint exIntSq (pt 0) (pt 1) 2 1) (st0 2)).2.mode = 1 := by decide +kernel
  rw [h] at e
  exact ⟨Z, st', h, rfl, e⟩

/-- `log(x)` -/
def exIntLog : Integrand := ⟨.un .log (.var 0), fun _ => pt 0, fun _ _ => lit 1⟩

/-- C66 fails when the integrand throws: the mode stays 2 -/
theorem C66_throw_violated : ∃ st', (letI := scalI 100; defint exIntLog (pt (-1)) (pt 1) 2 1) (st0 1) = (.error .domainError, st') ∧
    (st0 1).mode = 1 ∧ st'.mode = 2 := by
  have h1 : ((letI := scalI 100; defint exIntLog (pt (-1)) (pt 1) 2 1) (st0 1)).1 = .error .domainError := by decide +kernel
  have h2 : ((letI := scalI 100; defint exIntLog (pt (-1)) (pt 1) 2 1) (st0 1)).2.mode = 2 := by decide +kernel
  exact ⟨_, Prod.ext h1 rfl, rfl, h2⟩

/-- no pieces: an error, as nothing can be divided by zero -/
theorem C63_no_pieces [Scal (Interval D)] {o : ℤ} : (defint P start stop o 0 st).1 = .error .domainError := by
  have e : ∀ I : Interval D, Interval.divS I (lit ((0 : ℤ) : ℚ) : D) = .error .domainError := fun I => by
    have h1 : Rop.lt (lit 0 : D) (lit ((0 : ℤ) : ℚ)) = false := by decide +kernel
    have h2 : Rop.lt (lit ((0 : ℤ) : ℚ)) (lit 0 : D) = false := by decide +kernel
    unfold Interval.divS
    rw [h1, h2]; rfl
  unfold defint
  rw [e]
  rfl

end Kv
