import Verif.Ode.SingularPower

/-! # `defint_log3`: from the series to the integral -/

namespace Kv
open PowerSeries Psa PM MeasureTheory Filter Topology
open Rop (lit)
set_option linter.unusedVariables false

namespace Defint
variable {fuel : ℕ} {ρ : ℕ → ℝ} {p : ℕ → Interval D} {N M n : ℕ} {a : ℝ}

/-- `log(div_tn(y, n)) * g(x)` -/
theorem logTerm_at {f g : Expr 1} (hf : Fun f ρ a) (hg : Fun g ρ a) (hfc : f.isC = false) (hp : ∀ i, ρ i ∈ p i)
    (hM : 1 ≤ M) (hM' : M + 1 < 2 ^ 31) (hn : n ≤ M) {st s1 st' : PSt (Interval D)}
    (hm : st.mode = 2) (hu : st.use = false) (hr : st.record = false) (h0 : (0 : ℝ) ∈ st.domain) {x y z : Ode.Ser} (hxl : x.length = M + 1)
    (hx : Contains x (idCo a)) (hy : (letI := scalI fuel; evalE f p x) st = (.ok y, s1))
    (h : (letI := scalI fuel; logTerm g p x y (n : ℤ)) st = (.ok z, st')) :
    s1 = st ∧ st' = st ∧ y.length = M + 1 ∧ ∃ w : Ode.Ser, w.length = M + 1 ∧ (letI := scalI fuel; Psa.integrate w) = .ok z ∧
      ∀ τ ∈ st.domain, Smooth f ρ (a + τ) ∧ Smooth g ρ (a + τ) ∧
      ∃ (r : ℕ → ℝ) (v : ℝ), Contains w r ∧ 0 < v ∧ v * τ ^ n = tail f ρ a n τ ∧
        Real.log v * fn g ρ (a + τ) = ∑ k ∈ Finset.range (M + 1), r k * τ ^ k := by
  let _ := semI fuel
  unfold logTerm at h
  obtain ⟨y2, s2, e2', h2⟩ := bind_run h
  obtain ⟨e2, hs2⟩ := lift_run e2'
  rw [hs2] at h2
  obtain ⟨y3, st3, e3, h3⟩ := bind_run h2
  obtain ⟨y4, st4, e4, h4⟩ := bind_run h3
  obtain ⟨y5, st5, e5, h5⟩ := bind_run h4
  obtain ⟨e6, hs6⟩ := lift_run h5
  subst hs6
  clear h h2 h3 h4 h5 e2' hs2
  have key : ∀ τ ∈ st.domain, (s1 = st ∧ st' = st ∧ y.length = M + 1 ∧ y5.length = M + 1) ∧ Smooth f ρ (a + τ) ∧ Smooth g ρ (a + τ) ∧
      ∃ (r : ℕ → ℝ) (v : ℝ), Contains y5 r ∧ 0 < v ∧ v * τ ^ n = tail f ρ a n τ ∧
        Real.log v * fn g ρ (a + τ) = ∑ k ∈ Finset.range (M + 1), r k * τ ^ k := by
    intro τ hτ
    have hE := env2_ok (fuel := fuel) hM hM' hτ h0
    have hxs := start_sem (fuel := fuel) (a := a) hM (st := st) (τ := τ) hxl hx
    obtain ⟨rfl, t1, -, sf⟩ := evalE_sem (fuel := fuel) hf hp hE hxs hm hu hr hy
    rw [hfc] at t1
    have hl1 := sem_len (fuel := fuel) t1
    obtain ⟨c2, v2, t2, hv⟩ := divTn_sem (fuel := fuel) hn t1 e2
    obtain ⟨rfl, t3, -, hvm⟩ := (log_spec hE t2 (fun h => by
      rcases h with h | h
      · have := (hE.two rfl).1; omega
      · cases h)).run hm rfl hu hr rfl e3
    have hv0 : 0 < v2 := hvm rfl
    obtain ⟨rfl, t4, -, sg⟩ := evalE_sem (fuel := fuel) hg hp hE hxs hm hu hr e4
    obtain ⟨rfl, t5, -⟩ := (Op1.opT (mul_spec hE t3 t4)).run hm rfl hu hr rfl e5
    rw [Bool.false_and] at t5
    have hl5 := sem_len (fuel := fuel) t5
    obtain ⟨r, r1, r2, r3, -⟩ := t5.ex
    exact ⟨⟨rfl, rfl, hl1, hl5⟩, sf, sg, r, v2, r1, hv0, hv, r3 rfl⟩
  obtain ⟨⟨k1, k2, k3, k4⟩, -⟩ := key 0 h0
  exact ⟨k1, k2, k3, y5, k4, e6, fun τ hτ => (key τ hτ).2⟩

/-- `n * g(x)`, with `setorder` -/
theorem gTerm_at {g : Expr 1} (hg : Fun g ρ a) (hp : ∀ i, ρ i ∈ p i) (hN : 1 ≤ N) (hN' : N + 1 < 2 ^ 31) (hn : n < 2 ^ 31) {st s1 s2 s3 : PSt (Interval D)}
    (hm : st.mode = 2) (hu : st.use = false) (hr : st.record = false) (h0 : (0 : ℝ) ∈ st.domain) {x y z w : Ode.Ser} (hxl : x.length = N + 1)
    (hx : Contains x (idCo a)) (e1 : (letI := scalI fuel; evalE g p x) st = (.ok y, s1)) (e2 : (letI := scalI fuel; Psa.cMul (lit (n : ℤ)) y) s1 = (.ok z, s2))
    (e3 : (letI := scalI fuel; Psa.setorder z (N : ℤ)) s2 = (.ok w, s3)) :
    w.length = N + 1 ∧ s3 = st ∧
      (∀ τ ∈ st.domain, ∃ r : ℕ → ℝ, Contains w r ∧ (g.isC = true → r = fun k => if k = 0 then n * fn g ρ a else 0) ∧
        n * fn g ρ (a + τ) = ∑ k ∈ Finset.range (N + 1), r k * τ ^ k) := by
  let _ := semI fuel
  have hn' : Is (lit ((n : ℤ) : ℚ) : D) (n : ℝ) := by
    have := Interval.Is.lit_int (T := D) (n : ℤ) (by rw [abs_of_nonneg (by positivity)]; exact_mod_cast hn.le)
    exact_mod_cast this
  have key : ∀ τ ∈ st.domain, (w.length = N + 1 ∧ s3 = st) ∧ ∃ r : ℕ → ℝ, Contains w r ∧ (g.isC = true → r = fun k => if k = 0 then n * fn g ρ a else 0) ∧
        n * fn g ρ (a + τ) = ∑ k ∈ Finset.range (N + 1), r k * τ ^ k := by
    intro τ hτ
    have hE := env2_ok (fuel := fuel) hN hN' hτ h0
    have hxs := start_sem (fuel := fuel) (a := a) hN (st := st) (τ := τ) hxl hx
    obtain ⟨rfl, t1, -, -⟩ := evalE_sem (fuel := fuel) hg hp hE hxs hm hu hr e1
    obtain ⟨rfl, t2, -⟩ := (Op1.opT (cMul_spec hE t1 hn')).run hm rfl hu hr rfl e2
    cases hc : g.isC with
    | false =>
      rw [hc] at t2
      have hl := sem_len (fuel := fuel) t2
      obtain ⟨rfl, rfl⟩ := setorder_same (fuel := fuel) hl e3
      obtain ⟨r, r1, r2, r3, -⟩ := t2.ex
      exact ⟨⟨hl, rfl⟩, r, r1, (fun h => by cases h), r3 rfl⟩
    | true =>
      rw [hc] at t2
      have hl : z.length = 1 := by simpa using t2.len
      unfold Psa.setorder at e3
      rw [if_neg (by omega), if_pos (by simp [hl])] at e3
      obtain ⟨rfl, rfl⟩ := pure_run e3
      obtain ⟨r, r1, r2, r3, r4⟩ := t2.ex
      have hga : fn g ρ (a + τ) = fn g ρ a := Expr.real_isC hc
      have hr0 : r 0 = n * fn g ρ a := by
        have := r3 rfl
        change n * fn g ρ (a + τ) = ∑ i ∈ Finset.range (N + 1), r i * τ ^ i at this
        rw [Finset.sum_range_succ', Finset.sum_eq_zero (fun k _ => by rw [r4 rfl (k + 1) (by omega), zero_mul])] at this
        rw [hga] at this
        simpa using this.symm
      refine ⟨⟨by simp [hl]; omega, rfl⟩, fun k => if k = 0 then n * fn g ρ a else 0, fun k A hA => ?_, fun _ => rfl, ?_⟩
      · cases k with
        | zero =>
          rw [List.getElem?_append_left (by omega)] at hA
          have := r1 0 A hA
          rw [hr0] at this
          show (if (0 : ℕ) = 0 then n * fn g ρ a else 0) ∈ A
          rw [if_pos rfl]; exact this
        | succ k =>
          rw [List.getElem?_append_right (by omega), List.getElem?_replicate] at hA
          split_ifs at hA
          cases hA
          show (if k + 1 = 0 then n * fn g ρ a else 0) ∈ _
          rw [if_neg (by omega)]; exact mem_lit0 (fuel := fuel)
      · rw [hga, Finset.sum_range_succ', Finset.sum_eq_zero (fun k _ => by simp)]
        simp
  obtain ⟨⟨k1, k2⟩, -⟩ := key 0 h0
  exact ⟨k1, k2, fun τ hτ => (key τ hτ).2⟩

/-- `x = setorder(x, order)` for the shorter series of the variable -/
theorem shorten_spec (hN : 1 ≤ N) (hM : N ≤ M) {st st' : PSt (Interval D)} {x z : Ode.Ser} (hm : st.mode = 2) (h0 : (0 : ℝ) ∈ st.domain)
    (hxl : x.length = M + 1) (hx : Contains x (idCo a)) (h : (letI := scalI fuel; Psa.setorder x (N : ℤ)) st = (.ok z, st')) :
    st' = st ∧ z.length = N + 1 ∧ Contains z (idCo a) := by
  let _ := semI fuel
  change Psa.setorder x (N : ℤ) st = (.ok z, st') at h
  unfold Psa.setorder at h
  rw [if_neg (by omega)] at h
  simp only [Int.toNat_natCast] at h
  by_cases hc : x.length ≤ N + 1
  · rw [if_pos hc] at h
    obtain ⟨rfl, rfl⟩ := pure_run h
    have : M = N := by omega
    subst this
    refine ⟨rfl, by simp [hxl], ?_⟩
    simpa [hxl] using hx
  · rw [if_neg hc, get_bind, if_neg (by omega)] at h
    obtain ⟨h, rfl⟩ := lift_run h
    obtain ⟨A, hA, h⟩ := bind_ok.1 h
    cases h
    refine ⟨rfl, by simp; omega, fun k B hB => ?_⟩
    rcases Nat.lt_or_ge k N with hk | hk
    · rw [List.getElem?_append_left (by simp; omega), List.getElem?_take_of_lt hk] at hB
      exact hx k B hB
    · rw [List.getElem?_append_right (by simp; omega)] at hB
      have hkN : k = N := by
        have := getElem?_lt hB
        simp at this
        omega
      subst hkN
      have hlen : (x.take k).length = k := by simp; omega
      rw [hlen, Nat.sub_self] at hB
      cases hB
      have := Psa.polyrange_mem (S := Interval D) (p := fun i => idCo a (k + i)) h0 (fun i B hB => by
        rw [List.getElem?_drop] at hB
        exact hx (k + i) B hB) hA
      have e : ∑ i ∈ Finset.range (x.drop k).length, idCo a (k + i) * (0 : ℝ) ^ i = idCo a k := by
        have : (x.drop k).length = (M - k) + 1 := by simp; omega
        rw [this, Finset.sum_range_succ', Finset.sum_eq_zero (fun i _ => by simp)]
        simp
      rw [e] at this
      exact this

theorem logSum_mem {step logx : Interval D} {T : ℝ} (hs : T ∈ step) (hl : Real.log T ∈ logx) : ∀ {y : Ode.Ser} {i : ℕ} {xn R Z : Interval D} {w : ℝ} {s : ℕ → ℝ},
    Contains y s → T ^ (i + 1) ∈ xn → w ∈ R → (logSum step logx y i xn R) = .ok Z →
      w + ∑ k ∈ Finset.range y.length, s k * (T ^ (i + k + 1) * ((i + k + 1) * Real.log T - 1) / ((i + k + 1) * (i + k + 1))) ∈ Z
  | [], i, xn, R, Z, w, s, _, _, hw, h => by
    unfold logSum at h; cases h; simpa using hw
  | y :: l, i, xn, R, Z, w, s, hy, hxn, hw, h => by
    unfold logSum at h
    rw [ite_eq_iff] at h
    rcases h with ⟨_, h⟩ | ⟨c, h⟩
    · cases h
    dsimp only at h
    obtain ⟨q, hq, h⟩ := bind_ok.1 h
    have h0 : s 0 ∈ y := hy 0 y rfl
    have i1 : Is (lit ((i : ℚ) + 1) : D) (i + 1) := by
      have := Interval.Is.lit_int (T := D) (i + 1) (by
        rw [abs_of_nonneg (by positivity)]
        have : (i : ℤ) + 1 ≤ (i + 1) * (i + 1) := by nlinarith
        have h2 : ((i + 1) * (i + 1) : ℤ) < 2 ^ 31 := by exact_mod_cast (not_le.1 c)
        omega)
      exact_mod_cast this
    have i2 : Is (lit (((i : ℚ) + 1) * (i + 1)) : D) ((i + 1) * (i + 1)) := by
      have := Interval.Is.lit_int (T := D) ((i + 1) * (i + 1)) (by
        rw [abs_of_nonneg (by positivity)]
        exact_mod_cast (not_le.1 c).le)
      exact_mod_cast this
    have hq' := Interval.divS_mem hq (Interval.mul_mem (Interval.mul_mem h0 hxn) (Interval.subS_mem (Interval.sMul_mem hl i1) Interval.is_one)) i2
    have := logSum_mem hs hl (s := fun k => s (k + 1)) (i := i + 1) (fun k A hA => hy (k + 1) A (by simpa using hA))
      (by
        have := Interval.mul_mem hxn hs
        rwa [← pow_succ] at this) (Interval.add_mem hw hq') h
    rw [List.length_cons, Finset.sum_range_succ']
    have e1 : ∀ k : ℕ, i + (k + 1) = i + 1 + k := fun k => by omega
    have e2 : ∀ k : ℕ, (i : ℝ) + ((k + 1 : ℕ) : ℝ) = ((i + 1 : ℕ) : ℝ) + k := fun k => by push_cast; ring
    rw [Finset.sum_congr rfl fun k _ => by rw [e1 k, e2 k]]
    have e3 : s 0 * (T ^ (i + 0 + 1) * ((i + ((0 : ℕ) : ℝ) + 1) * Real.log T - 1) / ((i + ((0 : ℕ) : ℝ) + 1) * (i + ((0 : ℕ) : ℝ) + 1))) =
        s 0 * T ^ (i + 1) * ((i + 1) * Real.log T - 1) / ((i + 1) * (i + 1)) := by
      simp only [Nat.cast_zero, add_zero]; ring
    rw [e3]
    have e4 : ∀ A B C : ℝ, A + (B + C) = A + C + B := fun _ _ _ => by ring
    rw [e4]; exact this

/-- the antiderivative of a weak enclosure -/
theorem integrateW_mem {T : ℝ} (hT : 0 < T) {step Z : Interval D} (hs : T ∈ step) {w y : Ode.Ser} (hl : w.length < 2 ^ 31) {s : ℕ → ℝ} (hw : Contains w s)
    (hy : (letI := scalI fuel; Psa.integrate w) = .ok y) (hZ : (letI := scalI fuel; Psa.eval y step) = .ok Z) :
    ∑ k ∈ Finset.range w.length, s k * (T ^ ((0 : ℝ) + 1 + k) / (0 + 1 + k)) ∈ Z := by
  let _ := semI fuel
  obtain ⟨h1, h2⟩ := integrate_contains (fuel := fuel) hl hw hy
  have := Psa.polyrange_mem (S := Interval D) hs h2 hZ
  rw [h1, Finset.sum_range_succ'] at this
  have e : ∑ k ∈ Finset.range w.length, s k * (T ^ ((0 : ℝ) + 1 + k) / (0 + 1 + k)) =
      ∑ k ∈ Finset.range w.length, antiCo s (k + 1) * T ^ (k + 1) + antiCo s 0 * T ^ 0 := by
    have e0 : antiCo s 0 = 0 := rfl
    rw [e0, zero_mul, add_zero]
    refine Finset.sum_congr rfl fun k _ => ?_
    rw [show (0 : ℝ) + 1 + k = ((k + 1 : ℕ) : ℝ) by push_cast; ring, Real.rpow_natCast]
    simp only [antiCo]
    ring
  rw [e]; exact this

/-- `defint_log3` -/
theorem log3_core {f g : Expr 1} (hf : Fun f ρ a) (hg : Fun g ρ a) (hfc : f.isC = false) (hp : ∀ i, ρ i ∈ p i)
    (hN : 1 ≤ N) (hN' : N + n + 1 < 2 ^ 31) {start stop Z : Interval D} {b : ℝ} (ha : a ∈ start) (hb : b ∈ stop) (hab : a < b)
    (hab1 : b - a ≤ 1 ∨ g.isC = true) {st st' : PSt (Interval D)}
    (h : (letI := scalI fuel; defintLog3 fuel f g p start stop (N : ℤ) (n : ℤ)) st = (.ok Z, st')) :
    (∀ t, 0 ≤ t → t ≤ b - a → Smooth f ρ (a + t) ∧ Smooth g ρ (a + t)) ∧ (∀ t, 0 < t → t ≤ b - a → 0 < tail f ρ a n t) ∧
    (∀ l, 0 < l → Tendsto (fun t => tail f ρ a n t / t ^ n) (𝓝[>] 0) (𝓝 l) →
      IntervalIntegrable (fun t => Real.log (tail f ρ a n t) * fn g ρ (a + t)) volume 0 (b - a) ∧
      (∫ t in (0 : ℝ)..b - a, Real.log (tail f ρ a n t) * fn g ρ (a + t)) ∈ Z) := by
  let _ := semI fuel
  have hT : 0 < b - a := by linarith
  change defintLog3 fuel f g p start stop (N : ℤ) (n : ℤ) st = (.ok Z, st') at h
  unfold defintLog3 at h
  obtain ⟨s1, h⟩ := inMode2_run h
  set step := Interval.sub stop start with hstep
  have hs : b - a ∈ step := Interval.sub_mem hb ha
  obtain ⟨hd0, hdT⟩ := sHull_mem hs
  obtain ⟨x, sx, e1, h1⟩ := bind_run h
  rw [show (N : ℤ) + (n : ℤ) = ((N + n : ℕ) : ℤ) by push_cast; ring] at e1 h1
  obtain ⟨rfl, hxl, hx⟩ := startAt_spec (fuel := fuel) (show 1 ≤ N + n by omega) ha e1
  obtain ⟨y, sy, e2, h2⟩ := bind_run h1
  have hE0 := env2_ok (fuel := fuel) (N := N + n) (st := st2 st step) (by omega) hN' hd0 hd0
  obtain ⟨rfl, t1, -, -⟩ := evalE_sem (fuel := fuel) hf hp hE0 (start_sem (fuel := fuel) (a := a) (show 1 ≤ N + n by omega) hxl hx) rfl rfl rfl e2
  rw [hfc] at t1
  have hyl := sem_len (fuel := fuel) t1
  obtain ⟨y', sy', e3, h3⟩ := bind_run h2
  obtain ⟨rfl, rfl⟩ := setorder_same (fuel := fuel) hyl e3
  obtain ⟨z, sz, e4, h4⟩ := bind_run h3
  obtain ⟨-, rfl, -, w, hwl, hwi, key⟩ := logTerm_at (fuel := fuel) hf hg hfc hp (show 1 ≤ N + n by omega) hN' (show n ≤ N + n by omega)
    (st := st2 st step) rfl rfl rfl hd0 hxl hx e2 e4
  obtain ⟨R, sR, e5, h5⟩ := bind_run h4
  obtain ⟨hR, rfl⟩ := lift_run e5
  obtain ⟨x2, sx2, e6, h6⟩ := bind_run h5
  obtain ⟨rfl, hx2l, hx2⟩ := shorten_spec (fuel := fuel) hN (show N ≤ N + n by omega) (st := st2 st step) rfl hd0 hxl hx e6
  obtain ⟨u1, su1, e7, h7⟩ := bind_run h6
  obtain ⟨u2, su2, e8, h8⟩ := bind_run h7
  obtain ⟨u3, su3, e9, h9⟩ := bind_run h8
  obtain ⟨hul, -, gkey⟩ := gTerm_at (fuel := fuel) hg hp hN (by omega) (show n < 2 ^ 31 by omega) (st := st2 st step) rfl rfl rfl hd0 hx2l hx2 e7 e8 e9
  obtain ⟨h10, -⟩ := lift_run h9
  obtain ⟨logx, hlog, h11⟩ := bind_ok.1 h10
  have hdom : ∀ t, 0 ≤ t → t ≤ b - a → t ∈ (st2 st step).domain := fun t h0 h1 =>
    convI fuel _ 0 (b - a) t hd0 hdT (by rw [Set.mem_uIcc]; exact Or.inl ⟨h0, h1⟩)
  have hpos : ∀ t, 0 < t → t ≤ b - a → 0 < tail f ρ a n t := fun t h0 h1 => by
    obtain ⟨-, -, r, v, -, hv, e, -⟩ := key t (hdom t h0.le h1)
    rw [← e]; exact mul_pos hv (pow_pos h0 n)
  have hsm : ∀ t, 0 ≤ t → t ≤ b - a → Smooth f ρ (a + t) ∧ Smooth g ρ (a + t) := fun t h0 h1 => by
    obtain ⟨q1, q2, -⟩ := key t (hdom t h0 h1)
    exact ⟨q1, q2⟩
  refine ⟨hsm, hpos, fun l hl hlim => ?_⟩
  have hcont : ∀ {e : Expr 1} {t : ℝ}, Smooth e ρ (a + t) → ContinuousAt (fun t => fn e ρ (a + t)) t := fun {e t} hS =>
    ContinuousAt.comp (f := fun t : ℝ => a + t) hS.continuousAt (by fun_prop)
  have hgl : Tendsto (fun t => fn g ρ (a + t)) (𝓝[>] 0) (𝓝 (fn g ρ a)) := by
    have := (hcont (hsm 0 le_rfl hT.le).2).tendsto
    rw [add_zero] at this
    exact this.mono_left nhdsWithin_le_nhds
  -- first part
  let φ : ℝ → ℝ := fun t => Real.log (tail f ρ a n t / t ^ n) * fn g ρ (a + t)
  have hφc : ∀ t, 0 < t → t ≤ b - a → ContinuousAt φ t := fun t h0 h1 => by
    obtain ⟨q1, q2⟩ := hsm t h0.le h1
    refine ContinuousAt.mul (ContinuousAt.log (ContinuousAt.div ?_ (by fun_prop) (pow_pos h0 n).ne') ?_) (hcont q2)
    · unfold tail
      exact (hcont q1).sub (by fun_prop)
    · exact (div_pos (hpos t h0 h1) (pow_pos h0 n)).ne'
  have hφl : Tendsto φ (𝓝[>] 0) (𝓝 (Real.log l * fn g ρ a)) := Tendsto.mul (hlim.log hl.ne') hgl
  have hw0 : IntervalIntegrable (fun t : ℝ => t ^ (0 : ℝ)) volume 0 (b - a) := intervalIntegral.intervalIntegrable_rpow' (by norm_num)
  have hφi := weighted_integrable hT hw0 hφc hφl
  obtain ⟨s, k1, k2⟩ := Weighted.power (m := N + n + 1) (A := sets w) (fun k _ => sets_closed w k) (fun k _ => sets_ord w k) hT (by norm_num) hφi
    (fun t h0 h1 => by
      obtain ⟨-, -, r, v, hr, hv, e, hsum⟩ := key t (hdom t h0.le h1)
      refine ⟨r, fun k _ A hA => hr k A hA, ?_⟩
      rw [← hsum]
      show Real.log (tail f ρ a n t / t ^ n) * fn g ρ (a + t) = _
      rw [← e, mul_div_cancel_right₀ _ (pow_pos h0 n).ne'])
  have hR' := integrateW_mem (fuel := fuel) hT hs (by omega) (contains_iff fun k hk => k1 k (by omega)) hwi hR
  rw [hwl, ← k2] at hR'
  simp only [Real.rpow_zero, one_mul] at hR' hφi
  -- second part
  have hψi := weighted_integrable hT (φ := fun t => n * fn g ρ (a + t)) (intervalIntegral.intervalIntegrable_log' (a := 0) (b := b - a))
    (fun t h0 h1 => (hcont (hsm t h0.le h1).2).const_mul _) (hgl.const_mul (n : ℝ))
  obtain ⟨s', k1', k2'⟩ : ∃ s : ℕ → ℝ, Contains u3 s ∧ ∫ t in (0 : ℝ)..b - a, Real.log t * (n * fn g ρ (a + t)) =
      ∑ k ∈ Finset.range (N + 1), s k * ((b - a) ^ (k + 1) * ((k + 1) * Real.log (b - a) - 1) / ((k + 1) * (k + 1))) := by
    rcases hab1 with hab1 | hgc
    · obtain ⟨s', k1', k2'⟩ := Weighted.log (m := N + 1) (A := sets u3) (fun k _ => sets_closed u3 k) (fun k _ => sets_ord u3 k) hT hab1 hψi
        (fun t h0 h1 => by
          obtain ⟨r, hr, -, hsum⟩ := gkey t (hdom t h0.le h1)
          exact ⟨r, fun k _ A hA => hr k A hA, hsum⟩)
      exact ⟨s', contains_iff fun k hk => k1' k (by omega), k2'⟩
    · obtain ⟨r, hr, hrc, -⟩ := gkey 0 hd0
      have hrc := hrc hgc
      refine ⟨r, hr, ?_⟩
      have hga : ∀ t, fn g ρ (a + t) = fn g ρ a := fun t => Expr.real_isC hgc
      simp only [hga]
      rw [intervalIntegral.integral_mul_const, Finset.sum_range_succ', Finset.sum_eq_zero (fun k _ => by simp [hrc]), hrc]
      have := Weighted.log_integral hT 0
      simp only [pow_zero, mul_one] at this
      rw [this]
      simp only [if_true, Nat.cast_zero]
      ring
  have hZ := logSum_mem hs (Interval.log_mem hlog hs hT) k1' (i := 0) (by simpa using hs) hR' h11
  rw [hul] at hZ
  simp only [Nat.cast_zero, zero_add] at hZ
  rw [← k2', ← intervalIntegral.integral_add hφi hψi] at hZ
  have hcongr : ∀ t ∈ Set.uIoc 0 (b - a), φ t + Real.log t * (n * fn g ρ (a + t)) = Real.log (tail f ρ a n t) * fn g ρ (a + t) := by
    intro t ht
    rw [Set.uIoc_of_le hT.le] at ht
    have hpt := hpos t ht.1 ht.2
    have htn := pow_pos ht.1 n
    show Real.log (tail f ρ a n t / t ^ n) * fn g ρ (a + t) + _ = _
    rw [Real.log_div hpt.ne' htn.ne', Real.log_pow]
    ring
  refine ⟨(hφi.add hψi).congr hcongr, ?_⟩
  rwa [intervalIntegral.integral_congr_ae (Filter.Eventually.of_forall hcongr)] at hZ

end Defint
end Kv
