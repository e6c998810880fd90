import Verif.Ode.SingularAuto
import Verif.Ode.SingularPower
import Verif.Ode.DefintAuto

/-! # Lemmas for `defint_power_autostep` -/

namespace Kv
open PowerSeries Psa PM MeasureTheory Filter Topology
open Rop (lit)
set_option linter.unusedVariables false

namespace Interval
open RopSem

/-- the enclosure of the logarithm of an interval with 0 is unbounded below -/
theorem log_mem_zero {fuel : ℕ} {X Z : Interval D} (h : log fuel X = .ok Z) (h0 : (0 : ℝ) ∈ X) : ∃ y0 : ℝ, ∀ y ≤ y0, y ∈ Z := by
  unfold log at h
  by_cases hd : Rop.lt X.inf (lit 0) = true
  · rw [if_pos hd] at h; cases h
  rw [if_neg hd] at h
  obtain ⟨a, ha, h⟩ := bind_ok.1 h
  obtain ⟨b, hb, h⟩ := bind_ok.1 h
  cases h
  have h1 : 0 ≤ val X.inf := by
    rw [lt_zero_right] at hd
    by_contra hc; exact hd ⟨h0.1.1, not_le.1 hc⟩
  have h1' : val X.inf ≤ 0 := by exact_mod_cast h0.1.2
  have h2 : 0 ≤ val X.sup := by exact_mod_cast h0.2.2
  have hlo : ∀ y : ℝ, Lo a y := fun y => by
    have := logPoint_spec (up := false) h0.1.1 h1 ha (Real.exp y) (Real.exp_pos y) (h1'.trans (by exact_mod_cast (Real.exp_pos y).le))
    rwa [Real.log_exp] at this
  obtain ⟨y0, hy0⟩ : ∃ y0 : ℝ, Hi b y0 := by
    rcases h2.lt_or_eq with hs | hs
    · obtain ⟨c, hc0, hc⟩ : ∃ c : ℝ, 0 < c ∧ (c : EReal) ≤ val X.sup := by
        obtain ⟨c, h3, h4⟩ := EReal.lt_iff_exists_real_btwn.1 hs
        exact ⟨c, by exact_mod_cast h3, h4.le⟩
      exact ⟨_, logPoint_spec (up := true) h0.2.1 h2 hb c hc0 hc⟩
    · unfold logPoint at hb
      obtain ⟨s2, -, hb⟩ := bind_ok.1 hb
      have e1 : ¬ Rop.eq X.sup (Rop.inf : D) = true := by
        rw [eq_iff]; rintro ⟨-, -, e⟩; rw [← hs, inf_val.2] at e; cases e
      have e2 : Rop.eq X.sup (lit 0 : D) = true := by
        rw [eq_iff]; exact ⟨h0.2.1, is_zero.1, by rw [← hs, is_zero.2]; rfl⟩
      rw [if_neg e1, if_pos e2, if_pos rfl] at hb
      cases hb
      have n1 : ¬ nan (Rop.neg Rop.maxv : D) := ((eq_iff _ _).1 (show Rop.eq (Rop.neg Rop.maxv : D) (Rop.neg Rop.maxv) = true by decide +kernel)).1
      have n2 : val (Rop.neg Rop.maxv : D) ≠ ⊥ := fun e => by
        have : Rop.eq (Rop.neg Rop.maxv : D) (Rop.neg Rop.inf) = true := (eq_iff _ _).2 ⟨n1, (nan_neg _).not.2 inf_val.1, by
          rw [e, val_neg _ inf_val.1, inf_val.2]; rfl⟩
        exact absurd this (by decide +kernel)
      obtain ⟨r, -, hr⟩ := EReal.lt_iff_exists_real_btwn.1 (bot_lt_iff_ne_bot.2 n2)
      exact ⟨r, n1, hr.le⟩
  exact ⟨y0, fun y hy => ⟨hlo y, hy0.mono hy⟩⟩

theorem pow_mem_zero {fuel : ℕ} {X Y Z : Interval D} {y : ℝ} (h : pow fuel X Y = .ok Z) (hx : (0 : ℝ) ∈ X) (hy : y ∈ Y) (h0 : 0 < y) :
    (0 : ℝ) ∈ Z := by
  unfold pow at h
  obtain ⟨L, hL, h⟩ := bind_ok.1 h
  obtain ⟨u0, hu⟩ := log_mem_zero hL hx
  have hlim : Tendsto (fun u : ℝ => Real.exp (y * u)) atBot (𝓝 0) := Real.tendsto_exp_atBot.comp (tendsto_id.const_mul_atBot h0)
  refine (mem_closed Z).mem_of_tendsto hlim ?_
  filter_upwards [eventually_le_atBot u0] with u h1
  exact exp_mem h (mul_mem hy (hu u h1))

theorem pow_nonneg' {fuel : ℕ} {X Y Z : Interval D} {x : ℝ} (h : pow fuel X Y = .ok Z) (hx : x ∈ X) : 0 ≤ x := by
  unfold pow log at h
  by_cases hd : Rop.lt X.inf (lit 0) = true
  · rw [if_pos hd] at h; cases h
  have h1 : 0 ≤ val X.inf := by
    rw [lt_zero_right] at hd
    by_contra hc; exact hd ⟨hx.1.1, not_le.1 hc⟩
  have := h1.trans hx.1.2
  exact_mod_cast this

end Interval

namespace Defint
variable {fuel : ℕ} {ρ : ℕ → ℝ} {p : ℕ → Interval D} {N n : ℕ} {a : ℝ}

/-! ## a step of length 0 -/

theorem powerSum_zero {step : Interval D} (hs : (0 : ℝ) ∈ step) : ∀ {y : Ode.Ser} {tx tp R Z : Interval D} {e : ℝ} {s : ℕ → ℝ},
    Contains y s → (0 : ℝ) ∈ tx → e ∈ tp → (0 : ℝ) ∈ R → (powerSum step y tx tp R) = .ok Z → (0 : ℝ) ∈ Z
  | [], tx, tp, R, Z, e, s, _, _, _, hw, h => by
    unfold powerSum at h; cases h; exact hw
  | y :: l, tx, tp, R, Z, e, s, hy, htx, htp, hw, h => by
    unfold powerSum at h
    obtain ⟨q, hq, h⟩ := bind_ok.1 h
    have hq' := Interval.div_mem hq (Interval.mul_mem (hy 0 y rfl) htx) htp
    rw [mul_zero, zero_div] at hq'
    have h1 := Interval.mul_mem htx hs
    have h2 := Interval.add_mem hw hq'
    rw [mul_zero] at h1
    rw [add_zero] at h2
    exact powerSum_zero hs (s := fun k => s (k + 1)) (fun k A hA => hy (k + 1) A (by simpa using hA)) h1
      (Interval.addS_mem htp Interval.is_one) h2 h

theorem powerResult_zero {step power : Interval D} {π : ℝ} (hs : (0 : ℝ) ∈ step) (hπ : π ∈ power) (hω : -1 < π) {y : Ode.Ser} {s : ℕ → ℝ}
    (hy : Contains y s) {Z : Interval D} (h : powerResult fuel step power 1 y = .ok Z) : (0 : ℝ) ∈ Z := by
  unfold powerResult at h
  obtain ⟨tx, htx, h⟩ := bind_ok.1 h
  have h1 : Is (lit ((1 : ℤ) : ℚ) : D) 1 := by
    have := Interval.is_one (T := D)
    norm_num; exact this
  have htp := Interval.addS_mem (Interval.mulS_mem hπ h1) (Interval.is_one (T := D))
  rw [mul_one] at htp
  exact powerSum_zero hs hy (Interval.pow_mem_zero htx hs htp (by linarith)) htp ⟨Interval.is_zero.lo, Interval.is_zero.hi⟩ h

theorem powerResult_nonneg {step power : Interval D} {T : ℝ} (hs : T ∈ step) {y : Ode.Ser} {Z : Interval D} {mult : ℤ}
    (h : powerResult fuel step power mult y = .ok Z) : 0 ≤ T := by
  unfold powerResult at h
  obtain ⟨tx, htx, h⟩ := bind_ok.1 h
  exact Interval.pow_nonneg' htx hs

/-- the integral over a step of length `T` from the singularity -/
theorem powerResult_integral {step power : Interval D} {π T : ℝ} (hs : T ∈ step) (hπ : π ∈ power) (hω : -1 < π) {y : Ode.Ser} {φ : ℝ → ℝ}
    (hc : ∀ t, 0 ≤ t → t ≤ T → ContinuousAt φ t) {d : Interval D} (hd : ∀ t, 0 ≤ t → t ≤ T → t ∈ d) (hy : EnclosesW d y φ)
    (h0 : (0 : ℝ) ∈ d) {Z : Interval D} (h : powerResult fuel step power 1 y = .ok Z) :
    0 ≤ T ∧ IntervalIntegrable (fun t => t ^ π * φ t) volume 0 T ∧ (∫ t in (0 : ℝ)..T, t ^ π * φ t) ∈ Z := by
  have hT := powerResult_nonneg hs h
  rcases hT.lt_or_eq with hT | hT
  · have hwi : IntervalIntegrable (fun t : ℝ => t ^ π) volume 0 T := intervalIntegral.intervalIntegrable_rpow' hω
    have hφi : IntervalIntegrable (fun t => t ^ π * φ t) volume 0 T := hwi.mul_continuousOn (by
      rw [Set.uIcc_of_le hT.le]
      exact fun t ht => (hc t ht.1 ht.2).continuousWithinAt)
    refine ⟨hT.le, hφi, ?_⟩
    obtain ⟨s, k1, k2⟩ := Weighted.power (m := y.length) (A := sets y) (fun k _ => sets_closed y k) (fun k _ => sets_ord y k) hT hω hφi
      (fun t h0 h1 => by
        obtain ⟨r, hr, e⟩ := hy t (hd t h0.le h1)
        exact ⟨r, fun k _ A hA => hr k A hA, e⟩)
    have hres := powerResult_mem (fuel := fuel) (n := 1) hT hs hπ (by norm_num) (contains_iff fun k hk => k1 k hk) (by exact_mod_cast h)
    rw [Nat.cast_one, mul_one] at hres
    rw [k2]; exact hres
  · subst hT
    obtain ⟨r, hr, -⟩ := hy 0 h0
    refine ⟨le_rfl, by simp, ?_⟩
    rw [intervalIntegral.integral_same]
    exact powerResult_zero hs hπ hω hr h

/-! ## evaluation with history, for programs -/

/-- the trace of a program, as `IsTrace` -/
def IsTraceM (fuel N : ℕ) (t0 : ℝ) (k : Bool) (c : PowerSeries ℝ) (φ : ℝ → ℝ) (Sm : ℝ → Prop) (T : ℕ → List (PowerSeries ℝ × Bool))
    (M : PM (Interval D) Ode.Ser) (x : Ode.Ser) : Prop :=
  let _ := semI fuel
  ∀ {E : Env (Interval D)} (_ : E.Ok), E.s = N + 1 → ∀ {v : ℝ}, Sem E false (idPs t0) v x →
    OpT E T k c (φ v) (Sm t0 ∧ (E.md = 2 → Sm v)) M

variable {t0 : ℝ} {k : Bool} {c : PowerSeries ℝ} {φ : ℝ → ℝ} {Sm : ℝ → Prop} {T : ℕ → List (PowerSeries ℝ × Bool)}
  {M : PM (Interval D) Ode.Ser} {x : Ode.Ser}

/-- evaluation in mode 2 -/
theorem evalM2 (hT : IsTraceM fuel N t0 k c φ Sm T M x) (hN : 1 ≤ N) (hN' : N + 1 < 2 ^ 31) {m : ℕ} (hm : 1 ≤ m) (hm' : m ≤ N + 1)
    {st st' : PSt (Interval D)} {z : Ode.Ser} (hmode : st.mode = 2) (h0 : (0 : ℝ) ∈ st.domain) (hist : HistOk fuel T m st)
    (hxl : x.length = N + 1) (hx : Contains x (idCo t0)) (h : M st = (.ok z, st')) :
    (st'.mode = 2 ∧ HistOk fuel T N st') ∧
      EnclosesW st.domain z (fun t => φ (t0 + t)) ∧ ∀ t ∈ st.domain, Sm (t0 + t) := by
  let _ := semI fuel
  have key : ∀ τ ∈ st.domain, (st'.mode = 2 ∧ HistOk fuel T N st') ∧
      Sm (t0 + τ) ∧ ∃ r, Contains z r ∧ φ (t0 + τ) = ∑ k ∈ Finset.range z.length, r k * τ ^ k := by
    intro τ hτ
    let E : Env (Interval D) := ⟨2, st.domain, N + 1, m, N, τ, if st.use then [] else st.hist⟩
    have hE : E.Ok := ⟨Or.inr ⟨rfl, rfl, hτ, h0, convI fuel⟩, hm, hm', hN, hN'⟩
    have hat : At E st.use st.record (popT st.use (T E.m) []) [] st := by
      refine ⟨hmode, rfl, rfl, rfl, ?_⟩
      rcases hist with hu | ⟨hu, hr, hh⟩
      · exact ⟨[], [], by simp [E, hu], by simp [popT, hu], .nil⟩
      · exact ⟨st.hist, [], by simp [E, hu], by simpa [popT, hu] using hh.imp fun _ _ h => h.use N, .nil⟩
    have hst : Sem E false (idPs t0) (t0 + τ) x := by
      refine ⟨by simpa using hxl, fun hk => (by cases hk), idCo t0, hx, fun k _ => (idCo_idPs t0 k).symm, fun _ => ?_, fun hk => (by cases hk)⟩
      show t0 + τ = ∑ i ∈ Finset.range (N + 1), idCo t0 i * τ ^ i
      obtain ⟨M, rfl⟩ : ∃ M, N = M + 1 := ⟨N - 1, by omega⟩
      rw [Finset.sum_range_succ', Finset.sum_range_succ', Finset.sum_eq_zero (fun k _ => by simp [idCo])]
      simp [idCo]; ring
    obtain ⟨hat2, hsem, -, hS⟩ := hT hE rfl hst st.use st.record [] [] st hat z st' h
    have hlz := hsem.len
    obtain ⟨q, h1, h2, h3, h4⟩ := hsem.ex
    refine ⟨⟨hat2.mode, ?_⟩, hS rfl, q, h1, ?_⟩
    · rcases hist with hu | ⟨hu, hr, hh⟩
      · exact Or.inl (by rw [hat2.use, hu])
      · refine Or.inr ⟨by rw [hat2.use, hu], by rw [hat2.record, hr], ?_⟩
        obtain ⟨U, P', hh, hU, hP⟩ := hat2.inv
        cases hU
        rw [hh]
        simpa [pushT, E, hu, hr] using hP
    · rw [h3 rfl]
      split_ifs at hlz with hc
      · rw [hlz]
        refine (Finset.sum_subset (Finset.range_mono (by show 1 ≤ N + 1; omega)) fun i _ hi => ?_).symm
        rw [h4 hc i (by simp at hi; omega), zero_mul]
      · rw [hlz]
  exact ⟨(key 0 h0).1, fun t ht => (key t ht).2.2, fun t ht => (key t ht).2.1⟩

/-- evaluation in mode 1 with recording -/
theorem evalM1 (hT : IsTraceM fuel N t0 k c φ Sm T M x) (hN : 1 ≤ N) (hN' : N + 1 < 2 ^ 31)
    {st st' : PSt (Interval D)} {z : Ode.Ser} (hmode : st.mode = 1) (hu : st.use = false) (hr : st.record = true) (hh : st.hist = [])
    (hxl : x.length = N + 1) (hx : Contains x (idCo t0)) (h : M st = (.ok z, st')) :
    st'.record = true ∧ (let _ := semI fuel; List.Forall₂ (Match (N + 1)) (T (N + 1)) st'.hist) := by
  let _ := semI fuel
  let E : Env (Interval D) := ⟨1, st.domain, N + 1, N + 1, N + 1, 0, []⟩
  have hE : E.Ok := ⟨Or.inl ⟨rfl, rfl⟩, Nat.le_add_left 1 N, le_refl _, Nat.le_add_left 1 N, hN'⟩
  have hmd : E.md ≠ 2 := by show (1 : ℤ) ≠ 2; decide
  have hat : At E false true (popT false (T E.m) []) [] st := ⟨hmode, rfl, hu, hr, [], [], by simp [E, hh], by simp [popT], .nil⟩
  have hst : Sem E false (idPs t0) 0 x := by
    refine ⟨by simpa using hxl, fun hk => (by cases hk), idCo t0, hx, fun k _ => (idCo_idPs t0 k).symm, fun h => absurd h hmd, fun hk => (by cases hk)⟩
  obtain ⟨hat2, -⟩ := hT hE rfl hst false true [] [] st hat z st' h
  refine ⟨hat2.record, ?_⟩
  obtain ⟨U, P', hh, hU, hP⟩ := hat2.inv
  cases hU
  rw [hh]
  simpa [pushT, E] using hP

/-! ## `pow(div_tn(x, 1), power) * g(x)` -/

theorem one_sem (hN : 1 ≤ N) (hxl : x.length = N + 1) (hx : Contains x (idCo t0)) {z : Ode.Ser} (h : (letI := scalI fuel; divTn x 1) = .ok z)
    {E : letI := semI fuel; Env (Interval D)} (hs : E.s = N + 1) : letI := semI fuel; Sem E false 1 1 z := by
  let _ := semI fuel
  unfold divTn at h
  rw [if_neg (by omega)] at h
  cases h
  refine ⟨?_, fun hk => (by cases hk), fun i => if i = 0 then 1 else 0, ?_, fun i _ => by rw [PowerSeries.coeff_one], fun _ => ?_, fun hk => (by cases hk)⟩
  · simp [hxl, hs]
  · intro i A hA
    show (if i = 0 then (1 : ℝ) else 0) ∈ A
    by_cases hi : i < N
    · rw [List.getElem?_append_left (by simp [hxl]; omega), List.getElem?_drop] at hA
      have := hx _ A hA
      simp only [Int.toNat_one, idCo] at this
      match i with
      | 0 => simpa [idCo] using this
      | i + 1 =>
        rw [show 1 + (i + 1) = i + 2 by ring] at this
        simpa [idCo] using this
    · rw [List.getElem?_append_right (by simp [hxl]; omega)] at hA
      have hA' := List.mem_of_getElem? hA
      simp at hA'
      rw [if_neg (by omega), hA']
      exact mem_lit0 (fuel := fuel)
  · rw [hs, Finset.sum_range_succ', Finset.sum_eq_zero (fun k _ => by simp)]
    simp

theorem exists_traceP {g : Expr 1} (hg : Fun g ρ t0) (hp : ∀ i, ρ i ∈ p i) (hN : 1 ≤ N) {power : Interval D} {π : ℝ} (hπ : π ∈ power) :
    ∃ T c, ∀ x : Ode.Ser, x.length = N + 1 → Contains x (idCo t0) →
      IsTraceM fuel N t0 false c (fn g ρ) (Smooth g ρ) T (letI := scalI fuel; powerTerm fnX g p x power 1) x := by
  let _ := semI fuel
  obtain ⟨T, hT⟩ := Expr.evalP_spec (S := Interval D) ρ (fun _ => idPs t0) g hg.fin
  refine ⟨fun m => (ctr logD 1 false m ++ ([(C π * cps logD 1, true && false)] ++ ctr expD (C π * cps logD 1) (true && false) m)) ++
    (T m ++ [(powPs 1 (C π) * g.ps ρ (fun _ => idPs t0), (true && false) && g.isC)]), powPs 1 (C π) * g.ps ρ (fun _ => idPs t0),
    fun x hxl hx {E} hE hs {v} hxs => ?_⟩
  have h1 := hT hE (p := p) (x := fun _ => x) (v := fun _ => v) hp (fun _ => hxs) (fun _ => hg.noInv) (by
    have : (E.s < 2) = False := eq_false fun h => by omega
    rw [this]; simpa only [coeff_idPs] using hg.ldom)
  simp only [coeff_idPs] at h1
  show OpT E _ _ _ _ _ (PM.lift (divTn x 1) >>= fun y => Psa.pow y [power] >>= fun y => evalE g p x >>= fun z => Psa.mul y z)
  refine OpT.bind_lift fun z hz => ?_
  have h2 := pow_spec hE (one_sem (fuel := fuel) hN hxl hx hz hs) (sem_const hE hπ) (fun h => by
    rw [PowerSeries.coeff_one]; norm_num)
  refine OpT.bind h2 fun y hy _ => OpT.bind h1 fun w hw hX => ?_
  refine ((Op1.opT (mul_spec hE hy hw)).congr rfl (by simp) rfl ?_).imp fun _ => hX
  rw [Real.log_one, mul_zero, Real.exp_zero, one_mul]
  rfl

/-! ## the loop -/

theorem resizeS_nn {pw : D → D → D} (hp : Ode.PwOk pw) {e epsilon radius : D} {restart : ℕ} {z : Interval D} {r : ℝ}
    (hr : NN radius) (he : NN epsilon) (hz : r ∈ z) : NN (resizeS pw e epsilon radius restart z) := by
  unfold resizeS
  dsimp only
  have := hp _ e ((rad_nn hz).div he)
  split_ifs
  · exact hr.div (NN.stdMax' (NN.lit (by norm_num)))
  · exact hr.div this

theorem resizeS_nan {pw : D → D → D} {e epsilon radius : D} {restart : ℕ} {z : Interval D} (h : RopSem.nan radius) :
    RopSem.nan (resizeS pw e epsilon radius restart z) := by
  unfold resizeS
  dsimp only
  split_ifs <;> exact Ode.nan_div h

theorem singLoop_nan [Scal (Interval D)] {α : Type} {start stop : Interval D} {attempt : Interval D → PM (Interval D) α}
    {finish : Interval D → α → Res (Interval D)} {resize : D → ℕ → Interval D → D}
    (hrs : ∀ {r : D} {k z}, RopSem.nan r → RopSem.nan (resize r k z)) :
    ∀ (k : ℕ) {radius : D} {restart : ℕ} {resized : Bool} {st st' : PSt (Interval D)} {r : Interval D × Bool × Interval D},
    RopSem.nan radius → singLoop start stop attempt finish resize k radius restart resized st = (.ok r, st') → r.2.1 = false ∧ IsNan r.2.2
  | 0, radius, restart, resized, st, st', r, _, h => by cases (lift_run h).1
  | k + 1, radius, restart, resized, st, st', r, hn, h => by
    unfold singLoop at h
    generalize hc : choose start stop radius resized = c at h
    obtain ⟨c1, c2⟩ := choose_nan hn hc
    obtain ⟨_, s1, h1, h2⟩ := bind_run h
    cases h1
    obtain ⟨o, s2, h3, h4⟩ := bind_run h2
    cases o with
    | some y =>
      obtain ⟨A, s4, a1, a2⟩ := bind_run h4
      split_ifs at a2
      · obtain ⟨rfl, rfl⟩ := pure_run a2
        exact c2
      · exact singLoop_nan hrs k (hrs c1) a2
    | none =>
      dsimp only at h4
      split_ifs at h4 with hr
      · obtain ⟨_, s3, e1, e2⟩ := bind_run h4
        exact singLoop_nan hrs k (Ode.nan_mul c1) e2
      · cases (lift_run h4).1

/-- the loop with an invariant `I` of the static members; `Q t z`: `z` is a good result for a step to `t` -/
theorem singLoop_spec [Scal (Interval D)] {α : Type} {start stop : Interval D} {attempt : Interval D → PM (Interval D) α}
    {finish : Interval D → α → Res (Interval D)} {resize : D → ℕ → Interval D → D} {L : ℝ} (hM : Scale L) (ha : a ∈ start) (htm : TOk L start)
    (hsm : In L stop) {I : PSt (Interval D) → Prop} {Q : ℝ → Interval D → Prop}
    (hI : ∀ st d, I st → I { st with domain := d })
    (hstep : ∀ {step st st' y z}, I st → st.domain = Interval.sHull (lit 0) step → (0 : ℝ) ∈ st.domain → attempt step st = (.ok y, st') →
      finish step y = .ok z → I st' ∧ ∀ t1, t1 - a ∈ step → Q t1 z ∧ ∃ r : ℝ, r ∈ z)
    (hthrow : ∀ {step st st' e}, I st → attempt step st = (.error e, st') → I { st' with use := false })
    (hrs : ∀ {r : D} {k z} {x : ℝ}, NN r → x ∈ z → NN (resize r k z)) (hrn : ∀ {r : D} {k z}, RopSem.nan r → RopSem.nan (resize r k z)) :
    ∀ (k : ℕ) {radius : D} {restart : ℕ} {resized : Bool} {st st' : PSt (Interval D)} {r : Interval D × Bool × Interval D},
    I st → NN radius → singLoop start stop attempt finish resize k radius restart resized st = (.ok r, st') →
    ((r.2.1 = true ∧ r.2.2 = stop) ∨ (r.2.1 = false ∧ (IsNan r.2.2 ∨ (In (4 * L) r.2.2 ∧ r.2.2.inf = r.2.2.sup)))) ∧
      ∀ t1 ∈ r.2.2, Q t1 r.1
  | 0, radius, restart, resized, st, st', r, _, _, h => by cases (lift_run h).1
  | k + 1, radius, restart, resized, st, st', r, hist, hr, h => by
    by_cases hn : RopSem.nan radius
    · obtain ⟨g1, g2⟩ := singLoop_nan hrn (k + 1) hn h
      refine ⟨Or.inr ⟨g1, Or.inl g2⟩, fun t1 h1 => ?_⟩
      rw [g2] at h1
      exact absurd nan_dNaN h1.1.1
    unfold singLoop at h
    generalize hc : choose start stop radius resized = c at h
    have c1 := choose_step hc
    obtain ⟨⟨c2, c3⟩, c4⟩ := choose_good hM htm hsm hr hn hc
    have c5 : ∃ τ, τ ∈ c.t1 := by
      rcases c4 with ⟨-, e⟩ | ⟨-, e, -⟩
      · rw [e]; exact in_mem hsm
      · exact in_mem e
    obtain ⟨τ1, hτ1⟩ := c5
    have hdom : ∀ t1 ∈ c.t1, t1 - a ∈ c.step := fun t1 ht1 => by rw [c1]; exact Interval.sub_mem ht1 ha
    have h0 := (sHull_mem (hdom τ1 hτ1)).1
    obtain ⟨_, s1, h1, h2⟩ := bind_run h
    cases h1
    obtain ⟨o, s2, h3, h4⟩ := bind_run h2
    rcases tryDom_run h3 with ⟨y, rfl, hy⟩ | ⟨rfl, hy⟩
    · obtain ⟨A, s4, a1, a2⟩ := bind_run h4
      obtain ⟨a3, rfl⟩ := lift_run a1
      obtain ⟨m1, m2⟩ := hstep (hI st _ hist) rfl h0 hy a3
      split_ifs at a2 with hres
      · obtain ⟨rfl, rfl⟩ := pure_run a2
        exact ⟨c4.imp id fun h => ⟨h.1, Or.inr h.2⟩, fun t1 ht1 => (m2 t1 (hdom t1 ht1)).1⟩
      · obtain ⟨-, x, hx⟩ := m2 τ1 (hdom τ1 hτ1)
        exact singLoop_spec hM ha htm hsm hI hstep hthrow hrs hrn k m1 (hrs c2 hx) a2
    · dsimp only at h4
      split_ifs at h4 with hr
      · obtain ⟨_, s3, e1, e2⟩ := bind_run h4
        cases e1
        exact singLoop_spec hM ha htm hsm hI hstep hthrow hrs hrn k (hthrow (hI st _ hist) hy) (half_nn c2 c3) e2
      · cases (lift_run h4).1

theorem powRadius_nn [Scal (Interval D)] {pw : D → D → D} {power : Interval D} {y : Ode.Ser} : ∀ {i : ℕ} {radius : D} {c : ℕ} {r : D}, NN radius →
    powRadius pw power y i radius c = .ok r → NN r
  | 0, radius, c, r, h0, h => by cases h; exact h0
  | i + 1, radius, c, r, h0, h => by
    unfold powRadius at h
    obtain ⟨m, hm, h⟩ := bind_ok.1 h
    obtain ⟨q, hq, h⟩ := bind_ok.1 h
    have key : ∀ q : D, NN (if Rop.lt radius q then q else radius) := fun q => by
      split_ifs with hlt
      · rw [RopSem.lt_iff] at hlt
        rcases nn_iff.1 h0 with h' | h'
        · exact absurd h' hlt.1
        · exact nn_iff.2 (Or.inr (h'.trans hlt.2.2.le))
      · exact h0
    dsimp only at h
    by_cases h1 : Rop.eq (Interval.mig q) (lit 0) = true
    · rw [if_pos h1] at h; exact powRadius_nn h0 h
    · rw [if_neg h1] at h
      by_cases h2 : c + 1 = 2
      · rw [if_pos h2] at h; cases h; exact key _
      · rw [if_neg h2] at h; exact powRadius_nn (key _) h

theorem keeps_powerTerm {f g : Expr 1} {p : ℕ → Interval D} {x : Ode.Ser} {power : Interval D} {mult : ℤ} [Scal (Interval D)] :
    KeepsMode (powerTerm f g p x power mult) :=
  KeepsMode.bind (Expr.keeps_evalP _ _ _) fun _ => KeepsMode.bind (KeepsMode.lift _) fun _ => KeepsMode.bind (keeps_pow _ _) fun _ =>
    KeepsMode.bind (Expr.keeps_evalP _ _ _) fun _ => keeps_mul _ _

/-- `defint_power_autostep`, up to the equation between the integrands -/
theorem powerAuto_core {rest : Integrand} {g : Expr 1} {ρ' : ℕ → ℝ} (hg : Fun g ρ a) (hp : ∀ i, ρ i ∈ p i) (hd : Data rest ρ')
    (hl : rest.f.LDom False ρ' fun _ => a) (hN : 1 ≤ N) (hN' : N + 1 < 2 ^ 31) {L : ℝ} (hM : Scale L)
    {start stop power Z : Interval D} {b π : ℝ} (ha : a ∈ start) (hb : b ∈ stop) (htm : In L start) (hsm : In L stop)
    (hπ : π ∈ power) (hω : -1 < π) (hpw : Ode.PwOk rest.pw) {epsilon : D} (heps : NN epsilon) {st st' : PSt (Interval D)}
    (h : (letI := scalI fuel; defintPowerAuto fuel rest g p start stop N power epsilon) st = (.ok Z, st')) :
    ∃ τ, a ≤ τ ∧ (∀ y ∈ Set.Icc a τ, Smooth g ρ y) ∧ IntervalIntegrable (fun t => t ^ π * fn g ρ (a + t)) volume 0 (τ - a) ∧
      ((τ = b ∧ (∫ t in (0 : ℝ)..τ - a, t ^ π * fn g ρ (a + t)) ∈ Z) ∨
        ((∀ y ∈ Set.uIcc τ b, Smooth rest.f ρ' y) ∧ (∫ t in (0 : ℝ)..τ - a, t ^ π * fn g ρ (a + t)) + (∫ y in τ..b, fn rest.f ρ' y) ∈ Z)) := by
  let _ := semI fuel
  change defintPowerAuto fuel rest g p start stop N power epsilon st = (.ok Z, st') at h
  unfold defintPowerAuto defintPower3Auto autoFrame at h
  rw [get_bind] at h
  obtain ⟨_, s1, h1, h⟩ := bind_run h
  cases h1
  obtain ⟨_, s1, h1, h⟩ := bind_run h
  cases h1
  obtain ⟨⟨radius, attempt⟩, s2, h2, h⟩ := bind_run h
  obtain ⟨x, s3, h3, k2⟩ := bind_run h2
  obtain ⟨e3, hxl, hx⟩ := startAt_spec (fuel := fuel) hN ha h3
  rw [e3] at k2
  obtain ⟨_, s4, h4, k3⟩ := bind_run k2
  clear h2 k2 h3 e3
  cases h4
  obtain ⟨y, s5, h5, k4⟩ := bind_run (m := powerTerm fnX g p x power 1) (show _ = _ from k3)
  obtain ⟨y', s6, h6, k5⟩ := bind_run (m := Psa.setorder y N) (show _ = _ from k4)
  have e6 := setorder_st h6
  rw [e6] at k5
  obtain ⟨r, s7, h7, k6⟩ := bind_run k5
  obtain ⟨h7', e7⟩ := lift_run h7
  rw [e7] at k6
  obtain ⟨hra, e2⟩ := pure_run k6
  clear k3 k4 k5 k6 h6 e6 h7 e7
  rw [e2] at h
  clear e2
  obtain ⟨hr1, hr2⟩ := Prod.mk.inj hra
  clear hra
  obtain ⟨T, cc, hT⟩ := exists_traceP (fuel := fuel) hg hp hN hπ
  replace hT : IsTraceM fuel N a false cc (fn g ρ) (Smooth g ρ) T (powerTerm fnX g p x power 1) x := hT x hxl hx
  obtain ⟨e1, e2⟩ := evalM1 hT hN hN' rfl rfl rfl rfl hxl hx h5
  have hrad : NN radius := by
    rw [hr1]
    exact (hpw _ _ heps).div (powRadius_nn (NN.lit (le_refl 0)) h7')
  obtain ⟨_, s1, h1, h⟩ := bind_run h
  cases h1
  obtain ⟨_, s1, h1, h⟩ := bind_run h
  cases h1
  obtain ⟨⟨res, flag, t1⟩, s8, h8, h⟩ := bind_run h
  obtain ⟨_, s1, h1, h⟩ := bind_run h
  cases h1
  obtain ⟨_, s1, h1, h⟩ := bind_run h
  cases h1
  obtain ⟨_, s1, h1, h⟩ := bind_run h
  cases h1
  dsimp only at h
  subst hr2
  obtain ⟨f1, f2⟩ := singLoop_spec (a := a) hM ha (Or.inl htm) hsm
    (I := fun st => st.mode = 2 ∧ ∃ m, 1 ≤ m ∧ m ≤ N + 1 ∧ HistOk fuel T m st)
    (Q := fun τ z => a ≤ τ ∧ (∀ y ∈ Set.Icc a τ, Smooth g ρ y) ∧ IntervalIntegrable (fun t => t ^ π * fn g ρ (a + t)) volume 0 (τ - a) ∧
      (∫ t in (0 : ℝ)..τ - a, t ^ π * fn g ρ (a + t)) ∈ z)
    (fun st d hI => hI)
    (fun {step st st' y z} hI hdm h0 hat hfin => by
      obtain ⟨i1, m, i2, i3, i4⟩ := hI
      obtain ⟨⟨j1, j2⟩, j3, j4⟩ := evalM2 hT hN hN' i2 i3 i1 h0 i4 hxl hx hat
      refine ⟨⟨j1, N, hN, by omega, j2⟩, fun τ hτ => ?_⟩
      have hτ0 := powerResult_nonneg hτ hfin
      have hdd : ∀ t, 0 ≤ t → t ≤ τ - a → t ∈ st.domain := fun t k0 k1 => by
        rw [hdm]
        obtain ⟨q0, q1⟩ := sHull_mem hτ
        exact convI fuel _ 0 (τ - a) t q0 q1 (by rw [Set.mem_uIcc]; exact Or.inl ⟨k0, k1⟩)
      have hsm : ∀ t, 0 ≤ t → t ≤ τ - a → Smooth g ρ (a + t) := fun t k0 k1 => j4 t (hdd t k0 k1)
      obtain ⟨g1, g2, g3⟩ := powerResult_integral (fuel := fuel) hτ hπ hω (φ := fun t => fn g ρ (a + t)) (fun t k0 k1 =>
        ContinuousAt.comp (f := fun t : ℝ => a + t) (hsm t k0 k1).continuousAt (by fun_prop)) hdd j3 h0 hfin
      refine ⟨⟨by linarith, fun y hy => ?_, g2, g3⟩, _, g3⟩
      have := hsm (y - a) (by linarith [hy.1]) (by linarith [hy.2])
      rwa [add_sub_cancel] at this)
    (fun {step st st' e} hI hat => by
      refine ⟨?_, N, hN, by omega, Or.inl rfl⟩
      have := (keeps_powerTerm (f := fnX) (g := g) (p := p) (x := x) (power := power) (mult := 1)).run st
      rw [hat] at this
      exact this.trans hI.1)
    (fun {r k z x} hr hx => resizeS_nn hpw hr heps hx) (fun {r k z} hr => resizeS_nan hr) 12
    (st := { s5 with mode := 2, use := true }) ⟨rfl, N + 1, by omega, le_refl _, Or.inr ⟨rfl, e1, e2⟩⟩ hrad h8
  dsimp only at f1 f2
  rcases f1 with ⟨rfl, rfl⟩ | ⟨rfl, f1⟩
  · rw [if_pos rfl] at h
    obtain ⟨rfl, rfl⟩ := pure_run h
    obtain ⟨q1, q2, q3, q4⟩ := f2 b hb
    exact ⟨b, q1, q2, q3, Or.inl ⟨rfl, q4⟩⟩
  · rw [if_neg Bool.false_ne_true] at h
    obtain ⟨R, s9, h9, h⟩ := bind_run h
    obtain ⟨rfl, rfl⟩ := pure_run h
    unfold defintAutostep at h9
    rw [get_bind] at h9
    obtain ⟨_, s1, h1, h9⟩ := bind_run h9
    cases h1
    obtain ⟨_, s1, h1, h9⟩ := bind_run h9
    cases h1
    obtain ⟨x', s2, h3, h4⟩ := bind_run (m := startSeries N) (show _ = _ from h9)
    obtain ⟨rfl, hxl', hx'⟩ := startSeries_spec (fuel := fuel) hN h3
    obtain ⟨R', s3, h5, g3⟩ := bind_run h4
    obtain ⟨_, s4, h6, g4⟩ := bind_run g3
    obtain ⟨_, s5, h7, g5⟩ := bind_run g4
    obtain ⟨_, s6, h8, g6⟩ := bind_run g5
    obtain ⟨rfl, -⟩ := pure_run g6
    rcases f1 with f1 | f1
    · exact absurd h5 (autoLoop_nan fuel f1)
    · obtain ⟨τ, hτ⟩ := in_mem f1.1
      obtain ⟨q1, q2, q3, q4⟩ := f2 τ hτ
      obtain ⟨e1, e2⟩ := autoLoop_spec hd hpw hM hN hN' hb hsm heps fuel (a := τ) hτ (Or.inr f1) hxl' hx' hl.move
        (fun y hy hne => absurd (by simpa using hy) hne) (by simp) (Interval.mem_zero (by simp)) h5
      exact ⟨τ, q1, q2, q3, Or.inr ⟨e1, Interval.add_mem q4 e2⟩⟩

end Defint
end Kv
