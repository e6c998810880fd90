import Verif.Ode.Tube
import Verif.Ode.Radius
import Verif.Ode.ModeInv

/-! # The main loop of `ode` -/

namespace Kv
open PowerSeries Psa PM Kraw RopSem
open Rop (lit)
set_option linter.unusedVariables false

namespace Ode
variable {n : ℕ}

section
variable {P : Problem n} {q : Param}

/-! ## the step size -/

/-- `std::pow` of something not negative is not negative -/
def PwOk (pw : D → D → D) : Prop := ∀ a b, NN a → NN (pw a b)

theorem maxOver_nn {m r : D} {g : Fin n → Res D} (hm : NN m) (h : maxOver m g = .ok r) : NN r := by
  unfold maxOver at h
  have key : ∀ (l : List (Res D)) (m : Res D), (∀ a, m = .ok a → NN a) → ∀ r, l.foldl (fun m r => do .ok (stdMax (← m) (← r))) m = .ok r → NN r := by
    intro l
    induction l with
    | nil => intro m hm r h; exact hm r h
    | cons a l ih =>
      intro m hm r h
      refine ih _ (fun b hb => ?_) r h
      obtain ⟨c, hc, hb⟩ := bind_ok.1 hb
      obtain ⟨d, hd, hb⟩ := bind_ok.1 hb
      cases hb
      exact NN.stdMax' (hm c hc)
  exact key _ _ (fun a ha => by cases ha; exact hm) r h

theorem tolerance_nn (he : NN q.epsilon) {r : D} (h : tolerance P q = .ok r) : NN r := by
  obtain ⟨m, hm, h⟩ := bind_ok.1 h
  cases h
  exact (maxOver_nn (NN.lit (by norm_num)) hm).mul he

theorem radiusLoop_nn [Scal (Interval D)] (hp : PwOk P.pw) {x : Fin n → Ser} : ∀ {j : ℕ} {radius : D} {c : ℕ} {r : D}, NN radius →
    radiusLoop P x j radius c = .ok r → NN r
  | 0, radius, c, r, h0, h => by cases h; exact h0
  | j + 1, radius, c, r, h0, h => by
    unfold radiusLoop at h
    obtain ⟨m, hm, h⟩ := bind_ok.1 h
    have hm := maxOver_nn (NN.lit (le_refl 0)) hm
    split_ifs at h
    · exact radiusLoop_nn hp h0 h
    · cases h; exact NN.stdMax h0 (hp _ _ hm)
    · exact radiusLoop_nn hp (NN.stdMax h0 (hp _ _ hm)) h

theorem radius0_nn [Scal (Interval D)] (hp : PwOk P.pw) (he : NN q.epsilon) {x : Fin n → Ser} {r : D} (h : radius0 P q x = .ok r) : NN r := by
  unfold radius0 at h
  split_ifs at h
  · obtain ⟨a, ha, h⟩ := bind_ok.1 h
    obtain ⟨b, hb, h⟩ := bind_ok.1 h
    cases h
    exact (hp _ _ (tolerance_nn he hb)).div (radiusLoop_nn hp (NN.lit (le_refl 0)) ha)
  · cases h; exact NN.lit (le_refl 0)

theorem nan_mul {a b : D} (h : nan a) : nan (Rop.mul a b) := by
  obtain rfl : a = dNaN := h
  rfl

theorem nan_div {a b : D} (h : nan a) : nan (Rop.div a b) := by
  obtain rfl : a = dNaN := h
  rfl

theorem resize_nn [Scal (Interval D)] (hp : PwOk P.pw) (he : NN q.epsilon) {z : Fin n → Ser} {d : Interval D} {radius r : D}
    (h : resizeRadius P q z d radius = .ok r) : (NN radius → NN r) ∧ (nan radius → nan r) := by
  unfold resizeRadius at h
  obtain ⟨m, hm, h⟩ := bind_ok.1 h
  obtain ⟨b, hb, h⟩ := bind_ok.1 h
  cases h
  exact ⟨fun hr => hr.div (hp _ _ ((maxOver_nn (NN.lit (by positivity)) hm).div (tolerance_nn he hb))), nan_div⟩

/-- the result of a pass: a new step size, or the data of this step -/
def NextOk (P : Problem n) (q : Param) (radius : D) (deltat end2 : Interval D) (ret : ℤ) (t : Ser) : Next n → Prop
  | .again r _ _ => q.autostep = true ∧ (PwOk P.pw → NN q.epsilon → (NN radius → NN r) ∧ (nan radius → nan r))
  | .done ret' _ deltat' end2' t' => (ret' = ret ∨ ret' = 0) ∧ deltat' = deltat ∧ end2' = end2 ∧ t' = t

theorem verifyStep_next [Scal (Interval D)] {z : Fin n → Ser} {t : Ser} {deltat end2 : Interval D} {ret : ℤ} {radius : D} {k : ℕ} {b : Bool}
    {st st' : PSt (Interval D)} {o : Next n} (h : verifyStep P q z t deltat end2 ret radius k b st = (.ok o, st')) :
    NextOk P q radius deltat end2 ret t o := by
  unfold verifyStep at h
  obtain ⟨y, s1, -, h1⟩ := bind_run h
  obtain ⟨w, s2, -, h2⟩ := bind_run h1
  obtain ⟨fl, s3, -, h3⟩ := bind_run h2
  split_ifs at h3 with hf ha
  · obtain ⟨rfl, -⟩ := pure_run h3; exact ⟨Or.inl rfl, rfl, rfl, rfl⟩
  · obtain ⟨rfl, -⟩ := pure_run h3; exact ⟨Or.inr rfl, rfl, rfl, rfl⟩
  · obtain ⟨r, s4, -, h4⟩ := bind_run h3
    obtain ⟨rfl, -⟩ := pure_run h4
    refine ⟨by cases hq : q.autostep <;> simp_all, fun _ _ => ⟨fun hr => hr.mul ?_, nan_mul⟩⟩
    by_cases hr : NN r
    · exact NN.stdMax (NN.stdMin (NN.lit (by norm_num)) ((NN.lit (by norm_num)).div hr)) (NN.lit (by norm_num))
    · unfold Kraw.stdMax
      split_ifs with h8
      · exact NN.lit (by norm_num)
      · have e : Is (lit (1 / 8) : D) (1 / 8) := by
          have := Interval.is_cst (q := 1 / 8) 1 (-3) (by decide) (by decide) (by decide) (by norm_num)
          simpa using this
        rw [lt_iff] at h8
        push Not at h8
        by_cases hn : nan (stdMin (lit (1 / 2)) (Rop.div (lit (1 / 2)) r))
        · exact nn_iff.2 (Or.inl hn)
        · refine nn_iff.2 (Or.inr (le_trans ?_ (h8 hn e.1)))
          rw [e.2]
          exact_mod_cast (by norm_num : (0 : ℝ) ≤ 1 / 8)

theorem candidate_next [Scal (Interval D)] {x y : Fin n → Ser} {t : Ser} {deltat end2 : Interval D} {ret : ℤ} {radius : D} {k : ℕ} {b : Bool}
    {st st' : PSt (Interval D)} {o : Next n} (h : candidate P q x y t deltat end2 ret radius k b st = (.ok o, st')) :
    NextOk P q radius deltat end2 ret t o := by
  unfold candidate at h
  obtain ⟨w, s1, -, h1⟩ := bind_run h
  obtain ⟨z, s2, -, h2⟩ := bind_run h1
  split_ifs at h2 with ha
  · obtain ⟨r, s3, hr, h3⟩ := bind_run h2
    split_ifs at h3
    · exact verifyStep_next h3
    · obtain ⟨rfl, -⟩ := pure_run h3
      refine ⟨by simp_all, fun hp he => resize_nn hp he (lift_run hr).1⟩
  · exact verifyStep_next h2

end

/-! ## the candidate -/

theorem zero_mem_sMul (s : D) : (0 : ℝ) ∈ Interval.sMul s (⟨lit (-1), lit 1⟩ : Interval D) := by
  have h0 : (0 : ℝ) ∈ (⟨lit (-1), lit 1⟩ : Interval D) := by
    have e1 : Is (lit (-1) : D) (-1) := by
      have := Interval.is_cst (q := -1) (-1) 0 (by decide) (by decide) (by decide) (by norm_num)
      simpa using this
    have e2 := Interval.is_one (T := D)
    refine ⟨⟨e1.1, ?_⟩, e2.1, ?_⟩
    · show val (lit (-1) : D) ≤ _
      rw [e1.2]; exact_mod_cast (by norm_num : (-1 : ℝ) ≤ 0)
    · show _ ≤ val (lit 1 : D)
      rw [e2.2]; exact_mod_cast (zero_le_one : (0 : ℝ) ≤ 1)
  by_cases hi : LA.NoInf s
  · have := LA.sMul_rv_mem hi h0
    rwa [mul_zero] at this
  · have hs : s = dPinf ∨ s = dNinf := by
      unfold LA.NoInf at hi
      by_contra hh
      push Not at hh
      exact hi hh
    have e : Interval.sMul s (⟨lit (-1), lit 1⟩ : Interval D) = ⟨dNinf, dPinf⟩ := by
      rcases hs with rfl | rfl <;> decide +kernel
    rw [e]
    exact ⟨⟨not_nan_dNinf, bot_le⟩, not_nan_dPinf, le_top⟩

theorem included_spec {q : Param} {w z : Fin n → Ser} (h : included q w z = .ok true) (i : Fin n) :
    ∃ a b, (w i)[q.order]? = some a ∧ (z i)[q.order]? = some b ∧ Interval.subset a b = true := by
  unfold included at h
  have key : ∀ (l : List (Res Bool)) (m : Res Bool), l.foldl (fun m r => do .ok ((← m) && (← r))) m = .ok true →
      m = .ok true ∧ ∀ r ∈ l, r = .ok true := by
    intro l
    induction l with
    | nil => intro m h; exact ⟨h, fun r hr => absurd hr (by simp)⟩
    | cons a l ih =>
      intro m h
      obtain ⟨h1, h2⟩ := ih _ h
      obtain ⟨c, hc, hb⟩ := bind_ok.1 h1
      obtain ⟨d, hd, hb⟩ := bind_ok.1 hb
      have hb : (c && d) = true := by injection hb
      rw [Bool.and_eq_true] at hb
      obtain ⟨rfl, rfl⟩ := hb
      exact ⟨hc, fun r hr => by
        rcases List.mem_cons.1 hr with rfl | hr
        · exact hd
        · exact h2 r hr⟩
  obtain ⟨-, h2⟩ := key _ _ h
  have := h2 _ (List.mem_ofFn.2 ⟨i, rfl⟩)
  obtain ⟨a, ha, h⟩ := bind_ok.1 this
  obtain ⟨b, hb, h⟩ := bind_ok.1 h
  exact ⟨a, b, at_ok ha, at_ok hb, by injection h⟩

section
variable {P : Problem n} {q : Param} {ρ : ℕ → ℝ} {x0 : Fin n → ℝ} {t0 : ℝ} {fuel : ℕ}

theorem setAt_ok {x y : Ser} {k : ℕ} {f : Interval D → Res (Interval D)} (h : setAt x k f = .ok y) :
    ∃ a b, x[k]? = some a ∧ f a = .ok b ∧ y = x.set k b := by
  obtain ⟨a, ha, h⟩ := bind_ok.1 h
  obtain ⟨b, hb, h⟩ := bind_ok.1 h
  cases h
  exact ⟨a, b, at_ok ha, hb, rfl⟩

/-- replacing the last coefficient -/
theorem SerOk.set {N : ℕ} {x y : Fin n → Ser} (hx : SerOk P ρ x0 t0 N x)
    (h : ∀ i, ∃ b, y i = (x i).set N b ∧ coeff N (fsol P.f ρ x0 t0 i) ∈ b) : SerOk P ρ x0 t0 N y := by
  refine ⟨fun i => ?_, fun i k A hA => ?_⟩
  · obtain ⟨b, hb, -⟩ := h i
    rw [hb, List.length_set]; exact hx.len i
  · obtain ⟨b, hb, hm⟩ := h i
    rw [hb, List.getElem?_set] at hA
    split_ifs at hA with h1 h2
    · cases hA; subst h1; exact hm
    · exact hx.con i k A hA

theorem widen_spec {x w z : Fin n → Ser} {st st' : PSt (Interval D)} (hx : SerOk P ρ x0 t0 q.order x)
    (h : widen q w x st = (.ok z, st')) : st' = st ∧ SerOk P ρ x0 t0 q.order z := by
  unfold widen at h
  obtain ⟨s, s1, h1, h2⟩ := bind_run h
  obtain ⟨rfl, -⟩ := vec_lift h1
  obtain ⟨rfl, h3⟩ := vec_lift h2
  refine ⟨rfl, hx.set fun i => ?_⟩
  obtain ⟨a, b, ha, hb, e⟩ := setAt_ok (h3 i)
  cases hb
  refine ⟨_, e, ?_⟩
  have := Interval.add_mem (hx.con i _ a ha) (zero_mem_sMul (makeCandidate s i))
  rwa [add_zero] at this

/-! ## tubes -/

theorem InTube.mono {N : ℕ} {w z : Fin n → Ser} (h : ∀ i a, (w i)[N]? = some a → ∃ b, (z i)[N]? = some b ∧ ∀ r : ℝ, r ∈ a → r ∈ b)
    {τ : ℝ} {v : Fin n → ℝ} (hv : InTube P ρ x0 t0 N w τ v) : InTube P ρ x0 t0 N z τ v := by
  intro i
  obtain ⟨r, A, h1, h2, h3⟩ := hv i
  obtain ⟨b, hb, hs⟩ := h i A h1
  exact ⟨r, b, hb, hs r h2, h3⟩

theorem Maps.mono {N : ℕ} {T : ℝ} {z w w' : Fin n → Ser} (h : Maps P ρ x0 t0 N T z w)
    (hs : ∀ i a, (w' i)[N]? = some a → ∃ b, (z i)[N]? = some b ∧ ∀ r : ℝ, r ∈ a → r ∈ b) : Maps P ρ x0 t0 N T w' w :=
  ⟨fun τ hτ v hv => h.smooth τ hτ v (hv.mono hs), fun v Q hv => h.maps v Q fun τ hτ => (hv τ hτ).mono hs⟩

/-- verification: the series returned with a nonzero value are mapped to themselves -/
theorem verifyStep_spec (hd : Data P ρ x0 t0) {T} (hT : EvalSpec fuel P ρ x0 t0 T) (hN : 1 ≤ q.order) (hN' : q.order + 1 < 2 ^ 31)
    {s0 s1 : PSt (Interval D)} {z : Fin n → Ser} {t : Ser} {deltat end2 : Interval D} {ret : ℤ} {radius : D} {k : ℕ} {b : Bool} {o : Next n}
    (hmode : s0.mode = 2) (h0 : (0 : ℝ) ∈ s0.domain) (hist : HistOk fuel T q.order s0)
    (hz : SerOk P ρ x0 t0 q.order z) (htl : t.length = q.order + 1) (ht : Contains t (idCo t0))
    (h : (letI := scalI fuel; verifyStep P q z t deltat end2 ret radius k b) s0 = (.ok o, s1)) :
    (s1.mode = 2 ∧ s1.domain = s0.domain ∧ HistOk fuel T q.order s1) ∧ ∀ ret' w d' e' t', o = .done ret' w d' e' t' → ret' ≠ 0 →
      SerOk P ρ x0 t0 q.order w ∧ ∀ τe, (∀ τ ∈ Set.Icc 0 τe, τ ∈ s0.domain) → Maps P ρ x0 t0 q.order τe w w := by
  let _ := scalI fuel
  unfold verifyStep at h
  obtain ⟨y, sa, ha, h1⟩ := bind_run h
  obtain ⟨w, sb, hb, h2⟩ := bind_run h1
  obtain ⟨fl, sc, hcl, h3⟩ := bind_run h2
  obtain ⟨hc, rfl⟩ := lift_run hcl
  obtain ⟨hst, hw, -⟩ := picard_step hd hT hN hN' (τe := -1) hmode (fun τ hτ => by have h1 := hτ.1; have h2 := hτ.2; linarith) h0 hist hz htl ht ha hb
  split_ifs at h3 with hf hq
  · obtain ⟨rfl, rfl⟩ := pure_run h3
    subst hf
    refine ⟨hst, fun ret' w' d' e' t' he hr => ?_⟩
    cases he
    refine ⟨hw, fun τe hτ => ?_⟩
    obtain ⟨-, -, hm⟩ := picard_step hd hT hN hN' hmode hτ h0 hist hz htl ht ha hb
    refine hm.mono fun i a ha => ?_
    obtain ⟨a', b', e1, e2, e3⟩ := included_spec hc i
    rw [ha] at e1; cases e1
    exact ⟨b', e2, fun r hr => subset_sub e3 hr⟩
  · obtain ⟨rfl, rfl⟩ := pure_run h3
    exact ⟨hst, fun ret' w' d' e' t' he hr => by cases he; exact absurd rfl hr⟩
  · obtain ⟨r, sd, hd', h4⟩ := bind_run h3
    obtain ⟨-, rfl⟩ := lift_run hd'
    obtain ⟨rfl, rfl⟩ := pure_run h4
    exact ⟨hst, fun ret' w' d' e' t' he hr => by cases he⟩

theorem candidate_spec (hd : Data P ρ x0 t0) {T} (hT : EvalSpec fuel P ρ x0 t0 T) (hN : 1 ≤ q.order) (hN' : q.order + 1 < 2 ^ 31)
    {s0 s1 : PSt (Interval D)} {x y : Fin n → Ser} {t : Ser} {deltat end2 : Interval D} {ret : ℤ} {radius : D} {k : ℕ} {b : Bool} {o : Next n}
    (hmode : s0.mode = 2) (h0 : (0 : ℝ) ∈ s0.domain) (hist : HistOk fuel T q.order s0)
    (hx : SerOk P ρ x0 t0 q.order x) (hy : ∀ i, (y i).length = q.order + 1 ∨ (y i).length = 1)
    (htl : t.length = q.order + 1) (ht : Contains t (idCo t0))
    (h : (letI := scalI fuel; candidate P q x y t deltat end2 ret radius k b) s0 = (.ok o, s1)) :
    (s1.mode = 2 ∧ s1.domain = s0.domain ∧ HistOk fuel T q.order s1) ∧ ∀ ret' w d' e' t', o = .done ret' w d' e' t' → ret' ≠ 0 →
      SerOk P ρ x0 t0 q.order w ∧ ∀ τe, (∀ τ ∈ Set.Icc 0 τe, τ ∈ s0.domain) → Maps P ρ x0 t0 q.order τe w w := by
  let _ := scalI fuel
  unfold candidate at h
  obtain ⟨w, sa, ha, h1⟩ := bind_run h
  obtain ⟨rfl, -⟩ := update2 hd hN hN' hmode hy ha
  obtain ⟨z, sb, hb, h2⟩ := bind_run h1
  obtain ⟨rfl, hz⟩ := widen_spec hx hb
  split_ifs at h2 with hc
  · obtain ⟨r, sc, hr, h3⟩ := bind_run h2
    obtain ⟨-, rfl⟩ := lift_run hr
    split_ifs at h3
    · exact verifyStep_spec hd hT hN hN' hmode h0 hist hz htl ht h3
    · obtain ⟨rfl, rfl⟩ := pure_run h3
      exact ⟨⟨hmode, rfl, hist⟩, fun ret' w' d' e' t' he hr => by cases he⟩
  · exact verifyStep_spec hd hT hN hN' hmode h0 hist hz htl ht h2

/-- what is known when the loop is left -/
structure Done (fuel : ℕ) (P : Problem n) (N : ℕ) (ρ : ℕ → ℝ) (x0 : Fin n → ℝ) (t0 : ℝ) (T : ℕ → List (PowerSeries ℝ × Bool)) (o : Out n)
    (st : PSt (Interval D)) (t1 : ℝ) : Prop where
  mode : st.mode = 2
  hist : HistOk fuel T N st
  dom : ∀ τ ∈ Set.Icc 0 (t1 - t0), τ ∈ st.domain
  delta : t1 - t0 ∈ o.deltat
  tlen : o.t.length = N + 1
  tcon : Contains o.t (idCo t0)
  ser : SerOk P ρ x0 t0 N o.w
  maps : Maps P ρ x0 t0 N (t1 - t0) o.w o.w

/-- the end of the step given the return value -/
def stopOf (P : Problem n) (ret : ℤ) (end2 : Interval D) : Interval D := if ret = 1 then end2 else P.stop

theorem chooseEnd_stop {radius radius' : D} {end2 : Interval D} {ret : ℤ} (h : chooseEnd P q radius = (end2, radius', ret)) :
    stopOf P ret end2 = end2 ∧ (q.autostep = false → ret = 2) := by
  unfold chooseEnd at h
  dsimp only at h
  split_ifs at h with ha hc
  · simp only [Prod.mk.injEq] at h; obtain ⟨rfl, -, rfl⟩ := h; exact ⟨rfl, fun _ => rfl⟩
  · simp only [Prod.mk.injEq] at h; obtain ⟨rfl, -, rfl⟩ := h; exact ⟨rfl, fun h => absurd ha (by simp [h])⟩
  · simp only [Prod.mk.injEq] at h; obtain ⟨rfl, -, rfl⟩ := h; exact ⟨rfl, fun _ => rfl⟩

theorem attempt_spec (hd : Data P ρ x0 t0) {T} (hT : EvalSpec fuel P ρ x0 t0 T) (hN : 1 ≤ q.order) (hN' : q.order + 1 < 2 ^ 31)
    (hauto : q.autostep = true → Forward P.start P.stop ∧ PwOk P.pw ∧ NN q.epsilon) {s0 s1 : PSt (Interval D)} {x : Fin n → Ser}
    {radius : D} {k : ℕ} {b : Bool} {o : Next n} (hx : SerOk P ρ x0 t0 q.order x) (hr : q.autostep = true → NN radius)
    (hJ : (q.autostep = true ∧ nan radius) ∨ (s0.mode = 2 ∧ HistOk fuel T q.order s0))
    (h : (letI := scalI fuel; attempt P q x radius k b) s0 = (.ok o, s1)) :
    match o with
    | .again r _ _ => q.autostep = true ∧ NN r ∧ (nan r ∨ (s1.mode = 2 ∧ HistOk fuel T q.order s1))
    | .done ret w deltat end2 t => ret ≠ 0 → ∀ t1, t1 ∈ stopOf P ret end2 → t0 ≤ t1 →
      Done fuel P q.order ρ x0 t0 T ⟨ret, w, deltat, end2, t⟩ s1 t1 := by
  let _ := scalI fuel
  unfold attempt at h
  obtain ⟨⟨end2, radius', ret⟩, hce⟩ : ∃ c, c = chooseEnd P q radius := ⟨_, rfl⟩
  rw [← hce] at h
  dsimp only at h
  obtain ⟨u, sa, ha, h1⟩ := bind_run h
  obtain ⟨t, sb, hb, h2⟩ := bind_run h1
  obtain ⟨oy, sc, hc, h3⟩ := bind_run h2
  obtain ⟨hs1, hs2⟩ := chooseEnd_stop hce.symm
  obtain rfl : sa = { s0 with domain := ⟨lit 0, (Interval.sub end2 P.start).sup⟩ } := by cases ha; rfl
  -- the series of the time
  obtain ⟨rfl, htl, ht⟩ : sb = { s0 with domain := ⟨lit 0, (Interval.sub end2 P.start).sup⟩ } ∧ t.length = q.order + 1 ∧ Contains t (idCo t0) := by
    unfold Psa.setorder at hb
    rw [if_neg (by omega)] at hb
    rw [if_pos (by simp [torg]; omega)] at hb
    obtain ⟨rfl, rfl⟩ := pure_run hb
    refine ⟨rfl, by simp [torg]; omega, fun k A hA => ?_⟩
    by_cases hk : k < (torg P).length
    · rw [List.getElem?_append_left hk] at hA
      exact torg_mem hd (fuel := fuel) k A hA
    · rw [List.getElem?_append_right (by omega), List.getElem?_replicate] at hA
      split_ifs at hA
      cases hA
      have : idCo t0 k = 0 := by
        match k, hk with
        | 0, hk => simp [torg] at hk
        | 1, hk => simp [torg] at hk
        | k + 2, _ => rfl
      show idCo t0 k ∈ _
      rw [this]
      exact ScalSem.ofC_mem (S := Interval D) (self := semI fuel) Interval.is_zero
  have hnext : NextOk P q radius' (Interval.sub end2 P.start) end2 ret t o := by
    cases oy with
    | none =>
      dsimp only at h3
      split_ifs at h3 with hq
      · rw [setUse_bind] at h3
        obtain ⟨rfl, -⟩ := pure_run h3
        exact ⟨by simp_all, fun _ _ => ⟨fun h => h.mul (NN.lit (by norm_num)), nan_mul⟩⟩
      · cases (lift_run h3).1
    | some y => exact candidate_next h3
  have hgood : s0.mode = 2 → HistOk fuel T q.order s0 → (0 : ℝ) ∈ (⟨lit 0, (Interval.sub end2 P.start).sup⟩ : Interval D) →
      (s1.mode = 2 ∧ HistOk fuel T q.order s1) ∧ ∀ ret' w d' e' t', o = .done ret' w d' e' t' → ret' ≠ 0 →
      s1.domain = ⟨lit 0, (Interval.sub end2 P.start).sup⟩ ∧ 
      SerOk P ρ x0 t0 q.order w ∧ ∀ τe, (∀ τ ∈ Set.Icc 0 τe, τ ∈ (⟨lit 0, (Interval.sub end2 P.start).sup⟩ : Interval D)) →
        Maps P ρ x0 t0 q.order τe w w := by
    intro hm hh h0
    unfold tryDom at hc
    split at hc
    · next y sd hev =>
      cases hc
      obtain ⟨⟨e1, e2, e3⟩, hlen, -⟩ := evalF2 hd hT hN hN' (st := { s0 with domain := ⟨lit 0, (Interval.sub end2 P.start).sup⟩ }) hm h0 hh hx htl ht hev
      have hdz : (0 : ℝ) ∈ sc.domain := by rw [e2]; exact h0
      obtain ⟨⟨f1, f2, f3⟩, f4⟩ := candidate_spec hd hT hN hN' e1 hdz e3 hx hlen htl ht h3
      refine ⟨⟨f1, f3⟩, fun ret' w d' e' t' he hr => ⟨by rw [f2, e2], ?_⟩⟩
      obtain ⟨g1, g2⟩ := f4 ret' w d' e' t' he hr
      exact ⟨g1, fun τe hτ => g2 τe (by rw [e2]; exact hτ)⟩
    · next sd hev =>
      cases hc
      have hk : (evalF P x t { s0 with domain := ⟨lit 0, (Interval.sub end2 P.start).sup⟩ }).2.mode = 2 := by
        exact ((keeps_vec (fun i => Expr.keeps_evalP P.p (withT x t) (P.f i))).run _).trans hm
      rw [hev] at hk
      dsimp only at h3
      split_ifs at h3 with hq
      · rw [setUse_bind] at h3
        obtain ⟨rfl, rfl⟩ := pure_run h3
        exact ⟨⟨hk, Or.inl rfl⟩, fun ret' w d' e' t' he hr => by cases he⟩
      · cases (lift_run h3).1
    · cases hc
  cases o with
  | again r k' b' =>
    obtain ⟨hq, hn⟩ := hnext
    obtain ⟨hfw, hpw, hep⟩ := hauto hq
    obtain ⟨n1, n2⟩ := hn hpw hep
    by_cases hnan : nan radius
    · obtain ⟨-, c2, -⟩ := chooseEnd_nan hq hnan hce.symm
      exact ⟨hq, n1 (nn_iff.2 (Or.inl c2)), Or.inl (n2 c2)⟩
    · obtain ⟨c1, c2⟩ := chooseEnd_good hq hfw (hr hq) hnan hce.symm
      rcases hJ with hJ | ⟨j1, j2⟩
      · exact absurd hJ.2 hnan
      · exact ⟨hq, n1 c2, Or.inr (hgood j1 j2 c1).1⟩
  | done ret' w d' e' t' =>
    intro hret t1 ht1 hle
    obtain ⟨hn1, rfl, rfl, rfl⟩ := hnext
    rcases hn1 with rfl | hn1
    swap
    · exact absurd hn1 hret
    rw [hs1] at ht1
    have hdm : ∀ τ ∈ Set.Icc 0 (t1 - t0), τ ∈ (⟨lit 0, (Interval.sub e' P.start).sup⟩ : Interval D) := fun τ hτ => domain_sub hd.start ht1 hτ
    rcases hJ with ⟨hq, hJ⟩ | ⟨j1, j2⟩
    · exact absurd (chooseEnd_nan hq hJ hce.symm).1 ht1.1.1
    · obtain ⟨⟨g1, g2⟩, g3⟩ := hgood j1 j2 (hdm 0 ⟨le_refl _, by linarith⟩)
      obtain ⟨g4, g5, g6⟩ := g3 _ _ _ _ _ rfl hret
      exact ⟨g1, g2, by rw [g4]; exact hdm, Interval.sub_mem ht1 hd.start, htl, ht, g5, g6 _ hdm⟩

theorem loop_spec (hd : Data P ρ x0 t0) {T} (hT : EvalSpec fuel P ρ x0 t0 T) (hN : 1 ≤ q.order) (hN' : q.order + 1 < 2 ^ 31)
    (hauto : q.autostep = true → Forward P.start P.stop ∧ PwOk P.pw ∧ NN q.epsilon) {x : Fin n → Ser}
    (hx : SerOk P ρ x0 t0 q.order x) : ∀ {c : ℕ} {s0 s1 : PSt (Interval D)} {radius : D} {k : ℕ} {b : Bool} {o : Out n},
    (q.autostep = true → NN radius) → ((q.autostep = true ∧ nan radius) ∨ (s0.mode = 2 ∧ HistOk fuel T q.order s0)) →
    (letI := scalI fuel; loop P q x c radius k b) s0 = (.ok o, s1) → o.ret ≠ 0 → ∀ t1, t1 ∈ stopOf P o.ret o.end2 → t0 ≤ t1 →
    Done fuel P q.order ρ x0 t0 T o s1 t1
  | 0, s0, s1, radius, k, b, o, hr, hJ, h => by cases (lift_run h).1
  | c + 1, s0, s1, radius, k, b, o, hr, hJ, h => by
    let _ := scalI fuel
    change loop P q x (c + 1) radius k b s0 = _ at h
    unfold loop at h
    obtain ⟨a, sa, ha, h1⟩ := bind_run h
    have := attempt_spec hd hT hN hN' hauto hx hr hJ ha
    cases a with
    | again r k' b' =>
      obtain ⟨a1, a2, a3⟩ := this
      exact loop_spec hd hT hN hN' hauto hx (fun _ => a2) (a3.imp (fun h => ⟨a1, h⟩) id) h1
    | done ret w d e t =>
      obtain ⟨rfl, rfl⟩ := pure_run h1
      exact this

/-- the refinement keeps what is known -/
theorem refine_spec (hd : Data P ρ x0 t0) {T} (hT : EvalSpec fuel P ρ x0 t0 T) (hN : 1 ≤ q.order) (hN' : q.order + 1 < 2 ^ 31)
    {τe : ℝ} (hτe : 0 ≤ τe) {t : Ser} (htl : t.length = q.order + 1) (ht : Contains t (idCo t0)) : ∀ {k : ℕ} {s0 s1 : PSt (Interval D)} {z w : Fin n → Ser},
    s0.mode = 2 → HistOk fuel T q.order s0 → (∀ τ ∈ Set.Icc 0 τe, τ ∈ s0.domain) → SerOk P ρ x0 t0 q.order z →
    Maps P ρ x0 t0 q.order τe z z → (letI := scalI fuel; refine P q t k z) s0 = (.ok w, s1) →
    SerOk P ρ x0 t0 q.order w ∧ Maps P ρ x0 t0 q.order τe w w
  | 0, s0, s1, z, w, hm, hh, hdm, hz, hM, h => by
    obtain ⟨rfl, -⟩ := pure_run h
    exact ⟨hz, hM⟩
  | k + 1, s0, s1, z, w, hm, hh, hdm, hz, hM, h => by
    let _ := scalI fuel
    change refine P q t (k + 1) z s0 = _ at h
    unfold refine at h
    obtain ⟨y, sa, ha, h1⟩ := bind_run h
    obtain ⟨u, sb, hb, h2⟩ := bind_run h1
    obtain ⟨v, sc, hc, h3⟩ := bind_run h2
    obtain ⟨rfl, hv⟩ := vec_lift hc
    obtain ⟨⟨e1, e2, e3⟩, hu, hMu⟩ := picard_step hd hT hN hN' hm hdm (hdm 0 ⟨le_refl _, hτe⟩) hh hz htl ht ha hb
    have hv' : ∀ i, ∃ a b, (u i)[q.order]? = some a ∧ (z i)[q.order]? = some b ∧ v i = (u i).set q.order (Interval.intersect a b) := fun i => by
      obtain ⟨b, hb, h⟩ := bind_ok.1 (hv i)
      obtain ⟨a, c, ha, hc, e⟩ := setAt_ok h
      cases hc
      exact ⟨a, b, ha, at_ok hb, e⟩
    have hmem : ∀ {a b : Interval D} {r : ℝ}, r ∈ a → r ∈ b → r ∈ Interval.intersect a b := fun ha hb =>
      (Interval.mem_intersect ⟨ha.1.1, ha.2.1⟩ ⟨hb.1.1, hb.2.1⟩).2 ⟨ha, hb⟩
    have hvs : SerOk P ρ x0 t0 q.order v := hu.set fun i => by
      obtain ⟨a, b, ha, hb, e⟩ := hv' i
      exact ⟨_, e, hmem (hu.con i _ _ ha) (hz.con i _ _ hb)⟩
    have hvN : ∀ i a b, (u i)[q.order]? = some a → (z i)[q.order]? = some b → (v i)[q.order]? = some (Interval.intersect a b) := fun i a b ha hb => by
      obtain ⟨a', b', ha', hb', e⟩ := hv' i
      rw [ha] at ha'; rw [hb] at hb'; cases ha'; cases hb'
      rw [e, List.getElem?_set, if_pos rfl, if_pos (by have := hu.len i; omega)]
    have hMz : Maps P ρ x0 t0 q.order τe z v := by
      refine ⟨hM.smooth, fun c Q hc hQ0 hQ τ hτ => ?_⟩
      have t1 := hM.maps c Q hc hQ0 hQ τ hτ
      have t2 := hMu.maps c Q hc hQ0 hQ τ hτ
      intro i
      rcases hτ.1.eq_or_lt with h0 | h0
      · rw [← h0, hQ0]; exact hvs.tube0 hN i
      · obtain ⟨r, A, r1, r2, r3⟩ := t1 i
        obtain ⟨r', A', r1', r2', r3'⟩ := t2 i
        have : r = r' := by
          have hp : τ ^ q.order ≠ 0 := (pow_pos h0 _).ne'
          rw [r3] at r3'
          exact mul_right_cancel₀ hp (by linarith)
        subst this
        exact ⟨r, _, hvN i _ _ r1' r1, hmem r2' r2, r3⟩
    have hMv : Maps P ρ x0 t0 q.order τe v v := hMz.mono fun i a ha => by
      obtain ⟨a', b', ha', hb', e⟩ := hv' i
      rw [hvN i a' b' ha' hb'] at ha
      cases ha
      refine ⟨b', hb', fun r hr => ?_⟩
      have n1 : (u i)[q.order]? = some a' := ha'
      have m1 := hu.con i _ _ ha'
      have m2 := hz.con i _ _ hb'
      exact ((Interval.mem_intersect ⟨m1.1.1, m1.2.1⟩ ⟨m2.1.1, m2.2.1⟩).1 hr).2
    exact refine_spec hd hT hN hN' hτe htl ht e1 e3 (by rw [e2]; exact hdm) hvs hMv h3

end
end Ode
end Kv
