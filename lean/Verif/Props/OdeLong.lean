import Verif.Props.Ode

/-!
# C45: `ode` encloses every solution; C57: `odelong`
-/

namespace Kv
open PowerSeries Psa PM RopSem
open Rop (lit)
set_option linter.unusedVariables false

section
variable {n fuel k : ℕ} {P : Ode.Problem n} {q : Ode.Param} {st st' : PSt (Interval D)} {r : Ode.Result n} {ρ : ℕ → ℝ} {x0 : Fin n → ℝ}
  {t0 t1 : ℝ}

/-- C45, without boundedness: if `ode` returns a nonzero value, then every solution ends in the returned interval and is
enclosed by the power series returned through the pointer; the right-hand side is defined along the solution.  Missing: the
existence (`C45_violated`), and the right-hand side must be defined at the initial point. -/
theorem C45_enclosed_partial (hc : Ode.Call P q) (h : (letI := scalI fuel; ode k P q) st = (.ok r, st')) (hr : r.ret ≠ 0)
    (hp : ∀ i, ρ i ∈ P.p i) (hx : ∀ i, x0 i ∈ P.init i) (ht0 : t0 ∈ P.start) (ht1 : t1 ∈ r.stop) (hle : t0 ≤ t1)
    (hdom : ∀ i, (P.f i).Dom ρ (Ode.withT x0 t0)) {y : ℝ → Fin n → ℝ} (hy : IsSol (P.rhsR ρ) t0 t1 x0 y) :
    (∀ i, y t1 i ∈ r.init i) ∧ (∀ t ∈ Set.Icc t0 t1, ∀ i, (P.f i).SDom ρ (Ode.withT (y t) t)) ∧
      ∃ w, r.psa = some w ∧ ∀ t ∈ Set.Icc t0 t1, ∀ i, ∃ p : ℕ → ℝ, Contains (w i) p ∧ y t i = ∑ j ∈ Finset.range (w i).length, p j * (t - t0) ^ j := by
  have hd : Ode.Data P ρ x0 t0 := ⟨hp, hx, ht0, hc.fin, (letI := scalI fuel; Ode.ode_noInv hc.order h), fun i => (hdom i).lDom⟩
  obtain ⟨w, hw, hs, hall⟩ := Ode.ode_sol hd hc.order hc.small hc.auto h hr ht1 hle
  obtain ⟨h1, h2⟩ := hall (fun τ => y (t0 + τ)) (by simpa using hy.1) (unshift_sol (F := P.rhsR ρ) hy.2)
  refine ⟨fun i => by simpa using h1 i, fun t ht i => ?_, w, hw, fun t ht i => ?_⟩
  · have := (h2 (t - t0) ⟨by linarith [ht.1], by linarith [ht.2]⟩).2 i
    simpa using this
  · obtain ⟨a, A, g1, g2, g3⟩ := (h2 (t - t0) ⟨by linarith [ht.1], by linarith [ht.2]⟩).1 i
    rw [add_sub_cancel] at g3
    refine ⟨fun j => if j < q.order then coeff j (Ode.fsol P.f ρ x0 t0 i) else a, fun j B hB => ?_, ?_⟩
    · show (if _ then _ else _) ∈ B
      split_ifs with hj
      · exact hs.con i j B hB
      · have := getElem?_lt hB
        obtain rfl : j = q.order := by have := hs.len i; omega
        rw [g1] at hB; cases hB; exact g2
    · dsimp only
      rw [g3, hs.len i, Finset.sum_range_succ, if_neg (lt_irrefl _)]
      congr 1
      exact Finset.sum_congr rfl fun j hj => by rw [if_pos (Finset.mem_range.1 hj)]

/-! ## `odelong` -/

theorem IsSol.mono {F : (Fin n → ℝ) → ℝ → Fin n → ℝ} {a b c : ℝ} {y : ℝ → Fin n → ℝ} (h : IsSol F a c x0 y) (hb : b ≤ c) : IsSol F a b x0 y :=
  ⟨h.1, fun t ht => (h.2 t ⟨ht.1, ht.2.trans hb⟩).mono (Set.Icc_subset_Icc_right hb)⟩

theorem IsSol.tail {F : (Fin n → ℝ) → ℝ → Fin n → ℝ} {a b c : ℝ} {y : ℝ → Fin n → ℝ} (h : IsSol F a c x0 y) (hb : a ≤ b) : IsSol F b c (y b) y :=
  ⟨rfl, fun t ht => (h.2 t ⟨hb.trans ht.1, ht.2⟩).mono (Set.Icc_subset_Icc_left hb)⟩

/-- two solutions one after the other -/
theorem IsSol.append {F : (Fin n → ℝ) → ℝ → Fin n → ℝ} {a b c : ℝ} {y z : ℝ → Fin n → ℝ} (hab : a ≤ b) (hbc : b ≤ c) (hy : IsSol F a b x0 y)
    (hz : IsSol F b c (y b) z) : ∃ u, IsSol F a c x0 u := by
  set u : ℝ → Fin n → ℝ := fun t => if t ≤ b then y t else z t with hu
  have hu1 : ∀ t, t ≤ b → u t = y t := fun t h => if_pos h
  have hu2 : ∀ t, b ≤ t → u t = z t := fun t h => by
    rcases h.eq_or_lt with rfl | h
    · rw [hu1 _ le_rfl, hz.1]
    · exact if_neg (not_le.2 h)
  have hn : ∀ {s : Set ℝ} {t : ℝ} {d : Fin n → ℝ}, IsClosed s → t ∉ s → HasDerivWithinAt u d s t := fun hs ht =>
    HasFDerivWithinAt.of_notMem_closure (by rwa [hs.closure_eq])
  refine ⟨u, by rw [hu1 a hab]; exact hy.1, fun t ht => ?_⟩
  rw [← Set.Icc_union_Icc_eq_Icc hab hbc]
  refine HasDerivWithinAt.union ?_ ?_
  · by_cases h : t ∈ Set.Icc a b
    · rw [hu1 t h.2]
      exact (hy.2 t h).congr (fun s hs => hu1 s hs.2) (hu1 t h.2)
    · exact hn isClosed_Icc h
  · by_cases h : t ∈ Set.Icc b c
    · rw [hu2 t h.1]
      exact (hz.2 t h).congr (fun s hs => hu2 s hs.1) (hu2 t h.1)
    · exact hn isClosed_Icc h

theorem mem_point {m : D} (hm : FinD m) {t : ℝ} : t ∈ Interval.point m ↔ t = dbl m := by
  rw [mem_of_bd (Z := Interval.point m) ⟨hm, hm⟩]
  exact ⟨fun h => le_antisymm h.2 h.1, fun h => by rw [h]; exact ⟨le_rfl, le_rfl⟩⟩

/-- a NaN as time stays -/
theorem odelong_nan (hN : 1 ≤ q.order) (hpw : Ode.PwOk P.pw) (he : NN q.epsilon) {init0 : Fin n → Interval D} : ∀ {c : ℕ} {P' : Ode.Problem n} {ret : ℤ}
    {st : PSt (Interval D)}, P'.pw = P.pw → nan P'.start.inf → ret = 1 →
    (letI := scalI fuel; odelongLoop k q init0 c P' ret) st = (.ok r, st') → nan r.stop.inf
  | 0, P', ret, st, hP, hs, hret, h => by cases (lift_run h).1
  | c + 1, P', ret, st, hP, hs, hret, h => by
    let _ := scalI fuel
    change odelongLoop k q init0 (c + 1) P' ret st = _ at h
    unfold odelongLoop at h
    obtain ⟨o, s1, h1, h2⟩ := bind_run h
    split_ifs at h2 with h0 h3
    · obtain ⟨rfl, -⟩ := pure_run h2; exact hs
    · have := ((Ode.ode_shape (q := { q with autostep := true }) hN h1 h0).2 rfl (by rw [hP]; exact hpw) he).2 hs
      rw [h3] at this; exact absurd this.1 (by decide)
    · obtain ⟨-, m, hm, hn⟩ := ((Ode.ode_shape (q := { q with autostep := true }) hN h1 h0).2 rfl (by rw [hP]; exact hpw) he).2 hs
      refine odelong_nan hN hpw he (P' := { P' with init := o.init, start := o.stop }) hP ?_ rfl h2
      rw [hm]; exact hn

/-- a bounded result comes from bounded intermediate values -/
theorem odelong_bd (hN : 1 ≤ q.order) {init0 : Fin n → Interval D} : ∀ {c : ℕ} {P' : Ode.Problem n} {ret : ℤ}
    {st : PSt (Interval D)}, ret = 1 → (letI := scalI fuel; odelongLoop k q init0 c P' ret) st = (.ok r, st') → (∀ i, Bd (r.init i)) → ∀ i, Bd (P'.init i)
  | 0, P', ret, st, hret, h => by cases (lift_run h).1
  | c + 1, P', ret, st, hret, h => by
    let _ := scalI fuel
    change odelongLoop k q init0 (c + 1) P' ret st = _ at h
    unfold odelongLoop at h
    obtain ⟨o, s1, h1, h2⟩ := bind_run h
    intro hb i
    split_ifs at h2 with h0 h3
    · obtain ⟨rfl, -⟩ := pure_run h2; exact hb i
    · obtain ⟨rfl, -⟩ := pure_run h2
      exact (Ode.ode_shape (q := { q with autostep := true }) hN h1 h0).1 i (hb i)
    · exact (Ode.ode_shape (q := { q with autostep := true }) hN h1 h0).1 i (odelong_bd hN (P' := { P' with init := o.init, start := o.stop }) rfl h2 hb i)

/-- the end of `odelong` -/
theorem odelong_time {init0 : Fin n → Interval D} : ∀ {c : ℕ} {P : Ode.Problem n} {ret : ℤ} {st : PSt (Interval D)} {s : D},
    Ode.Call P { q with autostep := true } → P.start = Interval.point s → (ret = 0 ∨ ret = 1) →
    (letI := scalI fuel; odelongLoop k q init0 c P ret) st = (.ok r, st') → r.ret ≠ 0 → t1 ∈ r.stop → dbl s ≤ t1 ∧ (r.ret = 2 → r.stop = P.stop)
  | 0, P, ret, st, s, hc, hs, hret, h => by cases (lift_run h).1
  | c + 1, P, ret, st, s, hc, hs, hret, h => by
    intro hr ht1
    let _ := scalI fuel
    change odelongLoop k q init0 (c + 1) P ret st = _ at h
    unfold odelongLoop at h
    obtain ⟨o, s1, h1, h2⟩ := bind_run h
    obtain ⟨hfw, hpw, he⟩ := hc.auto rfl
    have hsF : FinD s := by have := hfw.bd.1; rw [hs] at this; exact this
    have hsd : dbl P.start.inf = dbl s := by rw [hs]; rfl
    split_ifs at h2 with h0 h3 h3
    · obtain ⟨rfl, -⟩ := pure_run h2
      change t1 ∈ P.start at ht1
      rw [hs, mem_point hsF] at ht1
      exact ⟨ht1.ge, fun hh => absurd (h3.symm.trans hh) (by decide)⟩
    · obtain ⟨rfl, -⟩ := pure_run h2
      rcases hret with rfl | rfl
      · exact absurd rfl hr
      · exact absurd rfl h3
    · obtain ⟨rfl, -⟩ := pure_run h2
      refine ⟨?_, fun _ => rfl⟩
      have l1 := ((le_iff _ _).1 hfw.le2).2.2
      have l2 := l1.trans ht1.1.2
      rw [show P.start.sup = s by rw [hs]; rfl, (is_dbl' hsF).2] at l2
      exact_mod_cast l2
    · obtain ⟨e1, -⟩ := ((Ode.ode_shape (q := { q with autostep := true }) hc.order h1 h0).2 rfl hpw he).1 hfw
      rcases e1 with ⟨e1, m, hm, hmm⟩ | e1
      swap
      · exact absurd e1 h3
      rcases hmm with hmm | ⟨hmF, hm1, hm2⟩
      · have := odelong_nan (q := q) (P := P) hc.order hpw he (P' := { P with init := o.init, start := o.stop }) rfl (by rw [hm]; exact hmm) rfl h2
        exact absurd this ht1.1.1
      · rw [hsd] at hm1
        have hc' : Ode.Call { P with init := o.init, start := o.stop } { q with autostep := true } :=
          ⟨hc.order, hc.small, hc.fin, fun _ => ⟨⟨by rw [hm]; exact ⟨hmF, hmF⟩, by rw [hm]; exact (le_iff _ _).2 ⟨(is_dbl' hmF).1, (is_dbl' hmF).1, le_rfl⟩,
            by rw [hm]; exact hm2, hfw.le3⟩, hpw, he⟩⟩
        obtain ⟨g1, g2⟩ := odelong_time (s := m) hc' hm (Or.inr rfl) h2 hr ht1
        exact ⟨hm1.trans g1, g2⟩

/-- the loop of `odelong` -/
theorem odelong_spec {init0 : Fin n → Interval D} : ∀ {c : ℕ} {P : Ode.Problem n} {ret : ℤ} {st : PSt (Interval D)} {x0 : Fin n → ℝ} {t0 : ℝ} {s : D},
    Ode.Call P { q with autostep := true } → P.start = Interval.point s → (ret = 0 ∨ ret = 1) →
    (letI := scalI fuel; odelongLoop k q init0 c P ret) st = (.ok r, st') → r.ret ≠ 0 → (∀ i, ρ i ∈ P.p i) → (∀ i, x0 i ∈ P.init i) →
    t0 ∈ P.start → t1 ∈ r.stop → (∀ i, (P.f i).LDom True ρ (Ode.withT x0 t0)) →
    (∀ y, IsSol (P.rhsR ρ) t0 t1 x0 y → (∀ i, y t1 i ∈ r.init i) ∧ (ret = 0 ∨ t0 < t1 → ∀ t ∈ Set.Icc t0 t1, ∀ i, (P.f i).SDom ρ (Ode.withT (y t) t))) ∧
    ((∀ i, Bd (r.init i)) → ∃ y, IsSol (P.rhsR ρ) t0 t1 x0 y)
  | 0, P, ret, st, x0, t0, s, hc, hs, hret, h => by cases (lift_run h).1
  | c + 1, P, ret, st, x0, t0, s, hc, hs, hret, h => by
    intro hr hp hx ht0 ht1 hdom
    let _ := scalI fuel
    change odelongLoop k q init0 (c + 1) P ret st = _ at h
    unfold odelongLoop at h
    obtain ⟨o, s1, h1, h2⟩ := bind_run h
    obtain ⟨hfw, hpw, he⟩ := hc.auto rfl
    have hsF : FinD s := by have := hfw.bd.1; rw [hs] at this; exact this
    have hsd : dbl P.start.inf = dbl s := by rw [hs]; rfl
    have et0 : t0 = dbl s := by rw [hs] at ht0; exact (mem_point hsF).1 ht0
    have hd : Ode.Data P ρ x0 t0 := ⟨hp, hx, ht0, hc.fin, (letI := scalI fuel; Ode.ode_noInv hc.order h1), hdom⟩
    -- a step
    have hstep : o.ret ≠ 0 → ∀ t', t' ∈ o.stop → t0 ≤ t' → (∀ y, IsSol (P.rhsR ρ) t0 t' x0 y → (∀ i, y t' i ∈ o.init i) ∧
        ∀ t ∈ Set.Icc t0 t', ∀ i, (P.f i).SDom ρ (Ode.withT (y t) t)) ∧ ((∀ i, Bd (o.init i)) → ∃ y, IsSol (P.rhsR ρ) t0 t' x0 y) := by
      intro ho t' ht' hle
      obtain ⟨w, -, -, hall⟩ := Ode.ode_sol (q := { q with autostep := true }) hd hc.order hc.small hc.auto h1 ho ht' hle
      refine ⟨fun y hy => ?_, fun hb => ?_⟩
      · obtain ⟨g1, g2⟩ := hall (fun τ => y (t0 + τ)) (by simpa using hy.1) (unshift_sol (F := P.rhsR ρ) hy.2)
        refine ⟨fun i => by simpa using g1 i, fun t ht i => ?_⟩
        simpa using (g2 (t - t0) ⟨by linarith [ht.1], by linarith [ht.2]⟩).2 i
      · obtain ⟨w, y, -, -, hy0, -, hy⟩ := Ode.ode_exists (q := { q with autostep := true }) hd hc.order hc.small hc.auto h1 ho hb ht' hle
        exact ⟨fun t => y (t - t0), by simpa using hy0, shift_sol (F := P.rhsR ρ) fun τ hτ => (hy τ hτ).1⟩
    split_ifs at h2 with h0 h3 h3
    · obtain ⟨rfl, -⟩ := pure_run h2
      have e : t1 = t0 := by
        change t1 ∈ P.start at ht1
        rw [hs] at ht1
        rw [et0]; exact (mem_point hsF).1 ht1
      subst e
      refine ⟨fun y hy => ⟨fun i => by rw [hy.1]; exact hx i, fun hh => ?_⟩, fun _ => ?_⟩
      · rcases hh with hh | hh
        · rw [h3] at hh; exact absurd hh (by decide)
        · exact absurd hh (lt_irrefl _)
      · refine ⟨fun _ => x0, rfl, fun t ht => ?_⟩
        rw [Set.Icc_self]
        exact hasDerivWithinAt_iff_hasFDerivWithinAt.2 (HasFDerivWithinAt.of_subsingleton Set.subsingleton_singleton)
    · obtain ⟨rfl, -⟩ := pure_run h2
      rcases hret with rfl | rfl
      · exact absurd rfl hr
      · exact absurd rfl h3
    · obtain ⟨rfl, -⟩ := pure_run h2
      obtain ⟨-, e2⟩ := ((Ode.ode_shape (q := { q with autostep := true }) hc.order h1 h0).2 rfl hpw he).1 hfw
      have hle : t0 ≤ t1 := by
        have l1 := ((le_iff _ _).1 hfw.le2).2.2
        have := ht1.1.2
        have l2 := l1.trans this
        rw [show P.start.sup = s by rw [hs]; rfl, (is_dbl' hsF).2] at l2
        rw [et0]; exact_mod_cast l2
      obtain ⟨g1, g2⟩ := hstep h0 t1 (by rw [e2 h3]; exact ht1) hle
      exact ⟨fun y hy => ⟨(g1 y hy).1, fun _ => (g1 y hy).2⟩, g2⟩
    · obtain ⟨e1, -⟩ := ((Ode.ode_shape (q := { q with autostep := true }) hc.order h1 h0).2 rfl hpw he).1 hfw
      rcases e1 with ⟨e1, m, hm, hmm⟩ | e1
      swap
      · exact absurd e1 h3
      rcases hmm with hmm | ⟨hmF, hm1, hm2⟩
      · have := odelong_nan (q := q) (P := P) hc.order hpw he (P' := { P with init := o.init, start := o.stop }) rfl (by rw [hm]; exact hmm) rfl h2
        exact absurd this ht1.1.1
      · rw [hsd, ← et0] at hm1
        have htm : dbl m ∈ o.stop := by rw [hm]; exact (mem_point hmF).2 rfl
        obtain ⟨g1, g2⟩ := hstep h0 (dbl m) htm hm1
        have hc' : Ode.Call { P with init := o.init, start := o.stop } { q with autostep := true } :=
          ⟨hc.order, hc.small, hc.fin, fun _ => ⟨⟨by rw [hm]; exact ⟨hmF, hmF⟩, by rw [hm]; exact (le_iff _ _).2 ⟨(is_dbl' hmF).1, (is_dbl' hmF).1, le_rfl⟩,
            by rw [hm]; exact hm2, hfw.le3⟩, hpw, he⟩⟩
        have hmt := (odelong_time (s := m) hc' hm (Or.inr rfl) h2 hr ht1).1
        have hrec : ∀ z : Fin n → ℝ, (∀ i, z i ∈ o.init i) → (∀ i, (P.f i).SDom ρ (Ode.withT z (dbl m))) → _ := fun z hz hS =>
          odelong_spec (x0 := z) (t0 := dbl m) (s := m) hc' hm (Or.inr rfl) h2 hr hp hz htm ht1 (fun i => (hS i).lDom)
        refine ⟨fun y hy => ?_, fun hb => ?_⟩
        · obtain ⟨a1, a2⟩ := g1 y (hy.mono hmt)
          obtain ⟨b1, -⟩ := hrec (y (dbl m)) a1 (a2 _ ⟨hm1, le_rfl⟩)
          obtain ⟨b2, b3⟩ := b1 y (hy.tail hm1)
          refine ⟨b2, fun _ t ht i => ?_⟩
          by_cases htm' : t ≤ dbl m
          · exact a2 t ⟨ht.1, htm'⟩ i
          · have := not_le.1 htm'
            exact b3 (Or.inr (this.trans_le ht.2)) t ⟨this.le, ht.2⟩ i
        · obtain ⟨y, hy⟩ := g2 (odelong_bd (q := q) hc.order (P' := { P with init := o.init, start := o.stop }) rfl h2 hb)
          obtain ⟨a1, a2⟩ := g1 y hy
          obtain ⟨-, b1⟩ := hrec (y (dbl m)) a1 (a2 _ ⟨hm1, le_rfl⟩)
          obtain ⟨z, hz⟩ := b1 hb
          exact IsSol.append hm1 hmt hy hz

/-- C57: if `odelong` returns a nonzero value, then for all initial values and end times in the returned interval, every solution ends
in the returned interval, and there is at most one; if the returned intervals are bounded there is one.  The end is the
given one if 2 is returned, and it is never before the start.  The start is a number; the right-hand side must be defined at the initial
point. -/
theorem C57 {s : D} (hc : Ode.Call P { q with autostep := true }) (hs : P.start = Interval.point s) {c : ℕ}
    (h : (letI := scalI fuel; odelong c k P q) st = (.ok r, st')) (hr : r.ret ≠ 0) (hp : ∀ i, ρ i ∈ P.p i) (hx : ∀ i, x0 i ∈ P.init i)
    (ht0 : t0 ∈ P.start) (ht1 : t1 ∈ r.stop) (hdom : ∀ i, (P.f i).Dom ρ (Ode.withT x0 t0)) :
    t0 ≤ t1 ∧ (r.ret = 2 → r.stop = P.stop) ∧ (∀ y, IsSol (P.rhsR ρ) t0 t1 x0 y → (∀ i, y t1 i ∈ r.init i) ∧
      ∀ z, IsSol (P.rhsR ρ) t0 t1 x0 z → Set.EqOn y z (Set.Icc t0 t1)) ∧ ((∀ i, Bd (r.init i)) → ∃ y, IsSol (P.rhsR ρ) t0 t1 x0 y) := by
  obtain ⟨g1, g2⟩ := odelong_spec hc hs (Or.inl rfl) h hr hp hx ht0 ht1 (fun i => (hdom i).lDom)
  have hsF : FinD s := by have := (hc.auto rfl).1.bd.1; rw [hs] at this; exact this
  obtain ⟨e1, e2⟩ := odelong_time hc hs (Or.inl rfl) h hr ht1
  refine ⟨?_, e2, fun y hy => ⟨(g1 y hy).1, fun z hz t ht => ?_⟩, g2⟩
  · rw [hs, mem_point hsF] at ht0; rw [ht0]; exact e1
  · have := ode_unique (f := Ode.field P ρ t0) (y := fun τ => y (t0 + τ)) (z := fun τ => z (t0 + τ)) (by simp [hy.1, hz.1])
      (unshift_sol (F := P.rhsR ρ) hy.2) (unshift_sol (F := P.rhsR ρ) hz.2)
      (fun τ hτ => Ode.field_contDiffAt ((g1 y hy).2 (Or.inl rfl) (t0 + τ) ⟨by linarith [hτ.1], by linarith [hτ.2]⟩))
    have := this (show t - t0 ∈ Set.Icc 0 (t1 - t0) from ⟨by linarith [ht.1], by linarith [ht.2]⟩)
    simpa using this

end

/-- `x' = x`, `x(0) = 1` up to `1/4`: the hypotheses of C57 -/
example : ∃ (r : Ode.Result 1) (st' : PSt (Interval D)), Ode.Call exAuto { exParA with autostep := true } ∧ exAuto.start = Interval.point (lit 0) ∧
    (letI := scalI 100; odelong 10 10 exAuto exParA) (st0 2) = (.ok r, st') ∧ r.ret ≠ 0 ∧ (∀ i, Bd (r.init i)) := by
  obtain ⟨o, st', h1, h2, h3⟩ := odeOk_iff (r := (letI := scalI 100; odelong 10 10 exAuto exParA) (st0 2)) (by decide +kernel)
  refine ⟨o, st', ⟨by decide, by decide, fun _ => trivial, fun _ => ⟨⟨⟨?_, ?_⟩, ?_, ?_, ?_⟩, fun a b h => h, NN.lit (by norm_num)⟩⟩, rfl, h1, h2, h3⟩ <;> decide +kernel

end Kv
