import Verif.Ode.Enclose
import Verif.Psa.Len

/-! # Shape of the results of `ode`; `odelong` -/

namespace Kv
open PowerSeries Psa PM Kraw RopSem
open Kv.Interval (mid addS)
open Rop (lit)
set_option linter.unusedVariables false

theorem Expr.SDom.lDom {n : ℕ} {all : Prop} {ρ : ℕ → ℝ} {x : Fin n → ℝ} : ∀ {e : Expr n}, e.SDom ρ x → e.LDom all ρ x
  | .var _, _ => trivial
  | .par _, _ => trivial
  | .cst _, _ => trivial
  | .un f a, h => ⟨Expr.SDom.lDom h.1, fun hf _ => by subst hf; exact h.2⟩
  | .bin _ _ _, h => ⟨Expr.SDom.lDom h.1, Expr.SDom.lDom h.2.1⟩
  | .binC _ a _, h => Expr.SDom.lDom (e := a) h.1
  | .cBin _ _ b, h => Expr.SDom.lDom (e := b) h.1
  | .powI a _, h => Expr.SDom.lDom (e := a) h.1
  | .pow _ _, h => ⟨Expr.SDom.lDom h.1, Expr.SDom.lDom h.2.1, fun _ => h.2.2⟩

namespace Ode
variable {n : ℕ} {P : Problem n} {q : Param} {ρ : ℕ → ℝ} {x0 : Fin n → ℝ} {t0 : ℝ} {fuel : ℕ}

/-! ## the end of the step -/

/-- what a pass can leave the loop with -/
def EndOk (P : Problem n) (ret : ℤ) (end2 : Interval D) : Prop :=
  (ret = 1 ∧ ∃ m, end2 = Interval.point m ∧ (nan m ∨ (FinD m ∧ dbl P.start.inf ≤ dbl m ∧ Rop.le m P.stop.inf = true))) ∨ ret = 2

theorem chooseEnd_shape {radius radius' : D} {end2 : Interval D} {ret : ℤ} (ha : q.autostep = true) (hf : Forward P.start P.stop) (hr : NN radius)
    (h : chooseEnd P q radius = (end2, radius', ret)) : EndOk P ret end2 ∧ NN radius' := by
  by_cases hn : nan radius
  · obtain ⟨-, c2, -⟩ := chooseEnd_nan ha hn h
    refine ⟨?_, nn_iff.2 (Or.inl c2)⟩
    unfold chooseEnd at h
    rw [if_pos ha] at h
    dsimp only at h
    have hm := mid_nan (S := P.start) hn
    split_ifs at h with hc
    · simp only [Prod.mk.injEq] at h; obtain ⟨-, -, rfl⟩ := h; exact Or.inr rfl
    · simp only [Prod.mk.injEq] at h
      obtain ⟨rfl, -, rfl⟩ := h
      exact Or.inl ⟨rfl, _, rfl, Or.inl hm⟩
  · refine ⟨?_, (chooseEnd_good ha hf hr hn h).2⟩
    unfold chooseEnd at h
    rw [if_pos ha] at h
    dsimp only at h
    split_ifs at h with hc
    · simp only [Prod.mk.injEq] at h; obtain ⟨-, -, rfl⟩ := h; exact Or.inr rfl
    · simp only [Prod.mk.injEq] at h
      obtain ⟨rfl, -, rfl⟩ := h
      obtain ⟨g1, g2⟩ := mid_ge hf.bd hf.le1 hr hn
      have l2 := (le_iff _ _).1 hf.le2
      change ¬ Rop.le P.stop.inf (mid (addS P.start radius)) = true at hc
      rw [le_iff] at hc
      have hlt : val (mid (addS P.start radius)) < val P.stop.inf := by
        by_contra hh
        exact hc ⟨l2.2.1, g1, not_lt.1 hh⟩
      have i1 := is_dbl' hf.bd.1
      rw [i1.2] at g2
      have hfm : FinD (mid (addS P.start radius)) := by
        rcases D_cases (mid (addS P.start radius)) with h' | h' | h' | h'
        · exact absurd h' g1
        · rw [h', val_dPinf] at hlt; exact absurd hlt not_top_lt
        · rw [h', val_dNinf] at g2; exact absurd (le_bot_iff.1 g2) (EReal.coe_ne_bot _)
        · exact h'
      refine Or.inl ⟨rfl, _, rfl, Or.inr ⟨hfm, ?_, (le_iff _ _).2 ⟨g1, l2.2.1, hlt.le⟩⟩⟩
      rw [(is_dbl' hfm).2] at g2
      exact_mod_cast g2

/-- a NaN as start leads to a NaN as end -/
theorem chooseEnd_start {radius radius' : D} {end2 : Interval D} {ret : ℤ} (ha : q.autostep = true) (hs : nan P.start.inf)
    (h : chooseEnd P q radius = (end2, radius', ret)) : ret = 1 ∧ ∃ m, end2 = Interval.point m ∧ nan m := by
  have hm : nan (mid (addS P.start radius)) := by
    have h1 : ∀ a : Fl binary64, Fl.neg (Fl.add .up (Fl.neg Fl.nan) (Fl.neg a)) = Fl.nan := fun a => by cases a <;> rfl
    have e : (addS P.start radius).inf = dNaN := by
      have : P.start.inf = dNaN := hs
      show Fl.neg (Fl.add .up (Fl.neg P.start.inf) (Fl.neg radius)) = _
      rw [this]; exact h1 radius
    unfold Interval.mid
    rw [e]
    split_ifs <;> rfl
  unfold chooseEnd at h
  rw [if_pos ha] at h
  dsimp only at h
  rw [if_neg] at h
  · simp only [Prod.mk.injEq] at h
    obtain ⟨rfl, -, rfl⟩ := h
    exact ⟨rfl, _, rfl, hm⟩
  · rw [le_iff]; exact fun hh => hh.2.1 hm

theorem attempt_next [Scal (Interval D)] {x : Fin n → Ser} {radius : D} {k : ℕ} {b : Bool} {o : Next n} {s0 s1 : PSt (Interval D)}
    (h : attempt P q x radius k b s0 = (.ok o, s1)) : ∃ end2 radius' ret t, chooseEnd P q radius = (end2, radius', ret) ∧
      NextOk P q radius' (Interval.sub end2 P.start) end2 ret t o := by
  unfold attempt at h
  obtain ⟨⟨end2, radius', ret⟩, hce⟩ : ∃ c, c = chooseEnd P q radius := ⟨_, rfl⟩
  rw [← hce] at h
  dsimp only at h
  obtain ⟨u, sa, ha, h1⟩ := bind_run h
  obtain ⟨t, sb, hb, h2⟩ := bind_run h1
  obtain ⟨oy, sc, hc, h3⟩ := bind_run h2
  refine ⟨_, _, _, t, hce.symm, ?_⟩
  cases oy with
  | none =>
    dsimp only at h3
    split_ifs at h3 with hq
    · rw [setUse_bind] at h3
      obtain ⟨rfl, -⟩ := pure_run h3
      exact ⟨by simp_all, fun _ _ => ⟨fun h => h.mul (NN.lit (by norm_num)), nan_mul⟩⟩
    · cases (lift_run h3).1
  | some y => exact candidate_next h3

/-- the end of the step found by the loop -/
theorem loop_end [Scal (Interval D)] (ha : q.autostep = true) (hp : PwOk P.pw) (he : NN q.epsilon) {x : Fin n → Ser} :
    ∀ {c : ℕ} {s0 s1 : PSt (Interval D)} {radius : D} {k : ℕ} {b : Bool} {o : Out n}, loop P q x c radius k b s0 = (.ok o, s1) → o.ret ≠ 0 →
      (Forward P.start P.stop → NN radius → EndOk P o.ret o.end2) ∧ (nan P.start.inf → o.ret = 1 ∧ ∃ m, o.end2 = Interval.point m ∧ nan m)
  | 0, s0, s1, radius, k, b, o, h => by cases (lift_run h).1
  | c + 1, s0, s1, radius, k, b, o, h => by
    intro hr
    unfold loop at h
    obtain ⟨a, sa, haa, h1⟩ := bind_run h
    obtain ⟨end2, radius', ret, t, hce, hnx⟩ := attempt_next haa
    cases a with
    | again r k' b' =>
      obtain ⟨r1, r2⟩ := loop_end ha hp he h1 hr
      exact ⟨fun hf hnn => r1 hf ((hnx.2 hp he).1 (chooseEnd_shape ha hf hnn hce).2), r2⟩
    | done ret' w d e t =>
      obtain ⟨rfl, rfl⟩ := pure_run h1
      obtain ⟨h2, rfl, rfl, rfl⟩ := hnx
      rcases h2 with rfl | h2
      · exact ⟨fun hf hnn => (chooseEnd_shape ha hf hnn hce).1, fun hs => chooseEnd_start ha hs hce⟩
      · exact absurd h2 hr

/-! ## boundedness of the initial value -/

/-- the constant terms are sums with the initial values -/
def HeadOk (P : Problem n) (w : Fin n → Ser) : Prop := ∀ i, ∃ a l, w i = Interval.add a (P.init i) :: l

theorem update_head {y w : Fin n → Ser} {k : ℕ} {st st' : PSt (Interval D)} (h : (letI := scalI fuel; update P y k) st = (.ok w, st')) : HeadOk P w := by
  let _ := scalI fuel
  change update P y k st = _ at h
  unfold update at h
  obtain ⟨z, s1, -, h1⟩ := bind_run h
  obtain ⟨-, h2⟩ := vec_lift h1
  intro i
  have := h2 i
  unfold scalarPlus addHead at this
  split at this
  · cases this
  · obtain ⟨c, hc, h3⟩ := bind_ok.1 this
    cases hc
    exact ⟨_, _, (Except.ok.inj h3).symm⟩

theorem verifyStep_head {z : Fin n → Ser} {t : Ser} {deltat end2 : Interval D} {ret : ℤ} {radius : D} {k : ℕ} {b : Bool}
    {st st' : PSt (Interval D)} {r : ℤ} {w : Fin n → Ser} {d e : Interval D} {t' : Ser}
    (h : (letI := scalI fuel; verifyStep P q z t deltat end2 ret radius k b) st = (.ok (.done r w d e t'), st')) : HeadOk P w := by
  let _ := scalI fuel
  change verifyStep P q z t deltat end2 ret radius k b st = _ at h
  unfold verifyStep at h
  obtain ⟨y, s1, -, h1⟩ := bind_run h
  obtain ⟨w', s2, hw, h2⟩ := bind_run h1
  obtain ⟨fl, s3, -, h3⟩ := bind_run h2
  split_ifs at h3
  · have := (pure_run h3).1; cases this; exact update_head hw
  · have := (pure_run h3).1; cases this; exact update_head hw
  · obtain ⟨r, s4, -, h4⟩ := bind_run h3
    have := (pure_run h4).1; cases this

theorem loop_head {x : Fin n → Ser} : ∀ {c : ℕ} {s0 s1 : PSt (Interval D)} {radius : D} {k : ℕ} {b : Bool} {o : Out n},
    (letI := scalI fuel; loop P q x c radius k b) s0 = (.ok o, s1) → HeadOk P o.w
  | 0, s0, s1, radius, k, b, o, h => by cases (lift_run h).1
  | c + 1, s0, s1, radius, k, b, o, h => by
    let _ := scalI fuel
    change loop P q x (c + 1) radius k b s0 = _ at h
    unfold loop at h
    obtain ⟨a, sa, haa, h1⟩ := bind_run h
    cases a with
    | again r k' b' => exact loop_head h1
    | done ret' w d e t =>
      obtain ⟨rfl, rfl⟩ := pure_run h1
      unfold attempt at haa
      obtain ⟨⟨end2, radius', ret⟩, hce⟩ : ∃ c, c = chooseEnd P q radius := ⟨_, rfl⟩
      rw [← hce] at haa
      dsimp only at haa
      obtain ⟨u, sa, ha, h1⟩ := bind_run haa
      obtain ⟨t, sb, hb, h2⟩ := bind_run h1
      obtain ⟨oy, sc, hc, h3⟩ := bind_run h2
      cases oy with
      | none =>
        dsimp only at h3
        split_ifs at h3 with hq
        · rw [setUse_bind] at h3
          have := (pure_run h3).1; cases this
        · cases (lift_run h3).1
      | some y =>
        dsimp only at h3
        unfold candidate at h3
        obtain ⟨w', s5, -, h5⟩ := bind_run h3
        obtain ⟨z, s6, -, h6⟩ := bind_run h5
        split_ifs at h6 with ha
        · obtain ⟨r, s7, hr, h7⟩ := bind_run h6
          split_ifs at h7
          · exact verifyStep_head h7
          · have := (pure_run h7).1; cases this
        · exact verifyStep_head h6

theorem refine_head (hN : 1 ≤ q.order) {t : Ser} : ∀ {k : ℕ} {s0 s1 : PSt (Interval D)} {z w : Fin n → Ser}, HeadOk P z →
    (letI := scalI fuel; refine P q t k z) s0 = (.ok w, s1) → HeadOk P w
  | 0, s0, s1, z, w, hz, h => by obtain ⟨rfl, -⟩ := pure_run h; exact hz
  | k + 1, s0, s1, z, w, hz, h => by
    let _ := scalI fuel
    change refine P q t (k + 1) z s0 = _ at h
    unfold refine at h
    obtain ⟨y, sa, ha, h1⟩ := bind_run h
    obtain ⟨u, sb, hb, h2⟩ := bind_run h1
    obtain ⟨v, sc, hc, h3⟩ := bind_run h2
    obtain ⟨rfl, hv⟩ := vec_lift hc
    refine refine_head hN (z := v) (fun i => ?_) h3
    obtain ⟨b, hb', h4⟩ := bind_ok.1 (hv i)
    obtain ⟨a, c, ha, hc, e⟩ := setAt_ok h4
    obtain ⟨p, l, hp⟩ := update_head hb i
    obtain ⟨N, hN⟩ : ∃ N, q.order = N + 1 := ⟨q.order - 1, by omega⟩
    rw [e, hp, hN]
    exact ⟨p, l.set N c, rfl⟩

theorem fin_of_up (a b : Fl binary64) (h : isFinD (Fl.add .up a b : Fl binary64) = true) : isFinD b = true := by
  cases a <;> cases b <;> first | rfl | cases h

theorem fin_of_down (a b : Fl binary64) (h : isFinD (Fl.neg (Fl.add .up (Fl.neg a) (Fl.neg b)) : Fl binary64) = true) : isFinD b = true := by
  cases a <;> cases b <;> first | rfl | cases h

theorem bd_of_add {a b : Interval D} (h : Bd (Interval.add a b)) : Bd b :=
  ⟨isFinD_iff.1 (fin_of_down a.inf b.inf (isFinD_iff.2 h.1)), isFinD_iff.1 (fin_of_up a.sup b.sup (isFinD_iff.2 h.2))⟩

theorem eval_bd {a Z : Interval D} {l : Ser} {d : Interval D} (h : (letI := scalI fuel; Psa.eval (a :: l) d) = .ok Z) (hZ : Bd Z) : Bd a := by
  let _ := scalI fuel
  change Psa.eval (a :: l) d = _ at h
  unfold Psa.eval at h
  cases l with
  | nil => cases h; exact hZ
  | cons c l =>
    unfold polyrange at h
    obtain ⟨r, hr, h1⟩ := bind_ok.1 h
    obtain ⟨m, hm, h2⟩ := bind_ok.1 h1
    cases h2
    exact bd_of_add hZ

/-- the shape of a result of `ode` -/
theorem ode_shape (hN : 1 ≤ q.order) {k : ℕ} {st st' : PSt (Interval D)} {r : Result n}
    (h : (letI := scalI fuel; ode k P q) st = (.ok r, st')) (hr : r.ret ≠ 0) :
    (∀ i, Bd (r.init i) → Bd (P.init i)) ∧ (q.autostep = true → PwOk P.pw → NN q.epsilon →
      (Forward P.start P.stop → EndOk P r.ret r.stop ∧ (r.ret = 2 → r.stop = P.stop)) ∧
      (nan P.start.inf → r.ret = 1 ∧ ∃ m, r.stop = Interval.point m ∧ nan m)) := by
  let _ := scalI fuel
  change ode k P q st = (.ok r, st') at h
  unfold ode at h
  rw [get_bind, setMode_bind, setUse_bind, setRec_bind, setHist_bind] at h
  obtain ⟨x, s1, hx, ha⟩ := bind_run h
  obtain ⟨radius, s2, hradl, hb⟩ := bind_run ha
  obtain ⟨hrad, rfl⟩ := lift_run hradl
  rw [setMode_bind] at hb
  obtain ⟨o, s3, ho, hc⟩ := bind_run hb
  obtain ⟨r', s4, hcon, hd'⟩ := bind_run hc
  rw [setMode_bind, setUse_bind, setRec_bind] at hd'
  obtain ⟨rfl, -⟩ := pure_run hd'
  unfold conclude at hcon
  by_cases ho0 : o.ret = 0
  · rw [if_neg (by simpa using ho0)] at hcon
    obtain ⟨rfl, -⟩ := pure_run hcon
    exact absurd rfl hr
  rw [if_pos ho0] at hcon
  obtain ⟨w, s5, hw, he⟩ := bind_run hcon
  obtain ⟨res, s6, hres, hf⟩ := bind_run he
  obtain ⟨-, hev⟩ := vec_lift hres
  obtain ⟨rfl, -⟩ := pure_run hf
  refine ⟨fun i hi => ?_, fun hq hp hep => ⟨fun hfw => ?_, fun hs => ?_⟩⟩
  · obtain ⟨p, l, e⟩ := refine_head hN (loop_head ho) hw i
    have := hev i
    rw [e] at this
    exact bd_of_add (eval_bd this hi)
  · have := (loop_end hq hp hep ho ho0).1 hfw (radius0_nn hp hep hrad)
    dsimp only
    rcases this with ⟨h1, h2⟩ | h1
    · rw [h1]; exact ⟨Or.inl ⟨rfl, h2⟩, fun h => by cases h⟩
    · rw [h1]; exact ⟨Or.inr rfl, fun _ => rfl⟩
  · obtain ⟨h1, h2⟩ := (loop_end hq hp hep ho ho0).2 hs
    dsimp only
    rw [h1]; exact ⟨rfl, h2⟩

/-! ## a right-hand side that can be evaluated has no inverse functions -/

theorem coeffs_noInv [Scal (Interval D)] : ∀ {N : ℕ} {x : Fin n → Ser} {st st' : PSt (Interval D)}, coeffs P (N + 1) st = (.ok x, st') →
    ∀ i, (P.f i).noInv
  | N + 1, x, st, st', h => by
    unfold coeffs at h
    obtain ⟨y, s1, h1, -⟩ := bind_run h
    exact coeffs_noInv h1
  | 0, x, st, st', h => by
    unfold coeffs at h
    obtain ⟨y, s1, h1, h2⟩ := bind_run h
    obtain ⟨rfl, -⟩ := pure_run h1
    obtain ⟨-, s2, -, h3⟩ := bind_run h2
    obtain ⟨t, s3, ht, h4⟩ := bind_run h3
    obtain ⟨z, s4, hz, -⟩ := bind_run h4
    have htl : t.length = 1 := by
      unfold Psa.setorder at ht
      rw [if_neg (by decide)] at ht
      dsimp only at ht
      rw [if_neg (show ¬ (torg P).length ≤ ((0 : ℕ) : ℤ).toNat + 1 by simp [torg])] at ht
      obtain ⟨s, s5, -, h5⟩ := bind_run ht
      split_ifs at h5
      · obtain ⟨c, -, h6⟩ := bind_ok.1 (lift_run h5).1; cases h6; rfl
      · obtain ⟨c, -, h6⟩ := bind_ok.1 (lift_run h5).1; cases h6; rfl
    have hw : ∀ i : Fin (n + 1), (withT (fun i => [P.init i]) t i).length = 1 := fun i => by
      refine Fin.lastCases ?_ (fun j => ?_) i
      · simp only [withT, Fin.snoc_last]; exact htl
      · simp only [withT, Fin.snoc_castSucc]; rfl
    have := vec_inv (J := fun _ => True) (f := fun i => (P.f i).evalP P.p (withT (fun i => [P.init i]) t)) (Q := fun i _ => (P.f i).noInv)
      (fun i s _ a s' ha => ⟨trivial, (Expr.evalP_len1 hw ha).2⟩) _ trivial _ _ hz
    exact this.2

/-- if `ode` returns, there are no inverse functions in the right-hand side -/
theorem ode_noInv [Scal (Interval D)] (hN : 1 ≤ q.order) {k : ℕ} {st st' : PSt (Interval D)} {r : Result n} (h : ode k P q st = (.ok r, st')) :
    ∀ i, (P.f i).noInv := by
  unfold ode at h
  rw [get_bind, setMode_bind, setUse_bind, setRec_bind, setHist_bind] at h
  obtain ⟨x, s1, hx, -⟩ := bind_run h
  obtain ⟨N, hN⟩ : ∃ N, q.order = N + 1 := ⟨q.order - 1, by omega⟩
  rw [hN] at hx
  exact coeffs_noInv hx

/-! ## solutions -/

/-- every solution is enclosed -/
theorem ode_sol (hd : Data P ρ x0 t0) (hN : 1 ≤ q.order) (hN' : q.order + 1 < 2 ^ 31)
    (hauto : q.autostep = true → Forward P.start P.stop ∧ PwOk P.pw ∧ NN q.epsilon) {k : ℕ} {st st' : PSt (Interval D)} {r : Result n}
    (h : (letI := scalI fuel; ode k P q) st = (.ok r, st')) (hr : r.ret ≠ 0) {t1 : ℝ} (ht1 : t1 ∈ r.stop)
    (hle : t0 ≤ t1) : ∃ w, r.psa = some w ∧ SerOk P ρ x0 t0 q.order w ∧ ∀ y : ℝ → Fin n → ℝ, y 0 = x0 → 
      (∀ τ ∈ Set.Icc 0 (t1 - t0), HasDerivWithinAt y (field P ρ t0 τ (y τ)) (Set.Icc 0 (t1 - t0)) τ) →
      (∀ i, y (t1 - t0) i ∈ r.init i) ∧ ∀ τ ∈ Set.Icc 0 (t1 - t0), InTube P ρ x0 t0 q.order w τ (y τ) ∧
        ∀ i, (P.f i).SDom ρ (withT (y τ) (t0 + τ)) := by
  obtain ⟨w, d, hpsa, hw, hM, hdel, hev⟩ := ode_done hd hN hN' hauto h hr ht1 hle
  have hT : 0 ≤ t1 - t0 := sub_nonneg.2 hle
  refine ⟨w, hpsa, hw, fun y hy0 hy => ?_⟩
  have hin := sol_inTube hN hT hw hM hy0 hy
  exact ⟨fun i => (hin _ ⟨hT, le_rfl⟩).eval hw hdel (hev i), fun τ hτ => ⟨hin τ hτ, hM.smooth τ hτ _ (hin τ hτ)⟩⟩

end Ode
end Kv
