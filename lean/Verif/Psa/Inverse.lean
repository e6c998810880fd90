import Verif.Psa.Funcs

/-! # Power series arithmetic: division, powers, tan, tanh, and the inverse functions without remainder -/

namespace Kv
open RopSem
open Rop (lit)

namespace Psa
open PM ScalSem PowerSeries
open scoped Nat
set_option linter.unusedSectionVars false

variable {S : Type} [ScalSem S] {E : Env S}

/-! ## division -/

noncomputable def divPs (a b : PowerSeries ℝ) : PowerSeries ℝ := a * cps invD b

theorem div_spec (hE : E.Ok) {ka kb : Bool} {ca cb : PowerSeries ℝ} {va vb : ℝ} {a b : List S} (ha : Sem E ka ca va a)
    (hb : Sem E kb cb vb b) : OpT E (fun m => itr cb kb m ++ [(divPs ca cb, ka && kb)]) (ka && kb) (divPs ca cb) (va / vb)
      (coeff 0 cb ≠ 0 ∧ (E.md = 2 → vb ≠ 0)) (div a b) := by
  unfold div
  refine OpT.bind (inv_spec hE hb) fun z hz hX => ?_
  rw [div_eq_mul_inv]
  exact (Op1.opT (mul_spec hE ha hz)).imp fun _ => hX

theorem cDiv_spec (hE : E.Ok) {kb : Bool} {cb : PowerSeries ℝ} {vb : ℝ} {b : List S} (hb : Sem E kb cb vb b) {x : D} {γ : ℝ}
    (hx : Is x γ) : OpT E (fun m => itr cb kb m ++ [(C γ * cps invD cb, kb)]) kb (C γ * cps invD cb) (γ / vb)
      (coeff 0 cb ≠ 0 ∧ (E.md = 2 → vb ≠ 0)) (cDiv x b) := by
  unfold cDiv
  refine OpT.bind (inv_spec hE hb) fun z hz hX => ?_
  rw [div_eq_mul_inv]
  exact (Op1.opT (cMul_spec hE hz hx)).imp fun _ => hX

theorem tan_spec (hE : E.Ok) {k : Bool} {c : PowerSeries ℝ} {v : ℝ} {x : List S} (hx : Sem E k c v x) :
    OpT E (fun m => ctr sinD c k m ++ (ctr cosD c k m ++ (itr (cps cosD c) k m ++ [(divPs (cps sinD c) (cps cosD c), k)]))) k
      (divPs (cps sinD c) (cps cosD c)) (Real.tan v) (coeff 0 (cps cosD c) ≠ 0 ∧ (E.md = 2 → Real.cos v ≠ 0)) (tan x) := by
  unfold tan
  rw [Real.tan_eq_sin_div_cos]
  refine OpT.bind (sin_spec hE hx) fun y hy _ => OpT.bind (cos_spec hE hx) fun z hz _ => ?_
  have := div_spec hE hy hz
  simpa using this

theorem tanh_spec (hE : E.Ok) {k : Bool} {c : PowerSeries ℝ} {v : ℝ} {x : List S} (hx : Sem E k c v x) :
    OpT E (fun m => ctr sinhD c k m ++ (ctr coshD c k m ++ (itr (cps coshD c) k m ++ [(divPs (cps sinhD c) (cps coshD c), k)]))) k
      (divPs (cps sinhD c) (cps coshD c)) (Real.tanh v) True (tanh x) := by
  unfold tanh
  rw [Real.tanh_eq_sinh_div_cosh]
  refine OpT.bind (sinh_spec hE hx) fun y hy _ => OpT.bind (cosh_spec hE hx) fun z hz _ => ?_
  have := div_spec hE hy hz
  simpa using this.imp fun _ => trivial

/-- `exp(b log a)` -/
noncomputable def powPs (a b : PowerSeries ℝ) : PowerSeries ℝ := cps expD (b * cps logD a)

theorem pow_spec (hE : E.Ok) {ka kb : Bool} {ca cb : PowerSeries ℝ} {va vb : ℝ} {a b : List S} (ha : Sem E ka ca va a)
    (hb : Sem E kb cb vb b) (hd : E.s < 2 ∨ ka = true → 0 < coeff 0 ca) :
    OpT E (fun m => ctr logD ca ka m ++ ([(cb * cps logD ca, kb && ka)] ++ ctr expD (cb * cps logD ca) (kb && ka) m)) (kb && ka)
      (powPs ca cb) (Real.exp (vb * Real.log va)) (0 < coeff 0 ca ∧ (E.md = 2 → 0 < va)) (pow a b) := by
  unfold pow
  refine OpT.bind (log_spec hE ha hd) fun y hy hX => OpT.bind (Op1.opT (mul_spec hE hb hy)) fun z hz _ => ?_
  exact (exp_spec hE hz).imp fun _ => hX

/-! ## integer powers -/

theorem powLoop_spec : ∀ (tmp : ℕ) (kr kx : Bool) (cr cx : PowerSeries ℝ), ∃ T : List (PowerSeries ℝ × Bool),
    ∀ {E : Env S} (_ : E.Ok) {vr vx : ℝ} {r x : List S}, Sem E kr cr vr r → Sem E kx cx vx x →
      OpT E (fun _ => T) (if tmp = 0 then kr else kr && kx) (cr * cx ^ tmp) (vr * vx ^ tmp) True (powLoop tmp r x) := by
  intro tmp
  induction tmp using Nat.strong_induction_on with
  | _ tmp ih =>
    intro kr kx cr cx
    by_cases h0 : tmp = 0
    · subst h0
      refine ⟨[], fun {E} hE {vr vx r x} hr hx => ?_⟩
      unfold powLoop
      simp only [dite_true, if_true, pow_zero, mul_one]
      exact OpT.pure hr trivial
    · by_cases hodd : tmp % 2 ≠ 0
      · obtain ⟨T, hT⟩ := ih (tmp / 2) (by omega) (kr && kx) (kx && kx) (cr * cx) (cx * cx)
        refine ⟨[(cr * cx, kr && kx)] ++ ([(cx * cx, kx && kx)] ++ T), fun {E} hE {vr vx r x} hr hx => ?_⟩
        unfold powLoop
        rw [dif_neg h0]
        simp only [if_pos hodd]
        refine OpT.bind (T1 := fun _ => [(cr * cx, kr && kx)]) (Op1.opT (mul_spec hE hr hx)) fun y hy _ =>
          OpT.bind (T1 := fun _ => [(cx * cx, kx && kx)]) (T2 := fun _ => T) (Op1.opT (mul_spec hE hx hx)) fun z hz _ => ?_
        have e : tmp = 2 * (tmp / 2) + 1 := by omega
        refine (hT hE hy hz).congr rfl ?_ ?_ ?_
        · rw [if_neg h0]; split_ifs <;> simp
        · nth_rewrite 2 [e]; rw [pow_succ, pow_mul]; ring
        · nth_rewrite 2 [e]; rw [pow_succ, pow_mul]; ring
      · obtain ⟨T, hT⟩ := ih (tmp / 2) (by omega) kr (kx && kx) cr (cx * cx)
        refine ⟨[(cx * cx, kx && kx)] ++ T, fun {E} hE {vr vx r x} hr hx => ?_⟩
        unfold powLoop
        rw [dif_neg h0]
        simp only [if_neg hodd]
        refine OpT.bind (T1 := fun _ => []) (T2 := fun _ => [(cx * cx, kx && kx)] ++ T) (OpT.pure hr trivial) fun y hy _ =>
          OpT.bind (T1 := fun _ => [(cx * cx, kx && kx)]) (T2 := fun _ => T) (Op1.opT (mul_spec hE hx hx)) fun z hz _ => ?_
        have e : tmp = 2 * (tmp / 2) := by omega
        refine (hT hE hy hz).congr rfl ?_ ?_ ?_
        · rw [if_neg h0, if_neg (by omega)]; simp
        · nth_rewrite 2 [e]; rw [pow_mul]; ring
        · nth_rewrite 2 [e]; rw [pow_mul]; ring

/-- the power series of `cʸ` -/
noncomputable def zpowPs (c : PowerSeries ℝ) (y : ℤ) : PowerSeries ℝ :=
  if 0 ≤ y then c ^ y.natAbs else cps invD (c ^ y.natAbs)

theorem powI_spec (k : Bool) (c : PowerSeries ℝ) (y : ℤ) : ∃ T : ℕ → List (PowerSeries ℝ × Bool),
    ∀ {E : Env S} (_ : E.Ok) {v : ℝ} {x : List S}, Sem E k c v x →
      OpT E T (if y = 0 then true else k) (zpowPs c y) (v ^ y) (y < 0 → coeff 0 c ≠ 0 ∧ (E.md = 2 → v ≠ 0)) (powI x y) := by
  by_cases h0 : y = 0
  · subst h0
    refine ⟨fun _ => [], fun {E} hE {v x} hx => ?_⟩
    unfold powI
    simp only [if_true, zpow_zero]
    refine OpT.pure ?_ (fun h => absurd h (by norm_num))
    have : zpowPs c 0 = C 1 := by simp [zpowPs]
    rw [this]
    exact sem_const hE one_mem
  · obtain ⟨T, hT⟩ := powLoop_spec (S := S) y.natAbs true k 1 c
    have hn : y.natAbs ≠ 0 := by omega
    refine ⟨fun m => T ++ (if y < 0 then itr (c ^ y.natAbs) k m ++ [(cps invD (c ^ y.natAbs), k)] else []), fun {E} hE {v x} hx => ?_⟩
    unfold powI
    rw [if_neg h0, if_neg h0]
    by_cases h1 : y = -2147483648
    · rw [if_pos h1]
      refine OpT.dead fun st z st' hz => ?_
      have := (lift_run hz).1
      cases this
    rw [if_neg h1]
    have one1 : Sem E true 1 1 [(one : S)] := by simpa using sem_const hE one_mem
    refine OpT.bind (hT hE one1 hx) fun r hr _ => ?_
    rw [if_neg hn] at hr
    simp only [one_mul, Bool.true_and] at hr
    by_cases hy : y < 0
    · simp only [if_pos hy]
      have hD := cDiv_spec hE hr Interval.is_one
      refine (hD.imp fun hX => ?_).congr (by simp) rfl ?_ ?_
      · intro _
        obtain ⟨g1, g2⟩ := hX
        refine ⟨fun h => g1 ?_, fun h2 h => g2 h2 (by rw [h, zero_pow hn])⟩
        rw [coeff_zero_eq_constantCoeff_apply] at h ⊢
        rw [map_pow, h, zero_pow hn]
      · rw [zpowPs, if_neg (by omega)]; simp
      · have e : y = -(y.natAbs : ℤ) := by omega
        nth_rewrite 2 [e]
        rw [zpow_neg, zpow_natCast, one_div]
    · simp only [if_neg hy]
      refine (OpT.pure hr (fun h => absurd h hy)).congr rfl rfl ?_ ?_
      · rw [zpowPs, if_pos (by omega)]
      · have e : y = (y.natAbs : ℤ) := by omega
        nth_rewrite 2 [e]
        rw [zpow_natCast]

/-! ## inverse functions, mode 1 -/

/-- coefficients of a function from its value and the coefficients of its derivative -/
noncomputable def iC (f0 : ℝ) (d : PowerSeries ℝ) : ℕ → ℝ
  | 0 => f0
  | i + 1 => coeff i d / (i + 1 : ℕ)

/-- the environment of the inner computation -/
def inner (E : Env S) (g : List (List S)) : Env S := ⟨1, E.d, E.s - 1, 1, E.s - 1, 0, g⟩

theorem inner_ok (hE : E.Ok) (h : 2 ≤ E.s) (g : List (List S)) : (inner E g).Ok where
  cases' := Or.inl ⟨rfl, rfl⟩
  one_le := le_refl 1
  le := by show 1 ≤ E.s - 1; omega
  l_pos := by show 1 ≤ E.s - 1; omega
  small := by
    show E.s - 1 < 2 ^ 31
    have := hE.small; omega

theorem inner_at {E : Env S} {u r : Bool} {g} {st : PSt S} (h : At (inner E g) u r [] [] st) :
    st.mode = 1 ∧ st.domain = E.d ∧ st.hist = g := by
  refine ⟨h.mode, h.domain, ?_⟩
  obtain ⟨U, P, hh, hU, hP⟩ := h.inv
  cases hU; cases hP
  simpa [inner] using hh

/-- the series of the identity -/
theorem unitSeries_spec (hE : E.Ok) {k : Bool} {c : PowerSeries ℝ} {v : ℝ} {x t : List S} (hx : Sem E k c v x)
    {st st' : PSt S} (hm : st.mode = 1) (h0 : unitSeries x st = (.ok t, st')) :
    st' = st ∧ k = false ∧ 2 ≤ E.s ∧ ∀ g, Sem (inner E g) false (C (coeff 0 c) + X) 0 t := by
  unfold unitSeries at h0
  obtain ⟨a, st1, ha, h⟩ := bind_run h0
  clear h0
  obtain ⟨ha', rfl⟩ := lift_run ha
  unfold setorder at h
  split_ifs at h with hneg
  · cases (lift_run h).1
  have hk : k = false ∧ 2 ≤ E.s := by
    have h1 := hx.len
    cases k with
    | true => simp at h1; omega
    | false => simp at h1; exact ⟨rfl, by omega⟩
  have hlen : x.length = E.s := by simpa [hk.1] using hx.len
  have hn : ((x.length : ℤ) - 2).toNat = E.s - 2 := by omega
  have hc := hx.head hE ha'
  simp only [hn] at h
  have key : ∀ t : List S, t.length = E.s - 1 → Mem (fun i => coeff i (C (coeff 0 c) + X)) t →
      ∀ g, Sem (inner E g) false (C (coeff 0 c) + X) 0 t := fun t h1 h3 g =>
    ⟨by simpa [inner] using h1, fun h => (by cases h), _, h3, fun _ _ => rfl, fun h => (by cases h), fun h => (by cases h)⟩
  by_cases hs : [a, one].length ≤ E.s - 2 + 1
  · simp only [if_pos hs] at h
    obtain ⟨rfl, rfl⟩ := pure_run h
    refine ⟨rfl, hk.1, hk.2, key _ ?_ ?_⟩
    · simp at hs ⊢; omega
    · simp only [List.cons_append, List.nil_append]
      rw [Mem.cons, Mem.cons]
      refine ⟨by simpa using hc, by simpa [PowerSeries.coeff_C] using one_mem, ?_⟩
      intro i b hb
      rw [List.getElem?_replicate] at hb
      split_ifs at hb
      cases hb
      have : coeff (i + 1 + 1) (C (coeff 0 c) + X : PowerSeries ℝ) = 0 := by
        rw [map_add, PowerSeries.coeff_C, PowerSeries.coeff_X]; simp
      show mem (coeff (i + 1 + 1) (C (coeff 0 c) + X : PowerSeries ℝ)) zero
      rw [this]; exact zero_mem
  · simp only [if_neg hs] at h
    rw [get_bind, hm] at h
    simp only [if_true] at h
    obtain ⟨ht, rfl⟩ := lift_run h
    obtain ⟨b, hb, ht⟩ := bind_ok.1 ht
    cases ht
    have hs2 : E.s = 2 := by simp at hs; omega
    rw [hs2] at hb
    have : b = a := by
      have := at_ok hb; simpa using this.symm
    subst this
    refine ⟨rfl, hk.1, hk.2, key _ ?_ ?_⟩
    · rw [hs2]; rfl
    · rw [hs2]
      simp only [Nat.sub_self, List.take_zero, List.nil_append]
      rw [Mem.cons]
      exact ⟨by simpa using hc, fun i b hb => by simp at hb⟩

/-- specification of the inner computation of the derivative -/
def DerivOk (d : PowerSeries ℝ) (c0 : ℝ) (XD : Prop) (deriv : List S → PM S (List S)) : Prop :=
  ∀ E' : Env S, E'.Ok → E'.md = 1 → ∀ t : List S, Sem E' false (C c0 + X) 0 t →
    ∃ T w, OpT E' T false d w XD (deriv t)

theorem invFn_spec (hE : E.Ok) (h2 : E.md ≠ 2) {k : Bool} {c : PowerSeries ℝ} {v : ℝ} {x : List S} (hx : Sem E k c v x) {f : Un}
    {deriv : List S → PM S (List S)} {d : PowerSeries ℝ} {XD : Prop} (hd : DerivOk d (coeff 0 c) XD deriv)
    (hf : ∀ {a z : S}, Scal.un f a = .ok z → mem (coeff 0 c) a → XD → f.Dom (coeff 0 c)) :
    OpT E (trT (iC (f.real (coeff 0 c)) d) (c - C (coeff 0 c)) k (comp (iC (f.real (coeff 0 c)) d) (c - C (coeff 0 c)))) k
      (comp (iC (f.real (coeff 0 c)) d) (c - C (coeff 0 c))) (f.real v) (XD ∧ f.Dom (coeff 0 c)) (invFn (Scal.un f) deriv x) := by
  intro u r TU TP st hst z st' hz
  have hm1 := (hE.one h2).1
  have hls := (hE.one h2).2
  unfold invFn at hz
  rw [get_bind] at hz
  have hmode := hst.mode
  rw [if_neg (by rw [hmode]; exact h2), if_neg (by rw [hmode]; exact h2)] at hz
  obtain ⟨_, st1, e1, y1⟩ := bind_run hz
  simp only [setUse] at e1
  cases e1
  obtain ⟨_, st2, e2, y2⟩ := bind_run y1
  simp only [setRec] at e2
  cases e2
  obtain ⟨_, st3, e3, y3⟩ := bind_run y2
  obtain ⟨-, rfl⟩ := pure_run e3
  obtain ⟨t, st4, e4, y4⟩ := bind_run y3
  obtain ⟨rfl, rfl, hs2, ht⟩ := unitSeries_spec hE hx (by exact hmode.trans hm1) e4
  obtain ⟨a, st5, e5, y5⟩ := bind_run y4
  obtain ⟨ha, rfl⟩ := lift_run e5
  obtain ⟨w, st6, e6, y6⟩ := bind_run y5
  obtain ⟨hw, rfl⟩ := lift_run e6
  obtain ⟨g, st7, e7, y7⟩ := bind_run y6
  obtain ⟨T, wv, hT⟩ := hd (inner E st.hist) (inner_ok hE hs2 _) rfl t (ht st.hist)
  have hT := hT false false [] [] { st with use := false, record := false }
    ⟨hmode.trans hm1, hst.domain, rfl, rfl, [], [], by simp [inner], .nil, .nil⟩ g st7 e7
  simp only [pushT, Bool.false_eq_true, if_false] at hT
  obtain ⟨hat, hg, hXD⟩ := hT
  obtain ⟨hm7, hd7, hh7⟩ := inner_at hat
  obtain ⟨tl, st8, e8, y8⟩ := bind_run y7
  obtain ⟨htl, rfl⟩ := lift_run e8
  obtain ⟨_, st9, e9, y9⟩ := bind_run y8
  simp only [setUse] at e9
  cases e9
  obtain ⟨_, st10, e10, y10⟩ := bind_run y9
  simp only [setRec] at e10
  cases e10
  obtain ⟨_, st11, e11, y11⟩ := bind_run y10
  obtain ⟨-, rfl⟩ := pure_run e11
  obtain ⟨r0, st12, e12, y12⟩ := bind_run y11
  obtain ⟨hr0, rfl⟩ := lift_run e12
  -- the coefficients
  have hc := hx.head hE ha
  have hmw : mem (f.real (coeff 0 c)) w := un_mem hw hc (hf hw hc hXD)
  have htlm : Mem (iC (f.real (coeff 0 c)) d) tl := by
    obtain ⟨y, hy, htl⟩ := bind_ok.1 htl
    unfold integrate at hy
    obtain ⟨l, hl, hy⟩ := bind_ok.1 hy
    cases hy
    unfold scalarPlus addHead at htl
    obtain ⟨y0, hy0, htl⟩ := bind_ok.1 htl
    cases htl
    obtain ⟨p, hp, hrp⟩ := hg.rep
    have hlen : g.length = E.s - 1 := by simpa [inner] using hg.len
    rw [Mem.cons]
    refine ⟨?_, tab_all hl fun i b hi hb => ?_⟩
    · have := (bin_mem hy0 zero_mem hmw).2
      simpa [Bin.real, iC] using this
    · obtain ⟨gi, hgi, hb⟩ := bind_ok.1 hb
      have m1 := hp.at hgi
      rw [hrp.low i (by show i < E.s - 1; omega)] at m1
      have := (binC_mem hb m1 (is_succ hE (show i < E.s by omega))).2
      simpa [Bin.real, iC] using this
  refine taylor_spec hE hx (κ := 1) (g := v - coeff 0 c) (fv := f.real v) (Kinv := fun _ _ => True) (Extra := True) one_ne_zero
    (by simp) (b := iC (f.real (coeff 0 c)) d) (by simp)
    (fun _ => ⟨rfl, ?_, ?_, fun h => absurd h h2⟩) (fun h => by cases h) (htlm.at hr0) (fun _ => trivial) u r TU TP _ ?_ z st' y12
    |> fun h => ⟨h.1, h.2.1, hXD, hf hw hc hXD⟩
  · rintro hl ⟨⟩
    exact center_sem hE hx
  · intro i κ κ' y hi _ hy
    obtain ⟨q, hq, hy⟩ := bind_ok.1 hy
    cases hy
    exact ⟨trivial, htlm.at hq⟩
  · refine ⟨hm7.trans hm1.symm, hd7, hst.use, hst.record, ?_⟩
    have hi := hst.inv
    rw [← hh7] at hi
    exact hi

theorem coeff_comp_zero (a : ℕ → ℝ) (h : PowerSeries ℝ) : coeff 0 (comp a h) = a 0 := by
  rw [comp, coeff_mk]; simp

theorem coeff_cps_zero (F : ℕ → ℝ → ℝ) (c : PowerSeries ℝ) : coeff 0 (cps F c) = F 0 (coeff 0 c) := by
  rw [cps, coeff_comp_zero]; simp [tcf]

/-- the series of the identity at `c0` -/
noncomputable def idPs (c0 : ℝ) : PowerSeries ℝ := C c0 + X

theorem coeff_idPs (c0 : ℝ) : coeff 0 (idPs c0) = c0 := by simp [idPs]
theorem coeff_idPs_sq (c0 : ℝ) : coeff 0 (idPs c0 * idPs c0) = c0 * c0 := by
  rw [coeff_zero_eq_constantCoeff_apply, map_mul, ← coeff_zero_eq_constantCoeff_apply, coeff_idPs]

/-- derivatives of the inverse functions as power series -/
noncomputable def dAsin (c0 : ℝ) : PowerSeries ℝ := C 1 * cps invD (cps sqrtD (-(idPs c0 * idPs c0) + C 1))
noncomputable def dAcos (c0 : ℝ) : PowerSeries ℝ := C (-1) * cps invD (cps sqrtD (-(idPs c0 * idPs c0) + C 1))
noncomputable def dAtan (c0 : ℝ) : PowerSeries ℝ := C 1 * cps invD (idPs c0 * idPs c0 + C 1)
noncomputable def dAsinh (c0 : ℝ) : PowerSeries ℝ := C 1 * cps invD (cps sqrtD (idPs c0 * idPs c0 + C 1))
noncomputable def dAcosh (c0 : ℝ) : PowerSeries ℝ := C 1 * cps invD (cps sqrtD (idPs c0 * idPs c0 - C 1))
noncomputable def dAtanh (c0 : ℝ) : PowerSeries ℝ := C 1 * cps invD (-(idPs c0 * idPs c0) + C 1)

theorem cSubSq_spec (hE : E.Ok) {k : Bool} {c : PowerSeries ℝ} {v : ℝ} {t : List S} (ht : Sem E k c v t) {x : D} {γ : ℝ}
    (hx : Is x γ) : ∃ T, OpT E T k (-(c * c) + C γ) (-(v * v) + γ) True (cSubSq x t) := by
  refine ⟨_, OpT.bind (T2 := fun _ => []) (Op1.opT (mul_spec hE ht ht)) fun q hq _ => OpT.bind_lift fun q' hq' => OpT.lift fun z hz => ?_⟩
  rw [Bool.and_self] at hq
  exact ⟨addHeadC_sem hE (neg_sem hq hq') hx hz, trivial⟩

theorem asin_deriv (c0 : ℝ) : DerivOk (S := S) (dAsin c0) c0 (0 < 1 - c0 * c0)
    (fun t => do cDiv (lit 1) (← sqrt (← cSubSq (lit 1) t))) := by
  intro E' hE' _ t ht
  obtain ⟨T, hT⟩ := cSubSq_spec hE' ht Interval.is_one
  refine ⟨_, _, OpT.bind hT fun y hy _ => OpT.bind (sqrt_spec hE' hy) fun w hw hX => (cDiv_spec hE' hw Interval.is_one).imp fun _ => ?_⟩
  have := hX.1
  rw [map_add, map_neg, show (C c0 + X : PowerSeries ℝ) = idPs c0 from rfl, coeff_idPs_sq] at this
  simp at this; linarith

theorem acos_deriv (c0 : ℝ) : DerivOk (S := S) (dAcos c0) c0 (0 < 1 - c0 * c0)
    (fun t => do cDiv (lit (-1)) (← sqrt (← cSubSq (lit 1) t))) := by
  intro E' hE' _ t ht
  obtain ⟨T, hT⟩ := cSubSq_spec hE' ht Interval.is_one
  refine ⟨_, _, OpT.bind hT fun y hy _ => OpT.bind (sqrt_spec hE' hy) fun w hw hX => (cDiv_spec hE' hw Interval.is_neg_one).imp fun _ => ?_⟩
  have := hX.1
  rw [map_add, map_neg, show (C c0 + X : PowerSeries ℝ) = idPs c0 from rfl, coeff_idPs_sq] at this
  simp at this; linarith

theorem atan_deriv (c0 : ℝ) : DerivOk (S := S) (dAtan c0) c0 True
    (fun t => do
      let q ← mul t t
      cDiv (lit 1) (← lift (addHeadC q (lit 1)))) := by
  intro E' hE' _ t ht
  refine ⟨_, _, OpT.bind (Op1.opT (mul_spec hE' ht ht)) fun q hq _ => OpT.bind_lift fun y hy => (cDiv_spec hE' (addHeadC_sem hE' hq Interval.is_one hy) Interval.is_one).imp fun _ => trivial⟩

theorem asinh_deriv (c0 : ℝ) : DerivOk (S := S) (dAsinh c0) c0 True
    (fun t => do
      let q ← mul t t
      cDiv (lit 1) (← sqrt (← lift (addHeadC q (lit 1))))) := by
  intro E' hE' _ t ht
  refine ⟨_, _, OpT.bind (Op1.opT (mul_spec hE' ht ht)) fun q hq _ => OpT.bind_lift fun y hy =>
    OpT.bind (sqrt_spec hE' (addHeadC_sem hE' hq Interval.is_one hy)) fun w hw _ => (cDiv_spec hE' hw Interval.is_one).imp fun _ => trivial⟩

theorem acosh_deriv (c0 : ℝ) : DerivOk (S := S) (dAcosh c0) c0 (0 < c0 * c0 - 1)
    (fun t => do
      let q ← mul t t
      cDiv (lit 1) (← sqrt (← lift (subHeadC q (lit 1))))) := by
  intro E' hE' _ t ht
  refine ⟨_, _, OpT.bind (Op1.opT (mul_spec hE' ht ht)) fun q hq _ => OpT.bind_lift fun y hy =>
    OpT.bind (sqrt_spec hE' (subHeadC_sem hE' hq Interval.is_one hy)) fun w hw hX => (cDiv_spec hE' hw Interval.is_one).imp fun _ => ?_⟩
  have := hX.1
  rw [map_sub, show (C c0 + X : PowerSeries ℝ) = idPs c0 from rfl, coeff_idPs_sq] at this
  simp at this; linarith

theorem atanh_deriv (c0 : ℝ) : DerivOk (S := S) (dAtanh c0) c0 (1 - c0 * c0 ≠ 0)
    (fun t => do cDiv (lit 1) (← cSubSq (lit 1) t)) := by
  intro E' hE' _ t ht
  obtain ⟨T, hT⟩ := cSubSq_spec hE' ht Interval.is_one
  refine ⟨_, _, OpT.bind hT fun y hy _ => (cDiv_spec hE' hy Interval.is_one).imp fun hX => ?_⟩
  have := hX.1
  rw [map_add, map_neg, show (C c0 + X : PowerSeries ℝ) = idPs c0 from rfl, coeff_idPs_sq] at this
  intro h; apply this; simp; linarith

end Psa

/-- the points at which the function is smooth -/
def Un.SDom : Un → ℝ → Prop
  | .log, x => 0 < x
  | .sqrt, x => 0 < x
  | .tan, x => Real.cos x ≠ 0
  | .asin, x => -1 < x ∧ x < 1
  | .acos, x => -1 < x ∧ x < 1
  | .acosh, x => 1 < x
  | .atanh, x => -1 < x ∧ x < 1
  | _, _ => True

/-- the inverse functions of trigonometric and hyperbolic functions -/
def Un.isInv : Un → Bool
  | .asin | .acos | .atan | .asinh | .acosh | .atanh => true
  | _ => false

namespace Psa
open PM ScalSem PowerSeries

/-- Taylor coefficients of the inverse functions -/
noncomputable def invCo : Un → ℝ → ℕ → ℝ
  | .asin, c0 => iC (Real.arcsin c0) (dAsin c0)
  | .acos, c0 => iC (Real.arccos c0) (dAcos c0)
  | .atan, c0 => iC (Real.arctan c0) (dAtan c0)
  | .asinh, c0 => iC (Real.arsinh c0) (dAsinh c0)
  | .acosh, c0 => iC (Real.arcosh c0) (dAcosh c0)
  | .atanh, c0 => iC (Real.artanh c0) (dAtanh c0)
  | _, _ => fun _ => 0

/-- the power series of `f(c)` -/
noncomputable def psUn : Un → PowerSeries ℝ → PowerSeries ℝ
  | .neg, c => -c
  | .exp, c => cps expD c
  | .log, c => cps logD c
  | .sqrt, c => cps sqrtD c
  | .sin, c => cps sinD c
  | .cos, c => cps cosD c
  | .tan, c => divPs (cps sinD c) (cps cosD c)
  | .sinh, c => cps sinhD c
  | .cosh, c => cps coshD c
  | .tanh, c => divPs (cps sinhD c) (cps coshD c)
  | f, c => comp (invCo f (coeff 0 c)) (c - C (coeff 0 c))

variable {S : Type} [ScalSem S]

theorem un_spec (f : Un) (k : Bool) (c : PowerSeries ℝ) : ∃ T : ℕ → List (PowerSeries ℝ × Bool),
    ∀ {E : Env S} (_ : E.Ok) {v : ℝ} {x : List S}, Sem E k c v x → (E.md = 2 → f.isInv = false) →
      (f = .log → E.s < 2 ∨ k = true → 0 < coeff 0 c) →
      OpT E T k (psUn f c) (f.real v) (f.SDom (coeff 0 c) ∧ (E.md = 2 → f.SDom v)) (un f x) := by
  have tt : ∀ {E : Env S} {g : Un} {a b : ℝ}, (∀ t, g.SDom t) → True → g.SDom a ∧ (E.md = 2 → g.SDom b) :=
    fun h _ => ⟨h _, fun _ => h _⟩
  have ci : coeff 0 (cps cosD c) = Real.cos (coeff 0 c) := by
    rw [coeff_cps_zero]; simp [cosD, sinD]
  have sq : ∀ {t : ℝ}, 0 < 1 - t * t → -1 < t ∧ t < 1 := fun h => ⟨by nlinarith, by nlinarith⟩
  cases f with
  | neg =>
    refine ⟨fun _ => [], fun {E} hE {v x} hx _ _ => OpT.lift fun z hz => ⟨neg_sem hx hz, trivial, fun _ => trivial⟩⟩
  | exp => exact ⟨_, fun {E} hE {v x} hx _ _ => (exp_spec hE hx).imp (tt fun _ => trivial)⟩
  | log => exact ⟨_, fun {E} hE {v x} hx _ hd => log_spec hE hx (hd rfl)⟩
  | sqrt => exact ⟨_, fun {E} hE {v x} hx _ _ => sqrt_spec hE hx⟩
  | sin => exact ⟨_, fun {E} hE {v x} hx _ _ => (sin_spec hE hx).imp (tt fun _ => trivial)⟩
  | cos => exact ⟨_, fun {E} hE {v x} hx _ _ => (cos_spec hE hx).imp (tt fun _ => trivial)⟩
  | tan => exact ⟨_, fun {E} hE {v x} hx _ _ => (tan_spec hE hx).imp fun h => ⟨by show Real.cos _ ≠ 0; rw [← ci]; exact h.1, h.2⟩⟩
  | sinh => exact ⟨_, fun {E} hE {v x} hx _ _ => (sinh_spec hE hx).imp (tt fun _ => trivial)⟩
  | cosh => exact ⟨_, fun {E} hE {v x} hx _ _ => (cosh_spec hE hx).imp (tt fun _ => trivial)⟩
  | tanh => exact ⟨_, fun {E} hE {v x} hx _ _ => (tanh_spec hE hx).imp (tt fun _ => trivial)⟩
  | asin =>
    refine ⟨trT (invCo .asin (coeff 0 c)) (c - C (coeff 0 c)) k (psUn .asin c), fun {E} hE {v x} hx hi _ => ?_⟩
    have h2 : E.md ≠ 2 := fun h => by have := hi h; cases this
    refine (invFn_spec (f := .asin) hE h2 hx (asin_deriv _) fun _ _ h => ?_).imp fun h => ⟨sq h.1, fun h => absurd h h2⟩
    exact ⟨(sq h).1.le, (sq h).2.le⟩
  | acos =>
    refine ⟨trT (invCo .acos (coeff 0 c)) (c - C (coeff 0 c)) k (psUn .acos c), fun {E} hE {v x} hx hi _ => ?_⟩
    have h2 : E.md ≠ 2 := fun h => by have := hi h; cases this
    refine (invFn_spec (f := .acos) hE h2 hx (acos_deriv _) fun _ _ h => ?_).imp fun h => ⟨sq h.1, fun h => absurd h h2⟩
    exact ⟨(sq h).1.le, (sq h).2.le⟩
  | atan =>
    refine ⟨trT (invCo .atan (coeff 0 c)) (c - C (coeff 0 c)) k (psUn .atan c), fun {E} hE {v x} hx hi _ => ?_⟩
    have h2 : E.md ≠ 2 := fun h => by have := hi h; cases this
    exact (invFn_spec (f := .atan) hE h2 hx (atan_deriv _) fun _ _ h => trivial).imp fun _ => tt (fun _ => trivial) trivial
  | asinh =>
    refine ⟨trT (invCo .asinh (coeff 0 c)) (c - C (coeff 0 c)) k (psUn .asinh c), fun {E} hE {v x} hx hi _ => ?_⟩
    have h2 : E.md ≠ 2 := fun h => by have := hi h; cases this
    exact (invFn_spec (f := .asinh) hE h2 hx (asinh_deriv _) fun _ _ h => trivial).imp fun _ => tt (fun _ => trivial) trivial
  | acosh =>
    refine ⟨trT (invCo .acosh (coeff 0 c)) (c - C (coeff 0 c)) k (psUn .acosh c), fun {E} hE {v x} hx hi _ => ?_⟩
    have h2 : E.md ≠ 2 := fun h => by have := hi h; cases this
    refine (invFn_spec (f := .acosh) hE h2 hx (acosh_deriv _) fun h1 h2 _ => un_ok (f := .acosh) h1 h2).imp fun h =>
      ⟨?_, fun h => absurd h h2⟩
    have h3 : 1 ≤ coeff 0 c := h.2
    have h4 := h.1
    show 1 < coeff 0 c
    nlinarith
  | atanh =>
    refine ⟨trT (invCo .atanh (coeff 0 c)) (c - C (coeff 0 c)) k (psUn .atanh c), fun {E} hE {v x} hx hi _ => ?_⟩
    have h2 : E.md ≠ 2 := fun h => by have := hi h; cases this
    refine (invFn_spec (f := .atanh) hE h2 hx (atanh_deriv _) fun h1 h2 h3 => ?_).imp fun h => ⟨h.2, fun h => absurd h h2⟩
    obtain ⟨h4, h5⟩ : -1 ≤ coeff 0 c ∧ coeff 0 c ≤ 1 := un_ok (f := .atanh) h1 h2
    refine ⟨lt_of_le_of_ne h4 fun h => h3 ?_, lt_of_le_of_ne h5 fun h => h3 ?_⟩
    · rw [← h]; norm_num
    · rw [h]; norm_num

end Psa
end Kv
