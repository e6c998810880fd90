import Verif.Ode.Loop
import Verif.Ode.Picard
import Verif.Ode.Smooth

/-! # What a successful call of `ode` establishes -/

namespace Kv
open PowerSeries Psa PM Kraw RopSem
open Rop (lit)
set_option linter.unusedVariables false

namespace Ode
variable {n : ℕ} {P : Problem n} {q : Param} {ρ : ℕ → ℝ} {x0 : Fin n → ℝ} {t0 : ℝ} {fuel : ℕ}

/-- a successful call: the series are mapped to themselves by the Picard operator -/
theorem ode_done (hd : Data P ρ x0 t0) (hN : 1 ≤ q.order) (hN' : q.order + 1 < 2 ^ 31)
    (hauto : q.autostep = true → Forward P.start P.stop ∧ PwOk P.pw ∧ NN q.epsilon) {k : ℕ} {st st' : PSt (Interval D)} {r : Result n}
    (h : (letI := scalI fuel; ode k P q) st = (.ok r, st')) (hr : r.ret ≠ 0) {t1 : ℝ} (ht1 : t1 ∈ r.stop) (hle : t0 ≤ t1) :
    ∃ w d, r.psa = some w ∧ SerOk P ρ x0 t0 q.order w ∧ Maps P ρ x0 t0 q.order (t1 - t0) w w ∧ t1 - t0 ∈ d ∧
      ∀ i, (letI := scalI fuel; Psa.eval (w i) d) = .ok (r.init i) := by
  let _ := semI fuel
  obtain ⟨T, hT⟩ := evalSpec (fuel := fuel) hd
  change ode k P q st = (.ok r, st') at h
  unfold ode at h
  rw [get_bind, setMode_bind, setUse_bind, setRec_bind, setHist_bind] at h
  obtain ⟨x, s1, hx, ha⟩ := bind_run h
  obtain ⟨⟨c1, c2, c3, -, c5⟩, hxs, -⟩ := coeffs_spec hd hT hN' rfl rfl rfl rfl hx
  obtain ⟨radius, s2, hradl, hb⟩ := bind_run ha
  obtain ⟨hrad, rfl⟩ := lift_run hradl
  rw [setMode_bind] at hb
  obtain ⟨o, s3, ho, hc⟩ := bind_run hb
  obtain ⟨r', s4, hcon, hd'⟩ := bind_run hc
  rw [setMode_bind, setUse_bind, setRec_bind] at hd'
  obtain ⟨rfl, -⟩ := pure_run hd'
  have hx0 : SerOk P ρ x0 t0 q.order x := ⟨fun i => (hxs i).1, fun i => (hxs i).2⟩
  have hist : HistOk fuel T q.order { s2 with mode := 2 } := by
    by_cases h2 : 2 ≤ q.order
    · exact Or.inr ⟨by simpa [h2] using c2, c3, c5 hN⟩
    · exact Or.inl (by simpa [h2] using c2)
  unfold conclude at hcon
  by_cases ho0 : o.ret = 0
  · rw [if_neg (by simpa using ho0)] at hcon
    obtain ⟨rfl, -⟩ := pure_run hcon
    exact absurd rfl hr
  rw [if_pos ho0] at hcon
  obtain ⟨w, s5, hw, he⟩ := bind_run hcon
  obtain ⟨res, s6, hres, hf⟩ := bind_run he
  obtain ⟨-, hev⟩ := vec_lift hres
  obtain ⟨rfl, -⟩ := pure_run hf
  have hdone := loop_spec hd hT hN hN' hauto hx0 (fun hq => radius0_nn (hauto hq).2.1 (hauto hq).2.2 hrad) (Or.inr ⟨rfl, hist⟩) ho ho0 t1 ht1 hle
  obtain ⟨g1, g2⟩ := refine_spec hd hT hN hN' (sub_nonneg.2 hle) hdone.tlen hdone.tcon hdone.mode hdone.hist hdone.dom hdone.ser hdone.maps hw
  exact ⟨w, o.deltat, rfl, g1, g2, hdone.delta, hev⟩

/-- the points of the tube are in the value of the series -/
theorem InTube.eval {w : Fin n → Ser} {N : ℕ} (hw : SerOk P ρ x0 t0 N w) {τ : ℝ} {v : Fin n → ℝ} (hv : InTube P ρ x0 t0 N w τ v)
    {d : Interval D} (hd : τ ∈ d) {i : Fin n} {Z : Interval D} (h : (letI := scalI fuel; Psa.eval (w i) d) = .ok Z) : v i ∈ Z := by
  let _ := semI fuel
  obtain ⟨r, A, h1, h2, h3⟩ := hv i
  have := polyrange_mem (S := Interval D) (p := fun k => if k < N then coeff k (fsol P.f ρ x0 t0 i) else r) hd (fun k B hB => ?_) h
  · change ∑ k ∈ Finset.range (w i).length, (if k < N then coeff k (fsol P.f ρ x0 t0 i) else r) * τ ^ k ∈ Z at this
    rw [hw.len i, Finset.sum_range_succ, if_neg (lt_irrefl N), Finset.sum_congr rfl fun k hk => by rw [if_pos (Finset.mem_range.1 hk)]] at this
    rw [h3]; exact this
  · show (if k < N then coeff k (fsol P.f ρ x0 t0 i) else r) ∈ B
    split_ifs with hk
    · exact hw.con i k B hB
    · have := getElem?_lt hB
      obtain rfl : k = N := by have := hw.len i; omega
      rw [h1] at hB; cases hB; exact h2

/-- the lower and upper boundary of the tube -/
noncomputable def bound (P : Problem n) (ρ : ℕ → ℝ) (x0 : Fin n → ℝ) (t0 : ℝ) (N : ℕ) (c : Fin n → ℝ) (τ : ℝ) (i : Fin n) : ℝ :=
  ∑ k ∈ Finset.range N, coeff k (fsol P.f ρ x0 t0 i) * τ ^ k + c i * τ ^ N

theorem bound_continuous (N : ℕ) (c : Fin n → ℝ) : Continuous (bound P ρ x0 t0 N c) := by
  unfold bound
  refine continuous_pi fun i => ?_
  fun_prop

theorem bd_mem {A : Interval D} (h : Bd A) {r : ℝ} : r ∈ A ↔ dbl A.inf ≤ r ∧ r ≤ dbl A.sup := mem_of_bd h

theorem tube_box {N : ℕ} (hN : 1 ≤ N) {w : Fin n → Ser} (hw : SerOk P ρ x0 t0 N w) {A : Fin n → Interval D} (hA : ∀ i, (w i)[N]? = some (A i))
    (hb : ∀ i, Bd (A i)) {τ : ℝ} (hτ : 0 ≤ τ) {v : Fin n → ℝ} : InTube P ρ x0 t0 N w τ v ↔
      v ∈ Set.Icc (bound P ρ x0 t0 N (fun i => dbl (A i).inf) τ) (bound P ρ x0 t0 N (fun i => dbl (A i).sup) τ) := by
  constructor
  · intro h
    refine ⟨fun i => ?_, fun i => ?_⟩ <;>
    · obtain ⟨r, B, h1, h2, h3⟩ := h i
      rw [hA i] at h1; cases h1
      have := (bd_mem (hb i)).1 h2
      have hp : 0 ≤ τ ^ N := pow_nonneg hτ N
      rw [h3]
      unfold bound
      have a1 := mul_le_mul_of_nonneg_right this.1 hp
      have a2 := mul_le_mul_of_nonneg_right this.2 hp
      linarith
  · rintro ⟨h1, h2⟩ i
    have g1 := h1 i
    have g2 := h2 i
    unfold bound at g1 g2
    rcases hτ.eq_or_lt with rfl | h0
    · rw [zero_pow (by omega), mul_zero, add_zero] at g1 g2
      obtain ⟨B, b1, b2⟩ := hw.last i
      refine ⟨_, B, b1, b2, ?_⟩
      rw [zero_pow (by omega), mul_zero, add_zero]
      exact le_antisymm g2 g1
    · have hp : 0 < τ ^ N := pow_pos h0 N
      refine ⟨(v i - ∑ k ∈ Finset.range N, coeff k (fsol P.f ρ x0 t0 i) * τ ^ k) / τ ^ N, A i, hA i, (bd_mem (hb i)).2 ⟨?_, ?_⟩, ?_⟩
      · rw [le_div_iff₀ hp]; linarith
      · rw [div_le_iff₀ hp]; linarith
      · rw [div_mul_cancel₀ _ hp.ne']; ring

/-- with a bounded value at a positive time, the remainders are bounded -/
theorem rem_bd {N : ℕ} {w : Fin n → Ser} (hw : SerOk P ρ x0 t0 N w) {τ : ℝ} (hτ : 0 < τ) {d : Interval D} (hd : τ ∈ d) {Z : Fin n → Interval D}
    (hZ : ∀ i, Bd (Z i)) (h : ∀ i, (letI := scalI fuel; Psa.eval (w i) d) = .ok (Z i)) {i : Fin n} {A : Interval D} (hA : (w i)[N]? = some A) :
    Bd A := by
  have hp : 0 < τ ^ N := pow_pos hτ N
  have key : ∀ r : ℝ, r ∈ A → dbl (Z i).inf ≤ (∑ k ∈ Finset.range N, coeff k (fsol P.f ρ x0 t0 i) * τ ^ k) + r * τ ^ N ∧
      (∑ k ∈ Finset.range N, coeff k (fsol P.f ρ x0 t0 i) * τ ^ k) + r * τ ^ N ≤ dbl (Z i).sup := by
    intro r hr
    have hin : InTube P ρ x0 t0 N w τ fun j => if j = i then (∑ k ∈ Finset.range N, coeff k (fsol P.f ρ x0 t0 i) * τ ^ k) + r * τ ^ N else
        (∑ k ∈ Finset.range N, coeff k (fsol P.f ρ x0 t0 j) * τ ^ k) + coeff N (fsol P.f ρ x0 t0 j) * τ ^ N := by
      intro j
      by_cases hj : j = i
      · subst hj; exact ⟨r, A, hA, hr, if_pos rfl⟩
      · obtain ⟨B, b1, b2⟩ := hw.last j
        exact ⟨_, B, b1, b2, if_neg hj⟩
    have := hin.eval hw hd (h i)
    simp only [if_true] at this
    exact (mem_of_bd (hZ i)).1 this
  obtain ⟨B, b1, b2⟩ := hw.last i
  rw [hA] at b1; cases b1
  set c := coeff N (fsol P.f ρ x0 t0 i)
  set S := ∑ k ∈ Finset.range N, coeff k (fsol P.f ρ x0 t0 i) * τ ^ k
  constructor
  · rcases D_cases A.inf with h' | h' | h' | h'
    · exact absurd h' b2.1.1
    · have := b2.1.2; rw [h', val_dPinf] at this; exact absurd (top_le_iff.1 this) (EReal.coe_ne_top _)
    · have hm : min c ((dbl (Z i).inf - S - 1) / τ ^ N) ∈ A := by
        refine ⟨⟨b2.1.1, by rw [h', val_dNinf]; exact bot_le⟩, b2.2.1, le_trans ?_ b2.2.2⟩
        exact_mod_cast min_le_left _ _
      have h1 := (key _ hm).1
      have h2 : min c ((dbl (Z i).inf - S - 1) / τ ^ N) * τ ^ N ≤ dbl (Z i).inf - S - 1 := by
        rw [← le_div_iff₀ hp]; exact min_le_right _ _
      linarith
    · exact h'
  · rcases D_cases A.sup with h' | h' | h' | h'
    · exact absurd h' b2.2.1
    · have hm : max c ((dbl (Z i).sup - S + 1) / τ ^ N) ∈ A := by
        refine ⟨⟨b2.1.1, le_trans b2.1.2 ?_⟩, b2.2.1, by rw [h', val_dPinf]; exact le_top⟩
        exact_mod_cast le_max_left _ _
      have h1 := (key _ hm).2
      have h2 : dbl (Z i).sup - S + 1 ≤ max c ((dbl (Z i).sup - S + 1) / τ ^ N) * τ ^ N := by
        rw [← div_le_iff₀ hp]; exact le_max_right _ _
      linarith
    · have := b2.2.2; rw [h', val_dNinf] at this; exact absurd (le_bot_iff.1 this) (EReal.coe_ne_bot _)
    · exact h'

theorem field_contDiffAt {τ : ℝ} {v : Fin n → ℝ} (h : ∀ i, (P.f i).SDom ρ (withT v (t0 + τ))) :
    ContDiffAt ℝ 1 (fun z : ℝ × (Fin n → ℝ) => field P ρ t0 z.1 z.2) (τ, v) := by
  refine contDiffAt_pi.2 fun i => ?_
  have h1 : ContDiffAt ℝ 1 (fun z : ℝ × (Fin n → ℝ) => withT z.2 (t0 + z.1)) (τ, v) := by
    refine contDiffAt_pi.2 fun j => ?_
    refine Fin.lastCases ?_ (fun j => ?_) j
    · simp only [withT, Fin.snoc_last]; exact contDiffAt_const.add contDiffAt_fst
    · simp only [withT, Fin.snoc_castSucc]; exact ((contDiff_apply ℝ ℝ j).comp contDiff_snd).contDiffAt
  exact ContDiffAt.comp (τ, v) (g := fun x => (P.f i).real ρ x) (Expr.contDiffAt (h i)) h1

/-- existence of the solution and its value at the end -/
theorem ode_exists (hd : Data P ρ x0 t0) (hN : 1 ≤ q.order) (hN' : q.order + 1 < 2 ^ 31)
    (hauto : q.autostep = true → Forward P.start P.stop ∧ PwOk P.pw ∧ NN q.epsilon) {k : ℕ} {st st' : PSt (Interval D)} {r : Result n}
    (h : (letI := scalI fuel; ode k P q) st = (.ok r, st')) (hr : r.ret ≠ 0) (hbd : ∀ i, Bd (r.init i)) {t1 : ℝ} (ht1 : t1 ∈ r.stop)
    (hle : t0 ≤ t1) : ∃ w y, r.psa = some w ∧ SerOk P ρ x0 t0 q.order w ∧ y 0 = x0 ∧ (∀ i, y (t1 - t0) i ∈ r.init i) ∧
      ∀ τ ∈ Set.Icc 0 (t1 - t0), HasDerivWithinAt y (field P ρ t0 τ (y τ)) (Set.Icc 0 (t1 - t0)) τ ∧ InTube P ρ x0 t0 q.order w τ (y τ) ∧
        ∀ i, (P.f i).SDom ρ (withT (y τ) (t0 + τ)) := by
  obtain ⟨w, d, hpsa, hw, hM, hdel, hev⟩ := ode_done hd hN hN' hauto h hr ht1 hle
  have hT : 0 ≤ t1 - t0 := sub_nonneg.2 hle
  choose A hA hAm using fun i => hw.last i
  rcases hT.eq_or_lt with h0 | h0
  · rw [← h0] at hM hdel ⊢
    refine ⟨w, fun _ => x0, hpsa, hw, rfl, fun i => ?_, fun τ hτ => ?_⟩
    · exact (hw.tube0 hN).eval hw hdel (hev i)
    · obtain rfl : τ = 0 := le_antisymm hτ.2 hτ.1
      refine ⟨?_, hw.tube0 hN, hM.smooth 0 hτ x0 (hw.tube0 hN)⟩
      rw [Set.Icc_self]
      exact hasDerivWithinAt_iff_hasFDerivWithinAt.2 (HasFDerivWithinAt.of_subsingleton Set.subsingleton_singleton)
  · have hb : ∀ i, Bd (A i) := fun i => rem_bd hw h0 hdel hbd hev (hA i)
    obtain ⟨y, hy0, hy⟩ := tube_exists (f := field P ρ t0) (x0 := x0) hT
      (lo := bound P ρ x0 t0 q.order fun i => dbl (A i).inf) (hi := bound P ρ x0 t0 q.order fun i => dbl (A i).sup)
      (bound_continuous _ _).continuousOn (bound_continuous _ _).continuousOn
      (fun τ hτ i => by
        have := (bd_mem (hb i)).1 (hAm i)
        have hp : 0 ≤ τ ^ q.order := pow_nonneg hτ.1 _
        unfold bound
        have a1 := mul_le_mul_of_nonneg_right (this.1.trans this.2) hp
        linarith)
      (fun τ hτ v hv => field_contDiffAt (hM.smooth τ hτ v ((tube_box hN hw hA hb hτ.1).2 hv)))
      (fun v Q _ hv hQ0 hQ τ hτ => (tube_box hN hw hA hb hτ.1).1 (hM.maps v Q (fun τ hτ => (tube_box hN hw hA hb hτ.1).2 (hv τ hτ)) hQ0 hQ τ hτ))
    have htube : ∀ τ ∈ Set.Icc 0 (t1 - t0), InTube P ρ x0 t0 q.order w τ (y τ) := fun τ hτ => (tube_box hN hw hA hb hτ.1).2 (hy τ hτ).2
    refine ⟨w, y, hpsa, hw, hy0, fun i => ?_, fun τ hτ => ⟨(hy τ hτ).1, htube τ hτ, hM.smooth τ hτ _ (htube τ hτ)⟩⟩
    exact (htube _ ⟨hT, le_refl _⟩).eval hw hdel (hev i)

end Ode
end Kv
