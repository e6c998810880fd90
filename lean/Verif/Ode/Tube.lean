import Verif.Ode.Run

/-! # Picard steps with remainder: the tube of curves around the formal solution -/

namespace Kv
open PowerSeries Psa PM
open Rop (lit)
set_option linter.unusedVariables false

namespace Ode
variable {n : ℕ}

section
variable {P : Problem n} {ρ : ℕ → ℝ} {x0 : Fin n → ℝ} {t0 : ℝ} {fuel N : ℕ}

/-- the coefficients contain those of the formal solution -/
structure SerOk (P : Problem n) (ρ : ℕ → ℝ) (x0 : Fin n → ℝ) (t0 : ℝ) (N : ℕ) (x : Fin n → Ser) : Prop where
  len : ∀ i, (x i).length = N + 1
  con : ∀ i, Contains (x i) fun k => coeff k (fsol P.f ρ x0 t0 i)

/-- the point `v` is on the polynomial with one of the remainders, at time `τ` -/
def InTube (P : Problem n) (ρ : ℕ → ℝ) (x0 : Fin n → ℝ) (t0 : ℝ) (N : ℕ) (x : Fin n → Ser) (τ : ℝ) (v : Fin n → ℝ) : Prop :=
  ∀ i, ∃ r A, (x i)[N]? = some A ∧ r ∈ A ∧
    v i = ∑ k ∈ Finset.range N, coeff k (fsol P.f ρ x0 t0 i) * τ ^ k + r * τ ^ N

/-- the history can be used, or is not used -/
def HistOk (fuel : ℕ) (T : ℕ → List (PowerSeries ℝ × Bool)) (N : ℕ) (st : PSt (Interval D)) : Prop :=
  let _ := semI fuel
  st.use = false ∨ (st.use = true ∧ st.record = true ∧ List.Forall₂ (Match N) (T N) st.hist)

theorem SerOk.last {x : Fin n → Ser} (h : SerOk P ρ x0 t0 N x) (i : Fin n) : ∃ A, (x i)[N]? = some A ∧ coeff N (fsol P.f ρ x0 t0 i) ∈ A := by
  have := h.len i
  refine ⟨(x i)[N], List.getElem?_eq_getElem (by omega), h.con i N _ (List.getElem?_eq_getElem (by omega))⟩

/-- the initial value is in the tube -/
theorem SerOk.tube0 (hN : 1 ≤ N) {x : Fin n → Ser} (h : SerOk P ρ x0 t0 N x) : InTube P ρ x0 t0 N x 0 x0 := by
  intro i
  obtain ⟨A, h1, h2⟩ := h.last i
  refine ⟨_, A, h1, h2, ?_⟩
  rw [zero_pow (by omega), mul_zero, add_zero, Finset.sum_eq_single 0]
  · simp [fsol_zero]
  · intro k _ hk; rw [zero_pow hk, mul_zero]
  · intro h; exact absurd (Finset.mem_range.2 (by omega)) h

/-- at time 0 the tube is the initial value -/
theorem InTube.zero (hN : 1 ≤ N) {x : Fin n → Ser} {v : Fin n → ℝ} (h : InTube P ρ x0 t0 N x 0 v) : v = x0 := by
  funext i
  obtain ⟨r, A, -, -, e⟩ := h i
  rw [e, zero_pow (by omega), mul_zero, add_zero, Finset.sum_eq_single 0]
  · simp [fsol_zero]
  · intro k _ hk; rw [zero_pow hk, mul_zero]
  · intro h; exact absurd (Finset.mem_range.2 (by omega)) h

/-- evaluation of the right-hand side in mode 2 -/
theorem evalF2 (hd : Data P ρ x0 t0) {T} (hT : EvalSpec fuel P ρ x0 t0 T) (hN : 1 ≤ N) (hN' : N + 1 < 2 ^ 31) {st st' : PSt (Interval D)}
    {x y : Fin n → Ser} {t : Ser} (hmode : st.mode = 2) (h0 : (0 : ℝ) ∈ st.domain) (hist : HistOk fuel T N st) (hx : SerOk P ρ x0 t0 N x)
    (htl : t.length = N + 1) (ht : Contains t (idCo t0)) (h : (letI := scalI fuel; evalF P x t) st = (.ok y, st')) :
    (st'.mode = 2 ∧ st'.domain = st.domain ∧ HistOk fuel T N st') ∧ (∀ i, (y i).length = N + 1 ∨ (y i).length = 1) ∧
      (∀ i, (P.f i).SDom ρ (withT x0 t0)) ∧
      ∀ τ ∈ st.domain, ∀ v, InTube P ρ x0 t0 N x τ v → ∀ i, (P.f i).SDom ρ (withT v (t0 + τ)) ∧
        ∃ r, Contains (y i) r ∧ (∀ k < N, r k = coeff k (rhs P ρ x0 t0 i)) ∧ (∀ k, (y i).length ≤ k → r k = 0) ∧
          (P.f i).real ρ (withT v (t0 + τ)) = ∑ k ∈ Finset.range (N + 1), r k * τ ^ k := by
  let _ := semI fuel
  have key : ∀ τ ∈ st.domain, ∀ v, InTube P ρ x0 t0 N x τ v → (st'.mode = 2 ∧ st'.domain = st.domain ∧ HistOk fuel T N st') ∧
      (∀ i, (y i).length = N + 1 ∨ (y i).length = 1) ∧ (∀ i, (P.f i).SDom ρ (withT x0 t0)) ∧ ∀ i, (P.f i).SDom ρ (withT v (t0 + τ)) ∧
        ∃ r, Contains (y i) r ∧ (∀ k < N, r k = coeff k (rhs P ρ x0 t0 i)) ∧ (∀ k, (y i).length ≤ k → r k = 0) ∧
          (P.f i).real ρ (withT v (t0 + τ)) = ∑ k ∈ Finset.range (N + 1), r k * τ ^ k := by
    intro τ hτ v hv
    let E : Env (Interval D) := ⟨2, st.domain, N + 1, N, N, τ, if st.use then [] else st.hist⟩
    have hE : E.Ok := ⟨Or.inr ⟨rfl, rfl, hτ, h0, convI fuel⟩, hN, Nat.le_succ N, hN, hN'⟩
    have hat : At E st.use st.record (popT st.use (T E.m) []) [] st := by
      refine ⟨hmode, rfl, rfl, rfl, ?_⟩
      rcases hist with hu | ⟨hu, hr, hh⟩
      · exact ⟨[], [], by simp [E, hu], by simp [popT, hu], .nil⟩
      · exact ⟨st.hist, [], by simp [E, hu], by simpa [popT, hu] using hh.imp fun _ _ h => h.use N, .nil⟩
    have hsx : ∀ i, Sem E false (fsol P.f ρ x0 t0 i) (v i) (x i) := fun i => by
      obtain ⟨r, A, h1, h2, h3⟩ := hv i
      refine ⟨by simpa using hx.len i, fun hk => (by cases hk), fun k => if k < N then coeff k (fsol P.f ρ x0 t0 i) else r, ?_, fun k hk => if_pos hk,
        fun _ => ?_, fun hk => (by cases hk)⟩
      · intro k B hB
        show (if _ then _ else _) ∈ B
        split_ifs with hk
        · exact hx.con i k B hB
        · have := getElem?_lt hB
          have e : k = N := by have := hx.len i; omega
          subst e
          rw [h1] at hB; cases hB; exact h2
      · show v i = ∑ k ∈ Finset.range (N + 1), (if k < N then coeff k (fsol P.f ρ x0 t0 i) else r) * τ ^ k
        rw [h3, Finset.sum_range_succ, if_neg (lt_irrefl N)]
        congr 1
        exact Finset.sum_congr rfl fun k hk => by rw [if_pos (Finset.mem_range.1 hk)]
    have hst : Sem E false (idPs t0) (t0 + τ) t := by
      refine ⟨by simpa using htl, fun hk => (by cases hk), idCo t0, ht, fun k _ => (idCo_idPs t0 k).symm, fun _ => ?_, fun hk => (by cases hk)⟩
      show t0 + τ = ∑ i ∈ Finset.range (N + 1), idCo t0 i * τ ^ i
      obtain ⟨M, rfl⟩ : ∃ M, N = M + 1 := ⟨N - 1, by omega⟩
      rw [Finset.sum_range_succ', Finset.sum_range_succ', Finset.sum_eq_zero (fun k _ => by simp [idCo])]
      simp [idCo]; ring
    obtain ⟨hat2, hsem⟩ := hT hE hsx hst st.use st.record [] [] st hat y st' h
    have hlen : ∀ i, (y i).length = N + 1 ∨ ((y i).length = 1 ∧ (P.f i).isC = true) := fun i => by
      have := (hsem i).1.len
      split_ifs at this with hk
      · exact Or.inr ⟨this, hk⟩
      · exact Or.inl this
    refine ⟨⟨hat2.mode, hat2.domain, ?_⟩, fun i => (hlen i).imp id And.left, fun i => (hsem i).2.1, fun i => ⟨(hsem i).2.2 rfl, ?_⟩⟩
    · rcases hist with hu | ⟨hu, hr, hh⟩
      · exact Or.inl (by rw [hat2.use, hu])
      · refine Or.inr ⟨by rw [hat2.use, hu], by rw [hat2.record, hr], ?_⟩
        obtain ⟨U, P', hh, hU, hP⟩ := hat2.inv
        cases hU
        rw [hh]
        simpa [pushT, E, hu, hr] using hP
    · obtain ⟨q, h1, h2, h3, h4⟩ := (hsem i).1.ex
      refine ⟨fun k => if k < (y i).length then q k else 0, fun k A hA => ?_, fun k hk => ?_, fun k hk => if_neg (by omega), ?_⟩
      · show (if _ then _ else _) ∈ A
        rw [if_pos (getElem?_lt hA)]; exact h1 k A hA
      · rw [← h2 k hk]
        dsimp only
        split_ifs with hl
        · rfl
        · rcases hlen i with h | ⟨h, hc⟩
          · omega
          · exact (h4 hc k (by omega)).symm
      · rw [h3 rfl]
        refine Finset.sum_congr rfl fun k hk => ?_
        dsimp only
        split_ifs with hl
        · rfl
        · have := Finset.mem_range.1 hk
          change k < N + 1 at this
          rcases hlen i with h | ⟨h, hc⟩
          · omega
          · rw [h4 hc k (by omega)]
  obtain ⟨a1, a2, a3, -⟩ := key 0 h0 x0 (hx.tube0 hN)
  exact ⟨a1, a2, a3, fun τ hτ v hv => (key τ hτ v hv).2.2.2⟩

/-- `update` in mode 2 -/
theorem update2 (hd : Data P ρ x0 t0) (hN : 1 ≤ N) (hN' : N + 1 < 2 ^ 31) {y w : Fin n → Ser} {st st' : PSt (Interval D)} (hmode : st.mode = 2)
    (hlen : ∀ i, (y i).length = N + 1 ∨ (y i).length = 1) (h : (letI := scalI fuel; update P y N) st = (.ok w, st')) :
    st' = st ∧ ∀ i τ r, τ ∈ st.domain → Contains (y i) r → (∀ k, (y i).length ≤ k → r k = 0) → (w i).length = N + 1 ∧
      Contains (w i) fun k => if k = 0 then x0 i else if k < N then antiCo r k else antiCo r N + antiCo r (N + 1) * τ := by
  let _ := semI fuel
  change update P y N st = (.ok w, st') at h
  unfold update at h
  obtain ⟨q, s1, hq, ha⟩ := bind_run h
  have h1 : s1 = st ∧ ∀ i, ∀ τ r, τ ∈ st.domain → Contains (y i) r → (∀ k, (y i).length ≤ k → r k = 0) → (q i).length = N + 1 ∧
      Contains (q i) fun k => if k < N then antiCo r k else antiCo r N + antiCo r (N + 1) * τ := by
    refine vec_inv (J := fun s => s = st) (Q := fun i q => ∀ τ r, τ ∈ st.domain → Contains (y i) r → (∀ k, (y i).length ≤ k → r k = 0) →
      q.length = N + 1 ∧ Contains q fun k => if k < N then antiCo r k else antiCo r N + antiCo r (N + 1) * τ) (fun i => ?_) st rfl q s1 hq
    intro s hs z s' hz
    obtain ⟨a, s2, haa, hz'⟩ := bind_run hz
    obtain ⟨hint, rfl⟩ := lift_run haa
    subst hs
    refine ⟨?_, fun τ r hτ hr hr0 => ?_⟩
    · unfold Psa.setorder at hz'
      rw [if_neg (by omega)] at hz'
      split_ifs at hz' with hs
      · exact (pure_run hz').2
      · rw [get_bind, if_neg (by rw [hmode]; decide)] at hz'
        exact (lift_run hz').2
    · obtain ⟨hl, hc⟩ := integrate_contains (fuel := fuel) (by rcases hlen i with h | h <;> omega) hr hint
      obtain ⟨M, hM, hzl, hzc⟩ := setorder_contains (fuel := fuel) hmode hτ hc hz'
      obtain rfl : M = N := by omega
      refine ⟨hzl, ?_⟩
      have han : ∀ k, a.length ≤ k → antiCo r k = 0 := fun k hk => by
        cases k with
        | zero => rfl
        | succ k => simp only [antiCo]; rw [hr0 k (by omega), zero_div]
      split_ifs at hzc with hle
      · intro k A hA
        have := hzc k A hA
        have hk := getElem?_lt hA
        have e : (if k < M then antiCo r k else antiCo r M + antiCo r (M + 1) * τ) = if k < a.length then antiCo r k else 0 := by
          rw [han (M + 1) (by omega), zero_mul, add_zero]
          split_ifs with h1 h2 h2
          · rfl
          · exact han k (by omega)
          · rw [show k = M by omega]
          · exact han M (by omega)
        show (if k < M then antiCo r k else antiCo r M + antiCo r (M + 1) * τ) ∈ A
        rw [e]; exact this
      · intro k A hA
        have := hzc k A hA
        have ea : a.length - M = 2 := by rcases hlen i with h | h <;> omega
        rw [ea, Finset.sum_range_succ, Finset.sum_range_one, pow_zero, mul_one, pow_one, add_zero] at this
        exact this
  obtain ⟨rfl, h2⟩ := h1
  obtain ⟨rfl, h3⟩ := vec_lift ha
  refine ⟨rfl, fun i τ r hτ hr hr0 => ?_⟩
  obtain ⟨g1, g2⟩ := h2 i τ r hτ hr hr0
  obtain ⟨e1, e2⟩ := addHead_mem (S := Interval D) g2 (hd.init i) (h3 i)
  refine ⟨by rw [e1]; exact g1, fun l A hA => ?_⟩
  have := e2 l A hA
  change (if l = 0 then (if 0 < N then antiCo r 0 else antiCo r N + antiCo r (N + 1) * τ) + x0 i else
    (if l < N then antiCo r l else antiCo r N + antiCo r (N + 1) * τ)) ∈ A at this
  rw [if_pos (show 0 < N by omega)] at this
  simp only [antiCo, zero_add] at this ⊢
  exact this

/-- the right-hand side as a function of time and point -/
noncomputable abbrev field (P : Problem n) (ρ : ℕ → ℝ) (t0 : ℝ) (τ : ℝ) (v : Fin n → ℝ) (i : Fin n) : ℝ := (P.f i).real ρ (withT v (t0 + τ))

/-- the Picard operator maps the curves in the tube of `z` to curves in the tube of `w`; the right-hand side is smooth in
the tube of `z` -/
structure Maps (P : Problem n) (ρ : ℕ → ℝ) (x0 : Fin n → ℝ) (t0 : ℝ) (N : ℕ) (T : ℝ) (z w : Fin n → Ser) : Prop where
  smooth : ∀ τ ∈ Set.Icc 0 T, ∀ v, InTube P ρ x0 t0 N z τ v → ∀ i, (P.f i).SDom ρ (withT v (t0 + τ))
  maps : ∀ v Q : ℝ → Fin n → ℝ, (∀ τ ∈ Set.Icc 0 T, InTube P ρ x0 t0 N z τ (v τ)) → Q 0 = x0 →
    (∀ τ ∈ Set.Icc 0 T, HasDerivWithinAt Q (field P ρ t0 τ (v τ)) (Set.Icc 0 T) τ) → ∀ τ ∈ Set.Icc 0 T, InTube P ρ x0 t0 N w τ (Q τ)

/-- one Picard step -/
theorem picard_step (hd : Data P ρ x0 t0) {T} (hT : EvalSpec fuel P ρ x0 t0 T) (hN : 1 ≤ N) (hN' : N + 1 < 2 ^ 31) {s0 s1 s2 : PSt (Interval D)}
    {z y w : Fin n → Ser} {t : Ser} {τe : ℝ} (hmode : s0.mode = 2) (hdom : ∀ τ ∈ Set.Icc 0 τe, τ ∈ s0.domain) (h0 : (0 : ℝ) ∈ s0.domain)
    (hist : HistOk fuel T N s0)
    (hz : SerOk P ρ x0 t0 N z) (htl : t.length = N + 1) (ht : Contains t (idCo t0)) (h : (letI := scalI fuel; evalF P z t) s0 = (.ok y, s1))
    (hu : (letI := scalI fuel; update P y N) s1 = (.ok w, s2)) :
    (s2.mode = 2 ∧ s2.domain = s0.domain ∧ HistOk fuel T N s2) ∧ SerOk P ρ x0 t0 N w ∧ Maps P ρ x0 t0 N τe z w := by
  obtain ⟨⟨m1, m2, m3⟩, hlen, hS, hy⟩ := evalF2 hd hT hN hN' hmode h0 hist hz htl ht h
  obtain ⟨rfl, hw⟩ := update2 hd hN hN' m1 hlen hu
  -- coefficients up to the last one at time 0
  have co : ∀ i (r : ℕ → ℝ), (∀ k < N, r k = coeff k (rhs P ρ x0 t0 i)) → ∀ k, k ≠ 0 → k ≤ N →
      antiCo r k = coeff k (fsol P.f ρ x0 t0 i) := by
    intro i r hr k hk0 hk
    obtain ⟨l, rfl⟩ := Nat.exists_eq_succ_of_ne_zero hk0
    simp only [antiCo]
    rw [fsol_succ hS i l, hr l (by omega)]
  refine ⟨⟨m1, m2, m3⟩, ⟨fun i => ?_, fun i k A hA => ?_⟩, fun τ hτ v hv i => (hy τ (hdom τ hτ) v hv i).1, ?_⟩
  · obtain ⟨-, r, h1, -, h3, -⟩ := hy 0 h0 x0 (hz.tube0 hN) i
    exact (hw i 0 r (by rw [m2]; exact h0) h1 h3).1
  · obtain ⟨-, r, h1, h2, h3, -⟩ := hy 0 h0 x0 (hz.tube0 hN) i
    obtain ⟨g1, g2⟩ := hw i 0 r (by rw [m2]; exact h0) h1 h3
    have hk := getElem?_lt hA
    have := g2 k A hA
    show coeff k _ ∈ A
    simp only [mul_zero, add_zero] at this
    by_cases hk0 : k = 0
    · subst hk0; rw [fsol_zero]; simpa using this
    · rw [if_neg hk0] at this
      split_ifs at this with hkN
      · rw [← co i r h2 k hk0 (by omega)]; exact this
      · rw [show k = N by omega, ← co i r h2 N (by omega) le_rfl]; exact this
  · intro v Q hv hQ0 hQ τ hτ i
    obtain ⟨r, ⟨h1, h3⟩, h2, h4⟩ := anti_poly (T := τe) (N := N) (f := fun τ => field P ρ t0 τ (v τ) i) (F := fun τ => Q τ i - x0 i)
      (b := fun k => coeff k (rhs P ρ x0 t0 i)) (R := fun r => Contains (y i) r ∧ (∀ k, (y i).length ≤ k → r k = 0))
      (by simp [hQ0]) (fun τ hτ => ((hasDerivWithinAt_pi.1 (hQ τ hτ)) i).sub_const _) (fun s hs => by
        obtain ⟨-, r, h1, h2, h3, h4⟩ := hy s (hdom s hs) (v s) (hv s hs) i
        exact ⟨r, ⟨h1, h3⟩, h2, h4⟩) hτ
    obtain ⟨g1, g2⟩ := hw i τ r (by rw [m2]; exact hdom τ hτ) h1 h3
    have hNl : N < (w i).length := by omega
    refine ⟨antiCo r N + antiCo r (N + 1) * τ, (w i)[N], List.getElem?_eq_getElem hNl, ?_, ?_⟩
    · have := g2 N _ (List.getElem?_eq_getElem hNl)
      simpa [show N ≠ 0 by omega] using this
    · have e : Q τ i = x0 i + ∑ k ∈ Finset.range (N + 2), antiCo r k * τ ^ k := by
        change Q τ i - x0 i = _ at h4
        linarith
      rw [e, Finset.sum_range_succ, Finset.sum_range_succ]
      have : x0 i + ∑ k ∈ Finset.range N, antiCo r k * τ ^ k = ∑ k ∈ Finset.range N, coeff k (fsol P.f ρ x0 t0 i) * τ ^ k := by
        obtain ⟨M, rfl⟩ : ∃ M, N = M + 1 := ⟨N - 1, by omega⟩
        rw [Finset.sum_range_succ', Finset.sum_range_succ', fsol_zero]
        simp only [antiCo, pow_zero, mul_one, add_zero]
        rw [add_comm]
        congr 1
        refine Finset.sum_congr rfl fun k hk => ?_
        rw [← co i r h2 (k + 1) (by omega) (by have := Finset.mem_range.1 hk; omega)]
        rfl
      rw [← add_assoc, ← add_assoc, this]; ring

end
end Ode
end Kv
