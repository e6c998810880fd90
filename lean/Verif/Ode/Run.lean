import Verif.Ode.Step

/-! # The evaluations in `ode` -/

namespace Kv
open PowerSeries Psa PM
open Rop (lit)
set_option linter.unusedVariables false

theorem Expr.LDom.weaken {n : ℕ} {ρ : ℕ → ℝ} {x : Fin n → ℝ} {all : Prop} : ∀ {e : Expr n}, e.LDom True ρ x → e.LDom all ρ x
  | .var _, _ => trivial
  | .par _, _ => trivial
  | .cst _, _ => trivial
  | .un f a, h => ⟨Expr.LDom.weaken h.1, fun hf _ => h.2 hf (Or.inl trivial)⟩
  | .bin _ _ _, h => ⟨Expr.LDom.weaken h.1, Expr.LDom.weaken h.2⟩
  | .binC _ a _, h => Expr.LDom.weaken (e := a) h
  | .cBin _ _ b, h => Expr.LDom.weaken (e := b) h
  | .powI a _, h => Expr.LDom.weaken (e := a) h
  | .pow _ _, h => ⟨Expr.LDom.weaken h.1, Expr.LDom.weaken h.2.1, fun _ => h.2.2 (Or.inl trivial)⟩

namespace Ode
variable {n : ℕ}

/-- A problem with one initial value, time and choice of the constants; the right-hand side contains no inverse function,
and the arguments of its logarithms are positive at the initial point. -/
structure Data (P : Problem n) (ρ : ℕ → ℝ) (x0 : Fin n → ℝ) (t0 : ℝ) : Prop where
  par : ∀ i, ρ i ∈ P.p i
  init : ∀ i, x0 i ∈ P.init i
  start : t0 ∈ P.start
  fin : ∀ i, (P.f i).FinCst
  noInv : ∀ i, (P.f i).noInv
  dom : ∀ i, (P.f i).LDom True ρ (withT x0 t0)

/-- what the right-hand side evaluates to -/
noncomputable abbrev rhs (P : Problem n) (ρ : ℕ → ℝ) (x0 : Fin n → ℝ) (t0 : ℝ) (i : Fin n) : PowerSeries ℝ :=
  (P.f i).ps ρ (withT (fsol P.f ρ x0 t0) (idPs t0))

section
variable {P : Problem n} {ρ : ℕ → ℝ} {x0 : Fin n → ℝ} {t0 : ℝ} {fuel : ℕ}

/-- the specification of the evaluation of the right-hand side, with the trace `T` of the recorded results -/
def EvalSpec (fuel : ℕ) (P : Problem n) (ρ : ℕ → ℝ) (x0 : Fin n → ℝ) (t0 : ℝ) (T : ℕ → List (PowerSeries ℝ × Bool)) : Prop :=
  let _ := semI fuel
  ∀ {E : Env (Interval D)} (_ : E.Ok) {x : Fin n → Ser} {t : Ser} {v : Fin n → ℝ} {s : ℝ},
    (∀ i, Sem E false (fsol P.f ρ x0 t0 i) (v i) (x i)) → Sem E false (idPs t0) s t →
    ∀ u r TU TP, Tri (At E u r (popT u (T E.m) TU) TP) (evalF P x t) (fun z st => At E u r TU (pushT r TP (T E.l)) st ∧
      ∀ i, Sem E (P.f i).isC (rhs P ρ x0 t0 i) ((P.f i).real ρ (withT v s)) (z i) ∧
        (P.f i).SDom ρ (withT x0 t0) ∧ (E.md = 2 → (P.f i).SDom ρ (withT v s)))

theorem evalSpec (hd : Data P ρ x0 t0) : ∃ T, EvalSpec fuel P ρ x0 t0 T := by
  let _ := semI fuel
  choose T hT using fun i => Expr.evalP_spec (S := Interval D) ρ (withT (fsol P.f ρ x0 t0) (idPs t0)) (P.f i) (hd.fin i)
  refine ⟨fun m => (List.ofFn fun i => T i m).flatten, fun {E} hE {x t v s} hx ht u r TU TP => ?_⟩
  refine vec_opT (T := T) (fun i => ?_) u r TU TP
  have := hT i hE (p := P.p) (x := withT x t) (v := withT v s) hd.par (fun j => by
    refine Fin.lastCases ?_ (fun j => ?_) j
    · simpa [withT] using ht
    · simpa [withT] using hx j) (fun _ => hd.noInv i) (by rw [fsol_point]; exact (hd.dom i).weaken)
  rw [fsol_point] at this
  exact this

theorem torg_mem (hd : Data P ρ x0 t0) : let _ := semI fuel; Psa.Mem (S := Interval D) (idCo t0) (torg P) := by
  intro _ k A hA
  match k with
  | 0 => simp [torg] at hA; subst hA; exact hd.start
  | 1 => simp [torg] at hA; subst hA; exact ScalSem.ofC_mem (S := Interval D) Interval.is_one
  | k + 2 => simp [torg] at hA

/-! ## mode 1 -/

theorem update1 (hd : Data P ρ x0 t0) {y w : Fin n → Ser} {k : ℕ} {st st' : PSt (Interval D)} (hmode : st.mode = 1)
    {b : Fin n → ℕ → ℝ} (hlen : ∀ i, (y i).length < 2 ^ 31) (hy : ∀ i, Contains (y i) (b i)) (hb : ∀ i l, (y i).length ≤ l → b i l = 0)
    (h : (letI := scalI fuel; update P y k) st = (.ok w, st')) :
    st' = st ∧ ∀ i, (w i).length = k + 1 ∧ Contains (w i) fun l => if l = 0 then x0 i else antiCo (b i) l := by
  let _ := semI fuel
  change update P y k st = (.ok w, st') at h
  unfold update at h
  obtain ⟨q, s1, hq, ha⟩ := bind_run h
  have h1 : s1 = st ∧ ∀ i, (q i).length = k + 1 ∧ Contains (q i) (antiCo (b i)) := by
    refine vec_inv (J := fun s => s = st) (Q := fun i q => q.length = k + 1 ∧ Contains q (antiCo (b i))) (fun i => ?_) st rfl q s1 hq
    intro s hs z s' hz
    obtain ⟨a, s2, haa, hz'⟩ := bind_run hz
    obtain ⟨hint, rfl⟩ := lift_run haa
    obtain ⟨hl, hc⟩ := integrate_contains (fuel := fuel) (hlen i) (hy i) hint
    obtain ⟨e1, e2, e3⟩ := setorder1 (S := Interval D) (by rw [hs]; exact hmode) hc hz'
    refine ⟨e1.trans hs, e2, fun l A hA => ?_⟩
    have := e3 l A hA
    change (if l < a.length then antiCo (b i) l else 0) ∈ A at this
    split_ifs at this with hlt
    · exact this
    · cases l with
      | zero => omega
      | succ l =>
        simp only [antiCo]
        rw [hb i l (by omega), zero_div]; exact this
  obtain ⟨rfl, h2⟩ := h1
  obtain ⟨rfl, h3⟩ := vec_lift ha
  refine ⟨rfl, fun i => ?_⟩
  obtain ⟨e1, e2⟩ := addHead_mem (S := Interval D) (h2 i).2 (hd.init i) (h3 i)
  refine ⟨by rw [e1]; exact (h2 i).1, fun l A hA => ?_⟩
  have := e2 l A hA
  change (if l = 0 then antiCo (b i) 0 + x0 i else antiCo (b i) l) ∈ A at this
  simpa [antiCo] using this

theorem sem_exact {E : Env (Interval D)} {fuel : ℕ} (hmd : E.md ≠ 2) (hl : E.l = E.s) {c : PowerSeries ℝ} {v : ℝ} {x : Ser} (hlen : x.length = E.s)
    (hx : Contains x fun k => coeff k c) : let _ := semI fuel; Sem E false c v x := by
  intro _
  exact ⟨by simpa using hlen, fun hk => (by cases hk), fun k => coeff k c, hx, fun _ _ => rfl, fun h => absurd h hmd, fun hk => (by cases hk)⟩

theorem coeffs_spec (hd : Data P ρ x0 t0) {T} (hT : EvalSpec fuel P ρ x0 t0 T) : ∀ {j : ℕ} (hj : j + 1 < 2 ^ 31) {st st' : PSt (Interval D)}
    {x : Fin n → Ser}, st.mode = 1 → st.use = false → st.record = true → st.hist = [] →
    (letI := scalI fuel; coeffs P j) st = (.ok x, st') →
    (st'.mode = 1 ∧ st'.use = decide (2 ≤ j) ∧ st'.record = true ∧ (j = 0 → st'.hist = []) ∧
      (1 ≤ j → (let _ := semI fuel; List.Forall₂ (Match j) (T j) st'.hist))) ∧
      (∀ i, (x i).length = j + 1 ∧ Contains (x i) fun k => coeff k (fsol P.f ρ x0 t0 i)) ∧
      (1 ≤ j → ∀ i, (P.f i).SDom ρ (withT x0 t0))
  | 0, hj, st, st', x, h1, h2, h3, h4, h => by
    obtain ⟨rfl, rfl⟩ := pure_run h
    refine ⟨⟨h1, by rw [h2]; rfl, h3, fun _ => h4, fun h => by omega⟩, fun i => ⟨rfl, fun k A hA => ?_⟩, fun h => by omega⟩
    cases k with
    | zero => simp at hA; subst hA; show coeff 0 _ ∈ _; rw [fsol_zero]; exact hd.init i
    | succ k => simp at hA
  | j + 1, hj, st, st', x, h1, h2, h3, h4, h => by
    let _ := semI fuel
    change (coeffs P j >>= fun x => switchUse j >>= fun _ => Psa.setorder (torg P) j >>= fun t => evalF P x t >>= fun y => update P y (j + 1)) st = (.ok x, st') at h
    obtain ⟨xj, sa, ha, hb⟩ := bind_run h
    obtain ⟨⟨i1, i2, i3, i4, i5⟩, hx, -⟩ := coeffs_spec hd hT (by omega) h1 h2 h3 h4 ha
    obtain ⟨u, sb, hsw, hc⟩ := bind_run hb
    have hsb : sb.mode = 1 ∧ sb.use = decide (1 ≤ j) ∧ sb.record = true ∧ sb.hist = sa.hist := by
      unfold switchUse at hsw
      split_ifs at hsw with hj1
      · cases hsw
        exact ⟨i1, by simp [hj1], i3, rfl⟩
      · obtain ⟨-, rfl⟩ := pure_run hsw
        refine ⟨i1, ?_, i3, rfl⟩
        rw [i2]; congr 1; apply propext; omega
    obtain ⟨t, sc, ht, he⟩ := bind_run hc
    obtain ⟨rfl, ht2, ht3⟩ := setorder1 (S := Interval D) hsb.1 (torg_mem hd (fuel := fuel)) ht
    obtain ⟨y, sd, hy, hu⟩ := bind_run he
    let E : Env (Interval D) := ⟨1, sc.domain, j + 1, max j 1, j + 1, 0, []⟩
    have hE : E.Ok := ⟨Or.inl ⟨rfl, rfl⟩, le_max_right _ _, max_le (by show j ≤ j + 1; omega) (by show 1 ≤ j + 1; omega), by show 1 ≤ j + 1; omega, by show j + 1 < _; omega⟩
    have hmd : E.md ≠ 2 := by show (1 : ℤ) ≠ 2; decide
    have htc : Contains t fun k => coeff k (idPs t0) := fun k A hA => by
      have := ht3 k A hA
      change (if k < 2 then idCo t0 k else 0) ∈ A at this
      show coeff k (idPs t0) ∈ A
      rw [idCo_idPs]
      match k with
      | 0 => exact this
      | 1 => exact this
      | k + 2 => rwa [if_neg (by omega)] at this
    have hat : At E sc.use true (popT sc.use (T E.m) []) [] sc := by
      refine ⟨hsb.1, rfl, rfl, hsb.2.2.1, ?_⟩
      by_cases hj1 : 1 ≤ j
      · have hu : sc.use = true := by rw [hsb.2.1]; simp [hj1]
        rw [hu]
        refine ⟨sc.hist, [], by simp [E], ?_, .nil⟩
        have em : E.m = j := max_eq_left hj1
        simp only [popT, if_true, List.append_nil]
        rw [em, hsb.2.2.2]; exact (i5 hj1).imp fun _ _ h => h.use _
      · have hu : sc.use = false := by rw [hsb.2.1]; simp [hj1]
        rw [hu]
        exact ⟨[], [], by rw [hsb.2.2.2, i4 (by omega)]; simp [E], by simp [popT], .nil⟩
    obtain ⟨hat2, hsem⟩ := hT hE (x := xj) (t := t) (v := fun _ => 0) (s := 0) (fun i => sem_exact hmd rfl (hx i).1 (hx i).2)
      (sem_exact hmd rfl ht2 htc) sc.use true [] [] sc hat y sd hy
    have hS : ∀ i, (P.f i).SDom ρ (withT x0 t0) := fun i => (hsem i).2.1
    choose q hq1 hq2 hq3 hq4 using fun i => (hsem i).1.ex
    have hlen : ∀ i, (y i).length = j + 1 ∨ ((y i).length = 1 ∧ (P.f i).isC = true) := fun i => by
      have := (hsem i).1.len
      split_ifs at this with hk
      · exact Or.inr ⟨this, hk⟩
      · exact Or.inl this
    have hq4' : ∀ i l, (y i).length ≤ l → l < j + 1 → q i l = 0 := fun i l hl hlj => by
      rcases hlen i with h | ⟨h, hk⟩
      · omega
      · exact hq4 i hk l (by omega)
    obtain ⟨hst, hw⟩ := update1 hd (by rw [hat2.mode]) (b := fun i l => if l < (y i).length then q i l else 0)
      (fun i => by rcases hlen i with h | ⟨h, -⟩ <;> omega) (fun i l A hA => by
        show (if _ then _ else _) ∈ A
        rw [if_pos (getElem?_lt hA)]; exact hq1 i l A hA) (fun i l hl => if_neg (by omega)) hu
    subst hst
    refine ⟨⟨hat2.mode, ?_, hat2.record, fun h => by omega, fun _ => ?_⟩, fun i => ⟨(hw i).1, fun l A hA => ?_⟩, fun _ => hS⟩
    · rw [hat2.use, hsb.2.1]; congr 1; apply propext; omega
    · obtain ⟨U, P', hh, hU, hP⟩ := hat2.inv
      cases hU
      rw [hh]
      simpa [pushT, E] using hP
    · have := (hw i).2 l A hA
      have hlj := getElem?_lt hA
      rw [(hw i).1] at hlj
      show coeff l _ ∈ A
      cases l with
      | zero => rw [fsol_zero]; simpa using this
      | succ l =>
        rw [fsol_succ hS i l]
        simp only [Nat.add_eq_zero_iff, one_ne_zero, and_false, if_false, antiCo] at this
        have e : (if l < (y i).length then q i l else 0) = coeff l (rhs P ρ x0 t0 i) := by
          rw [← hq2 i l (by show l < j + 1; omega)]
          split_ifs with hl
          · rfl
          · exact (hq4' i l (by omega) (by omega)).symm
        rw [e] at this
        exact this

end
end Ode
end Kv
