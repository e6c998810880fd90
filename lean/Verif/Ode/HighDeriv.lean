import Verif.Ode.Model
import Verif.Ode.Smooth
import Verif.Psa.Run
import Mathlib.Analysis.Calculus.IteratedDeriv.Lemmas

/-! # `highderiv`: lemmas -/

namespace Kv
open PowerSeries Psa PM ScalSem
open Rop (lit)
open scoped Nat

namespace PM
variable {S α : Type} {st : PSt S}

theorem setMode_bind {m : ℤ} (k : Unit → PM S α) : (setMode m >>= k) st = k () { st with mode := m } := rfl
theorem setUse_bind {b : Bool} (k : Unit → PM S α) : (setUse b >>= k) st = k () { st with use := b } := rfl
theorem setRec_bind {b : Bool} (k : Unit → PM S α) : (setRec b >>= k) st = k () { st with record := b } := rfl
theorem setHist_bind {l : List (List S)} (k : Unit → PM S α) : (setHist l >>= k) st = k () { st with hist := l } := rfl
theorem setDomain_bind {d : S} (k : Unit → PM S α) : (setDomain d >>= k) st = k () { st with domain := d } := rfl

end PM

section
variable {S : Type} [ScalSem S]

/-- `setorder` in mode 1 -/
theorem setorder1 {x z : List S} {N : ℕ} {st st' : PSt S} (hmode : st.mode = 1) {r : ℕ → ℝ} (hr : Mem r x)
    (h : Psa.setorder x N st = (.ok z, st')) :
    st' = st ∧ z.length = N + 1 ∧ Mem (fun k => if k < x.length then r k else 0) z := by
  unfold Psa.setorder at h
  rw [if_neg (by omega)] at h
  simp only [Int.toNat_natCast] at h
  split_ifs at h with hs
  · obtain ⟨rfl, rfl⟩ := pure_run h
    refine ⟨rfl, by simp; omega, fun k A hA => ?_⟩
    by_cases hk : k < x.length
    · rw [List.getElem?_append_left hk] at hA
      show mem (if k < x.length then r k else 0) A
      rw [if_pos hk]
      exact hr k A hA
    · rw [List.getElem?_append_right (by omega), List.getElem?_replicate] at hA
      show mem (if k < x.length then r k else 0) A
      rw [if_neg hk]
      split_ifs at hA
      cases hA
      exact ofC_mem Interval.is_zero
  · rw [get_bind, if_pos hmode] at h
    obtain ⟨h2, rfl⟩ := lift_run h
    obtain ⟨q, hq, h3⟩ := bind_ok.1 h2
    cases h3
    refine ⟨rfl, by simp; omega, fun k A hA => ?_⟩
    have hk : k < x.length := by
      by_contra hc
      rw [List.getElem?_eq_none (by simp; omega)] at hA; cases hA
    show mem (if k < x.length then r k else 0) A
    rw [if_pos hk]
    by_cases hk' : k < N
    · rw [List.getElem?_append_left (by simp; omega), List.getElem?_take_of_lt hk'] at hA
      exact hr k A hA
    · rw [List.getElem?_append_right (by simp; omega)] at hA
      have e : k - (x.take N).length = 0 := by
        by_contra hc
        rw [List.getElem?_eq_none (by simp; simp at hc; omega)] at hA; cases hA
      rw [e] at hA
      simp at hA
      subst hA
      have : k = N := by simp at e; omega
      subst this
      exact hr k _ (Psa.at_ok hq)

theorem scale_mem : ∀ {l z : List S} {i : ℕ} {fact : S} {w : ℝ} {r : ℕ → ℝ}, i + l.length < 2 ^ 31 → mem w fact → Mem r l →
    HD.scale i fact l = .ok z → z.length = l.length ∧ Mem (fun k => r k * (w * ∏ j ∈ Finset.range (k + 1), ((i + j : ℕ) : ℝ))) z
  | [], z, i, fact, w, r, _, _, _, h => by
    unfold HD.scale at h; cases h
    exact ⟨rfl, fun k A hA => by simp at hA⟩
  | a :: l, z, i, fact, w, r, hi, hw, hr, h => by
    unfold HD.scale at h
    obtain ⟨fact', hf, h⟩ := bind_ok.1 h
    obtain ⟨a', ha, h⟩ := bind_ok.1 h
    obtain ⟨l', hl, h⟩ := bind_ok.1 h
    cases h
    have hlit : Is (lit (i : ℚ) : D) (i : ℝ) := by
      have := Interval.is_cst i 0 (by rw [abs_of_nonneg (by positivity)]; have : (i : ℤ) < 2 ^ 31 := by simp at hi; omega
                                      omega) (by decide) (by decide) (q := (i : ℚ)) (by push_cast; ring)
      simpa using this
    have h1 := (binC_mem hf hw hlit).2
    change mem (w * i) fact' at h1
    have h2 := (bin_mem ha (hr 0 a rfl) h1).2
    change mem (r 0 * (w * i)) a' at h2
    obtain ⟨e, h3⟩ := scale_mem (r := fun k => r (k + 1)) (by simp at hi ⊢; omega) h1 (fun k A hA => hr (k + 1) A (by simpa using hA)) hl
    refine ⟨by simp [e], fun k A hA => ?_⟩
    cases k with
    | zero =>
      simp at hA; subst hA
      simpa using h2
    | succ k =>
      have := h3 k A (by simpa using hA)
      show mem (r (k + 1) * (w * ∏ j ∈ Finset.range (k + 1 + 1), ((i + j : ℕ) : ℝ))) A
      rw [Finset.prod_range_succ']
      refine cast (congrArg (fun t => mem t A) ?_) this
      have : ∏ j ∈ Finset.range (k + 1), ((i + 1 + j : ℕ) : ℝ) = ∏ j ∈ Finset.range (k + 1), ((i + (j + 1) : ℕ) : ℝ) :=
        Finset.prod_congr rfl fun j _ => by congr 1; omega
      simp only [this, Nat.add_zero]
      ring

theorem factors_mem {p z : List S} {r : ℕ → ℝ} (hlen : p.length < 2 ^ 31) (hr : Mem r p) (b : Bool) (h : HD.factors b p = .ok z) :
    z.length = p.length ∧ Mem (fun k => if b then r k else r k * k !) z := by
  unfold HD.factors at h
  cases b with
  | true =>
    rw [if_pos rfl] at h; cases h
    exact ⟨rfl, by simpa using hr⟩
  | false =>
    rw [if_neg (by decide)] at h
    cases p with
    | nil => cases h; exact ⟨rfl, fun k A hA => by simp at hA⟩
    | cons a l =>
      obtain ⟨l', hl, h⟩ := bind_ok.1 h
      cases h
      obtain ⟨e, h3⟩ := scale_mem (r := fun k => r (k + 1)) (w := 1) (by simp at hlen ⊢; omega)
        (ofC_mem Interval.is_one) (fun k A hA => hr (k + 1) A (by simpa using hA)) hl
      refine ⟨by simp [e], fun k A hA => ?_⟩
      cases k with
      | zero =>
        simp at hA; subst hA
        simpa using hr 0 a rfl
      | succ k =>
        have := h3 k A (by simpa using hA)
        show mem (if false = true then r (k + 1) else r (k + 1) * (k + 1)!) A
        rw [if_neg (by decide)]
        refine cast (congrArg (fun t => mem t A) ?_) this
        dsimp only
        congr 1
        rw [one_mul, ← Finset.prod_range_add_one_eq_factorial]
        push_cast
        exact Finset.prod_congr rfl fun j _ => by ring

/-- the static members after `highderiv` -/
theorem highderivF_run {f : List S → PM S (List S)} {x : S} {n : ℕ} {b : Bool} {st st' : PSt S} {z : List S}
    (h : highderivF f x n b st = (.ok z, st')) :
    ∃ p q q' st1, Psa.setorder [x, Psa.one] n { st with mode := 1, use := false, record := false } =
        (.ok p, { st with mode := 1, use := false, record := false }) ∧
      f p { st with mode := 1, use := false, record := false } = (.ok q, st1) ∧
      (∃ st2, Psa.setorder q n st1 = (.ok q', st2)) ∧ HD.factors b q' = .ok z ∧
      st'.mode = (if st.mode ≠ 0 then 1 else 0) ∧ st'.use = st.use ∧ st'.record = st.record := by
  unfold highderivF at h
  rw [get_bind, setMode_bind, setUse_bind, setRec_bind] at h
  obtain ⟨p, sd, hp, ha⟩ := bind_run h
  have hsd : sd = { st with mode := 1, use := false, record := false } := by
    unfold Psa.setorder at hp
    rw [if_neg (by omega)] at hp
    dsimp only at hp
    split_ifs at hp with hs
    · exact (pure_run hp).2
    · rw [get_bind, if_pos rfl] at hp
      exact (lift_run hp).2
  subst hsd
  obtain ⟨q, se, hq, hb⟩ := bind_run ha
  obtain ⟨q', sf, hq', hc⟩ := bind_run hb
  obtain ⟨z', sg, hz, hd⟩ := bind_run hc
  obtain ⟨hz', -⟩ := lift_run hz
  rw [setMode_bind, setUse_bind, setRec_bind] at hd
  obtain ⟨rfl, rfl⟩ := pure_run hd
  refine ⟨p, q, q', se, hp, hq, ⟨_, hq'⟩, hz', ?_, rfl, rfl⟩
  simp only [decide_eq_true_eq]

/-- coefficients of the identity -/
def idCo (x0 : ℝ) : ℕ → ℝ
  | 0 => x0
  | 1 => 1
  | _ + 2 => 0

theorem idCo_idPs (x0 : ℝ) (k : ℕ) : coeff k (Psa.idPs x0) = idCo x0 k := by
  match k with
  | 0 => simp [Psa.idPs, idCo]
  | 1 => simp [Psa.idPs, idCo]
  | k + 2 => simp [Psa.idPs, idCo, PowerSeries.coeff_X]

/-- derivatives from Taylor coefficients -/
theorem iteratedDeriv_of_hasT {g : ℝ → ℝ} {x0 : ℝ} {m : ℕ} {b : ℕ → ℝ} (hg : ∀ᶠ t in nhds x0, ContDiffAt ℝ (⊤ : ℕ∞) g t)
    (h : HasT m (fun t => g (x0 + t)) b) {k : ℕ} (hk : k < m) : iteratedDeriv k g x0 = b k * k ! := by
  obtain ⟨D, hD, hopen, hx⟩ := eventually_nhds_iff.1 hg
  have hT := HasT.taylor (F := fun k => iteratedDeriv k g) hopen (fun k t ht => by
    have hd : DifferentiableAt ℝ (iteratedDeriv k g) t := by
      have := ContDiffWithinAt.differentiableWithinAt_iteratedDerivWithin (m := k) (hD t ht).contDiffWithinAt
        (by exact_mod_cast (WithTop.coe_lt_top (k : ℕ))) (s := Set.univ) (by simp)
      rw [iteratedDerivWithin_univ] at this
      exact this.differentiableAt Filter.univ_mem
    have := hd.hasDerivAt
    rwa [← iteratedDeriv_succ] at this) hx m
  have := HasT.unique hT (by simpa using h) k hk
  rw [← this, Psa.tcf]
  field_simp

theorem real_smooth {ρ : ℕ → ℝ} {e : Expr 1} {x0 : ℝ} (h : e.SDom ρ fun _ => x0) :
    ∀ᶠ t in nhds x0, ContDiffAt ℝ (⊤ : ℕ∞) (fun t => e.real ρ fun _ => t) t := by
  have hc : ContinuousAt (fun t : ℝ => (fun _ : Fin 1 => t)) x0 := by fun_prop
  filter_upwards [hc.eventually (Expr.SDom.eventually h)] with t ht
  exact ContDiffAt.comp t (g := fun x : Fin 1 → ℝ => e.real ρ x) (Expr.contDiffAt ht) (contDiffAt_pi.2 fun _ => contDiffAt_id)

end
end Kv
