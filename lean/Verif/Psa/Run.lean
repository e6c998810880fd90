import Verif.Psa.JetExpr
import Verif.Autodif.Inst

/-! # Power series arithmetic: complete evaluations -/

namespace Kv
open PowerSeries Psa PM ScalSem

/-- the static members after an evaluation without reuse of results -/
def Restored {S : Type} (st st' : PSt S) : Prop :=
  st'.mode = st.mode ∧ st'.domain = st.domain ∧ st'.use = st.use ∧ st'.record = st.record ∧
    (st.record = false → st'.hist = st.hist)

section
variable {S : Type} [ScalSem S] {n : ℕ}

theorem Psa.At.start {E : Env S} {st : PSt S} (h1 : st.mode = E.md) (h2 : st.domain = E.d) (h3 : st.use = false) (h4 : E.g = st.hist) :
    At E false st.record [] [] st :=
  ⟨h1, h2, h3, rfl, [], [], by simp [h4], .nil, .nil⟩

theorem Psa.At.restored {E : Env S} {st st' : PSt S} {T} (h1 : st.mode = E.md) (h2 : st.domain = E.d) (h3 : st.use = false)
    (h4 : E.g = st.hist) (h : At E false st.record [] (pushT st.record [] T) st') : Restored st st' := by
  refine ⟨by rw [h.mode, h1], by rw [h.domain, h2], by rw [h.use, h3], h.record, fun hr => ?_⟩
  obtain ⟨U, P, hh, hU, hP⟩ := h.inv
  rw [hr] at hP
  simp only [pushT, Bool.false_eq_true, if_false] at hP
  cases hU; cases hP
  rw [hh, h4]; simp

/-- mode 1 -/
theorem run1 {e : Expr n} (he : e.FinCst) {ρ : ℕ → ℝ} {p : ℕ → S} {x : Fin n → List S} {c : Fin n → PowerSeries ℝ} {m : ℕ}
    (hm : 1 ≤ m) (hm' : m < 2 ^ 31) {st st' : PSt S} (hmode : st.mode = 1) (huse : st.use = false) (hp : ∀ i, mem (ρ i) (p i))
    (hlen : ∀ i, (x i).length = m) (hx : ∀ i, Mem (fun k => coeff k (c i)) (x i))
    (hl : e.LDom (m < 2) ρ (fun i => coeff 0 (c i))) {z : List S} (h : e.evalP p x st = (.ok z, st')) :
    e.SDom ρ (fun i => coeff 0 (c i)) ∧ Mem (fun k => coeff k (e.ps ρ c)) z ∧
      (z.length = m ∨ z.length = 1 ∧ ∀ k, 1 ≤ k → coeff k (e.ps ρ c) = 0) ∧ Restored st st' := by
  obtain ⟨T, hT⟩ := Expr.evalP_spec (S := S) ρ c e he
  let E : Env S := ⟨1, st.domain, m, m, m, 0, st.hist⟩
  have hE : E.Ok := ⟨Or.inl ⟨rfl, rfl⟩, hm, le_refl m, hm, hm'⟩
  have hmd : E.md ≠ 2 := by show (1 : ℤ) ≠ 2; decide
  have hsem : ∀ i, Sem E false (c i) 0 (x i) := fun i =>
    ⟨by simpa using hlen i, fun hk => (by cases hk), fun k => coeff k (c i), hx i, fun _ _ => rfl, fun h => absurd h hmd,
      fun hk => (by cases hk)⟩
  obtain ⟨hat, hs, hX, -⟩ := hT hE (v := fun _ => 0) hp hsem (fun h => absurd h hmd) hl false st.record [] [] st (by
      simpa [popT] using Psa.At.start (E := E) hmode rfl huse rfl) z st' h
  obtain ⟨q, h1, h2, -, h4⟩ := hs.ex
  have hlz := hs.len
  refine ⟨hX, fun i a hi => ?_, ?_, hat.restored hmode rfl huse rfl⟩
  · have : i < z.length := by
      by_contra hc; rw [List.getElem?_eq_none (by omega)] at hi; cases hi
    have him : i < m := by
      cases hk : e.isC <;> rw [hk] at hlz <;> simp at hlz
      · rw [hlz] at this; exact this
      · omega
    show mem (coeff i (e.ps ρ c)) a
    rw [← h2 i him]; exact h1 i a hi
  · cases hk : e.isC <;> rw [hk] at hlz <;> simp at hlz
    · exact Or.inl hlz
    · refine Or.inr ⟨hlz, fun k hk1 => ?_⟩
      rw [hs.con hk, PowerSeries.coeff_C, if_neg (by omega)]

/-- mode 2, one point of the domain -/
theorem run2 (hC : Conv S) {e : Expr n} (he : e.FinCst) (hn : e.noInv) {ρ : ℕ → ℝ} {p : ℕ → S} {x : Fin n → List S} {N : ℕ}
    (hN : 1 ≤ N) (hN' : N + 1 < 2 ^ 31) {st st' : PSt S} (hmode : st.mode = 2) (huse : st.use = false)
    (h0 : mem 0 st.domain) (hp : ∀ i, mem (ρ i) (p i)) (hlen : ∀ i, (x i).length = N + 1) {c : Fin n → PowerSeries ℝ}
    {t : ℝ} (ht : mem t st.domain) {v : Fin n → ℝ} {q : Fin n → ℕ → ℝ} (hq : ∀ i, Mem (q i) (x i))
    (hqc : ∀ i, ∀ k < N, q i k = coeff k (c i)) (hv : ∀ i, v i = ∑ k ∈ Finset.range (N + 1), q i k * t ^ k)
    (hl : e.LDom False ρ v) {z : List S} (h : e.evalP p x st = (.ok z, st')) :
    e.SDom ρ v ∧ Restored st st' ∧ (z.length = N + 1 ∨ z.length = 1) ∧
      ∃ r : ℕ → ℝ, Mem r z ∧ (∀ k < N, r k = coeff k (e.ps ρ c)) ∧ e.real ρ v = ∑ k ∈ Finset.range z.length, r k * t ^ k := by
  obtain ⟨T, hT⟩ := Expr.evalP_spec (S := S) ρ c e he
  let E : Env S := ⟨2, st.domain, N + 1, 1, N, t, st.hist⟩
  have hE : E.Ok := ⟨Or.inr ⟨rfl, rfl, ht, h0, hC⟩, le_refl 1, by show 1 ≤ N + 1; omega, hN, hN'⟩
  have hsem : ∀ i, Sem E false (c i) (v i) (x i) := fun i =>
    ⟨by simpa using hlen i, fun hk => (by cases hk), q i, hq i, hqc i, fun _ => hv i, fun hk => (by cases hk)⟩
  obtain ⟨hat, hs, hX, hX2⟩ := hT hE hp hsem (fun _ => hn) (by
    have : (E.s < 2) = False := eq_false fun h => by change N + 1 < 2 at h; omega
    rw [this]; exact hl.move) false st.record [] [] st (by
      simpa [popT] using Psa.At.start (E := E) hmode rfl huse rfl) z st' h
  obtain ⟨r, h1, h2, h3, h4⟩ := hs.ex
  have hlz := hs.len
  refine ⟨hX2 rfl, hat.restored hmode rfl huse rfl, ?_, r, h1, h2, ?_⟩
  · cases hk : e.isC <;> rw [hk] at hlz <;> simp at hlz
    · exact Or.inl hlz
    · exact Or.inr hlz
  · rw [h3 rfl]
    cases hk : e.isC <;> rw [hk] at hlz <;> simp at hlz
    · rw [hlz]
    · rw [hlz]
      refine (Finset.sum_subset (Finset.range_mono (by show 1 ≤ N + 1; omega)) fun i _ hi => ?_).symm
      rw [h4 hk i (by simp at hi; omega), zero_mul]

end

theorem convI (fuel : ℕ) : @Conv (Interval D) (semI fuel) := by
  intro I a b ξ ha hb hξ
  rcases Set.mem_uIcc.1 hξ with h | h
  · exact ⟨Lo.mono ha.1 h.1, Hi.mono hb.2 h.2⟩
  · exact ⟨Lo.mono hb.1 h.1, Hi.mono ha.2 h.2⟩

end Kv
