import Verif.Solver.Kraw
import Verif.Solver.LinLemmas

/-! # Krawczyk test: helper lemmas -/

namespace Kv
open RopSem Kv.Interval
open Rop (lit)
open LA

namespace Kraw
variable {n : ℕ}

theorem sMul_unit_mem (k : D) : (0 : ℝ) ∈ Interval.sMul k (⟨lit (-1), lit 1⟩ : Interval D) := by
  have hy : (0 : ℝ) ∈ (⟨lit (-1), lit 1⟩ : Interval D) := by
    refine ⟨⟨is_neg_one.1, ?_⟩, is_one.1, ?_⟩
    · rw [is_neg_one.2]; exact_mod_cast (by norm_num : (-1 : ℝ) ≤ 0)
    · rw [is_one.2]; exact_mod_cast (by norm_num : (0 : ℝ) ≤ 1)
  have hall : ∀ Z : Interval D, Z = ⟨dNinf, dPinf⟩ → (0 : ℝ) ∈ Z := by
    rintro Z rfl
    exact ⟨⟨not_nan_dNinf, by rw [val_dNinf]; exact bot_le⟩, not_nan_dPinf, by rw [val_dPinf]; exact le_top⟩
  rcases D_cases k with h | h | h | h
  · have hn : NoInf k := by
      rw [h]
      exact ⟨(by intro h'; cases h'), (by intro h'; cases h')⟩
    have := sMul_rv_mem hn hy
    rwa [mul_zero] at this
  · rw [h]; exact hall _ (by decide +kernel)
  · rw [h]; exact hall _ (by decide +kernel)
  · have := sMul_mem hy (is_dbl' h)
    rwa [mul_zero] at this

theorem inflate_mem {m : ℕ} {c : D} (hc : FinD c) (step : D) : dbl c ∈ inflate m c step := by
  have h := fun k => add_mem (point_mem (is_dbl' hc)) (sMul_unit_mem k)
  simp only [add_zero] at h
  exact h _

theorem ordConnected_mem (Z : Interval D) : ({x : ℝ | x ∈ Z} : Set ℝ).OrdConnected := by
  refine ⟨fun x hx y hy z hz => ?_⟩
  exact ⟨⟨hx.1.1, hx.1.2.trans (EReal.coe_le_coe_iff.2 hz.1)⟩, hy.2.1, (EReal.coe_le_coe_iff.2 hz.2).trans hy.2.2⟩

theorem boxK_fin {c : Vec n D} {R : Mat n n D} {fc : Vec n (Interval D)} {M : Mat n n (Interval D)} {I : Vec n (Interval D)} {i : Fin n}
    (h : FinD (boxK c (prodSV R fc) M I i).inf) : FinD (c i) ∧ ∀ k, NoInf (R i k) := by
  obtain ⟨h1, -⟩ := addDown_fin h
  obtain ⟨h2, h3⟩ := subDown_fin h1
  exact ⟨h2, fun k => sMul_noInf (.inl (sumI_fin_sup h3 k))⟩

theorem matM_mem {R : Mat n n D} {J : Mat n n (Interval D)} {A : Fin n → Fin n → ℝ} (hA : ∀ i j, A i j ∈ J i j) (hR : ∀ i k, NoInf (R i k))
    (i j : Fin n) : kG (fun i k => rv (R i k)) A i j ∈ matM R J i j :=
  sub_mem (point_mem (eye_is i j)) (prodSM_mem (hR i) fun k => hA k j)

/-- a bounded interval properly inside an interval leaves room -/
theorem proper_room {K I : Interval D} (hK : Bd K) (hle : dbl K.inf ≤ dbl K.sup) (hp : properSubset K I = true) :
    dbl K.inf ∈ I ∧ dbl K.sup ∈ I ∧ ∃ ω : ℝ, (∃ a, a ∈ I ∧ a + ω ∈ I) ∧ dbl K.sup - dbl K.inf < ω := by
  obtain ⟨⟨n1, n2, n3, n4⟩, h1, h2, h3⟩ := properSubset_iff.1 hp
  have k1 := is_dbl' hK.1
  have k2 := is_dbl' hK.2
  rw [k1.2] at h1 h3
  rw [k2.2] at h2 h3
  have hle' : ((dbl K.inf : ℝ) : EReal) ≤ (dbl K.sup : ℝ) := EReal.coe_le_coe_iff.2 hle
  have m1 : dbl K.inf ∈ I := ⟨⟨n3, h1⟩, n4, hle'.trans h2⟩
  have m2 : dbl K.sup ∈ I := ⟨⟨n3, h1.trans hle'⟩, n4, h2⟩
  refine ⟨m1, m2, ?_⟩
  rcases D_cases I.inf with h | h | h | h
  · exact absurd h n3
  · rw [h, val_dPinf] at h1; simp at h1
  · refine ⟨dbl K.sup - dbl K.inf + 1, ⟨dbl K.inf - 1, ?_, ?_⟩, by linarith⟩
    · refine ⟨⟨n3, by rw [h, val_dNinf]; exact bot_le⟩, n4, le_trans (EReal.coe_le_coe_iff.2 (by linarith)) h2⟩
    · rwa [show dbl K.inf - 1 + (dbl K.sup - dbl K.inf + 1) = dbl K.sup by ring]
  · rcases D_cases I.sup with h' | h' | h' | h'
    · exact absurd h' n4
    · refine ⟨dbl K.sup - dbl K.inf + 1, ⟨dbl K.inf, m1, ⟨n3, h1.trans (EReal.coe_le_coe_iff.2 (by linarith))⟩, n4, ?_⟩, by linarith⟩
      rw [h', val_dPinf]; exact le_top
    · rw [h', val_dNinf] at h2; simp at h2
    · have i1 := is_dbl' h
      have i2 := is_dbl' h'
      rw [i1.2, EReal.coe_le_coe_iff] at h1
      rw [i2.2, EReal.coe_le_coe_iff] at h2
      rw [i1.2, i2.2, EReal.coe_lt_coe_iff, EReal.coe_lt_coe_iff] at h3
      refine ⟨dbl I.sup - dbl I.inf, ⟨dbl I.inf, (mem_of_bd ⟨h, h'⟩).2 ⟨le_refl _, by linarith⟩, ?_⟩, by rcases h3 with h3 | h3 <;> linarith⟩
      rw [add_sub_cancel]
      exact (mem_of_bd ⟨h, h'⟩).2 ⟨by linarith, le_refl _⟩

/-- the core of the Krawczyk test, shared by all solvers: `K` is computed with some matrix `R` whose entries are
not infinite and lies properly inside `I` -/
theorem test_sound {P : Prog n} {dom : (Fin n → ℝ) → Prop} {f : (Fin n → ℝ) → Fin n → ℝ} (hP : P.Sound dom f)
    {I fi : Vec n (Interval D)} {J : Mat n n (Interval D)} (hJ : P.FD I = .ok (fi, J)) {c : Fin n → ℝ} (hc : ∀ i, c i ∈ I i)
    {R : Fin n → Fin n → ℝ} {K : Vec n (Interval D)}
    (hK : ∀ A : Fin n → Fin n → ℝ, (∀ i j, A i j ∈ J i j) → ∀ x : Fin n → ℝ, (∀ i, x i ∈ I i) → ∀ i,
      (c i - ∑ k, R i k * f c k) + ∑ j, kG R A i j * (x j - c j) ∈ K i)
    (hb : ∀ i, Bd (K i)) (hp : properSubsetV K I = true) :
    (∀ A : Fin n → Fin n → ℝ, (∀ i j, A i j ∈ J i j) → (Matrix.of A).det ≠ 0) ∧ (Matrix.of R).det ≠ 0 ∧
    ∃ z, (∀ i, z i ∈ K i) ∧ f z = 0 ∧ ∀ y, (∀ i, y i ∈ I i) → f y = 0 → y = z := by
  have hp' := allV_iff.1 hp
  obtain ⟨-, -, A0, hA0, -⟩ := hP.der hJ hc
  have hle : ∀ i, dbl (K i).inf ≤ dbl (K i).sup := fun i => by
    have := (mem_of_bd (hb i)).1 (hK A0 hA0 c hc i)
    exact this.1.trans this.2
  choose hlo hhi ω hω hlt using fun i => proper_room (hb i) (hle i) (hp' i)
  obtain ⟨h1, h2, z, hz, h3, h4⟩ := kraw_real (S := fun i => {x : ℝ | x ∈ I i}) (P := fun A => ∀ i j, A i j ∈ J i j) (f := f) (R := R) (c := c)
    (lo := fun i => dbl (K i).inf) (hi := fun i => dbl (K i).sup) (ω := ω) (fun i => ordConnected_mem (I i)) hc
    (fun x hx => (hP.der hJ hx).2.2) (fun A hA x hx i => (mem_of_bd (hb i)).1 (hK A hA x hx i)) hlo hhi hω hlt
  exact ⟨h1, h2, z, fun i => (mem_of_bd (hb i)).2 (hz i), h3, h4⟩

theorem catchDom_some {α : Type} {r : Res α} {a : α} : catchDom r = .ok (some a) ↔ r = .ok a := by
  unfold catchDom
  split
  · simp
  · simp
  · simp

/-- everything a successful run of the verification part has computed -/
theorem verify_some {inv : Inverter n} {P : Prog n} {c : Vec n D} {I K : Vec n (Interval D)} (h : verify inv P c = .ok (some (I, K))) :
    ∃ fc fdc R fi fdi, P.FD (pointV c) = .ok (fc, fdc) ∧ inv (midM fdc) = some R ∧
      I = (fun i => inflate n (c i) (makeCandidate (fun i => Interval.norm (prodSV R fc i)) i)) ∧ P.FD I = .ok (fi, fdi) ∧
      K = boxK c (prodSV R fc) (matM R fdi) I ∧ properSubsetV K I = true := by
  unfold verify at h
  obtain ⟨a, ha, h⟩ := bind_ok.1 h
  match a, ha, h with
  | some (fc, fdc), ha, h =>
    simp only at h
    split at h
    · cases h
    · rename_i R hR
      obtain ⟨b, hb, h⟩ := bind_ok.1 h
      match b, hb, h with
      | some (fi, fdi), hb, h =>
        simp only at h
        by_cases hp : properSubsetV (boxK c (prodSV R fc) (matM R fdi) fun i =>
            inflate n (c i) (makeCandidate (fun i => Interval.norm (prodSV R fc i)) i)) (fun i =>
            inflate n (c i) (makeCandidate (fun i => Interval.norm (prodSV R fc i)) i)) = true
        swap
        · rw [if_neg hp] at h; cases h
        rw [if_pos hp] at h
        cases h
        exact ⟨fc, fdc, R, fi, fdi, catchDom_some.1 ha, hR, rfl, catchDom_some.1 hb, rfl, hp⟩

theorem krawczykApprox_some {inv : Inverter n} {P : Prog n} {c : Vec n D} {k : ℕ} {r} (h : krawczykApprox inv P c k = .ok (some r)) :
    ∃ c2, newton inv P k c = .ok (some c2) ∧ verify inv P c2 = .ok (some r) := by
  unfold krawczykApprox at h
  obtain ⟨a, ha, h⟩ := bind_ok.1 h
  match a, ha, h with
  | some c2, ha, h => exact ⟨c2, ha, h⟩

end Kraw
end Kv
