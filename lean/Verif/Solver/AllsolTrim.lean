import Verif.Solver.Recover

/-! # Trimming step of allsol.hpp: helper lemmas -/

namespace Kv
open RopSem Kv.Interval
open Rop (lit)
open LA

namespace Allsol
variable {n : ℕ}

/-- `W` is nonempty, finite and inside `Z` -/
def Sub (W Z : Interval D) : Prop := Bd W ∧ W.Nonempty ∧ dbl Z.inf ≤ dbl W.inf ∧ dbl W.sup ≤ dbl Z.sup

theorem Sub.mem {W Z : Interval D} (h : Sub W Z) (hZ : Bd Z) {x : ℝ} (hx : x ∈ W) : x ∈ Z := by
  have := (mem_of_bd h.1).1 hx
  exact (mem_of_bd hZ).2 ⟨h.2.2.1.trans this.1, this.2.trans h.2.2.2⟩

theorem Sub.refl {Z : Interval D} (h : Bd Z) (hn : Z.Nonempty) : Sub Z Z := ⟨h, hn, le_refl _, le_refl _⟩

theorem Sub.trans {W Z Y : Interval D} (h : Sub W Z) (h' : Sub Z Y) : Sub W Y := ⟨h.1, h.2.1, h'.2.2.1.trans h.2.2.1, h.2.2.2.trans h'.2.2.2⟩

theorem finD_between {a : D} (hn : ¬ nan a) {p q : ℝ} (h1 : (p : EReal) ≤ val a) (h2 : val a ≤ (q : EReal)) : FinD a := by
  rcases D_cases a with h | h | h | h
  · exact absurd h hn
  · rw [h, val_dPinf] at h2; exact absurd (top_le_iff.1 h2) (EReal.coe_ne_top _)
  · rw [h, val_dNinf] at h1; exact absurd (le_bot_iff.1 h1) (EReal.coe_ne_bot _)
  · exact h

/-- the intersection of overlapping intervals, even if the second one has NaN bounds -/
theorem intersect_sub {Z J : Interval D} (hZ : Bd Z) (h : overlap Z J = true) : Sub (intersect Z J) Z := by
  unfold overlap at h
  rw [le_iff] at h
  set a : D := if Rop.lt Z.inf J.inf = true then J.inf else Z.inf with ha
  set b : D := if Rop.lt J.sup Z.sup = true then J.sup else Z.sup with hb
  have e : intersect Z J = ⟨a, b⟩ := rfl
  have i1 := is_dbl' hZ.1
  have i2 := is_dbl' hZ.2
  have h1 : val Z.inf ≤ val a := by
    rw [ha]; split_ifs with c
    · rw [lt_iff] at c; exact c.2.2.le
    · exact le_refl _
  have h2 : val b ≤ val Z.sup := by
    rw [hb]; split_ifs with c
    · rw [lt_iff] at c; exact c.2.2.le
    · exact le_refl _
  rw [i1.2] at h1
  rw [i2.2] at h2
  have fa := finD_between h.1 h1 (h.2.2.trans h2)
  have fb := finD_between h.2.1 (h1.trans h.2.2) h2
  have ea := (is_dbl' fa).2
  have eb := (is_dbl' fb).2
  have hab := h.2.2
  rw [ea, eb, EReal.coe_le_coe_iff] at hab
  rw [ea, EReal.coe_le_coe_iff] at h1
  rw [eb, EReal.coe_le_coe_iff] at h2
  rw [e]
  exact ⟨⟨fa, fb⟩, Bd.nonempty ⟨fa, fb⟩ hab, h1, h2⟩

theorem overlap_of_mem {Z J : Interval D} {z : ℝ} (h1 : z ∈ Z) (h2 : z ∈ J) : overlap Z J = true :=
  (overlap_iff ⟨z, h1⟩ ⟨z, h2⟩).2 ⟨z, h1, h2⟩

theorem intersect_mem {Z J : Interval D} {z : ℝ} (h1 : z ∈ Z) (h2 : z ∈ J) : z ∈ intersect Z J :=
  (mem_intersect ⟨h1.1.1, h1.2.1⟩ ⟨h2.1.1, h2.2.1⟩).2 ⟨h1, h2⟩

/-- the division by an interval containing zero gives correct results: the numerator does not touch zero with its boundary -/
def TrimSafe (A B : Interval D) : Prop := (0 : ℝ) ∈ B → (∃ b : ℝ, b ∈ B ∧ b ≠ 0) → (0 : ℝ) ∈ A → (∃ a : ℝ, a ∈ A ∧ a < 0) ∧ ∃ a : ℝ, a ∈ A ∧ 0 < a

/-- effect of a cut on the component -/
def Cut.sub (Z : Interval D) : Cut → Prop
  | .narrow W => Sub W Z
  | .split W1 W2 => Sub W1 Z ∧ Sub W2 Z
  | _ => True

/-- effect of a cut on a point -/
def Cut.keeps (z : ℝ) : Cut → Prop
  | .keep => True
  | .narrow W => z ∈ W
  | .empty => False
  | .split W1 W2 => z ∈ W1 ∨ z ∈ W2

theorem divisionPart1_all {A B Z1 : Interval D} {p : Bool} (h : divisionPart1 A B = .ok (Z1, p)) (hB : (0 : ℝ) ∈ B)
    (h1 : ∃ a : ℝ, a ∈ A ∧ a < 0) (h2 : ∃ a : ℝ, a ∈ A ∧ 0 < a) (x : ℝ) : x ∈ Z1 := by
  obtain ⟨a, ha, a0⟩ := h1
  obtain ⟨b, hb, b0⟩ := h2
  have l1 : val A.inf < 0 := lt_of_le_of_lt ha.1.2 (by exact_mod_cast a0)
  have l2 : 0 < val A.sup := lt_of_lt_of_le (by exact_mod_cast b0) hb.2.2
  have c1 : Rop.eq A.inf (O : D) = false := by
    rw [Bool.eq_false_iff]; simp only [O]
    exact fun h => (eq_zero_right.1 h).2.not_lt l1
  have c2 : Rop.le (O : D) A.inf = false := by
    rw [Bool.eq_false_iff]; simp only [O]
    exact fun h => (le_zero_left.1 h).2.not_gt l1
  have c3 : Rop.le A.sup (O : D) = false := by
    rw [Bool.eq_false_iff]; simp only [O]
    exact fun h => (le_zero_right.1 h).2.not_gt l2
  have c4 : Rop.lt (O : D) A.inf = false := by
    rw [Bool.eq_false_iff]; simp only [O]
    exact fun h => (lt_zero_left.1 h).2.not_gt l1
  have c5 : Rop.lt A.sup (O : D) = false := by
    rw [Bool.eq_false_iff]; simp only [O]
    exact fun h => (lt_zero_right.1 h).2.not_gt l2
  have c6 : Rop.lt (O : D) B.inf = false := by
    rw [Bool.eq_false_iff]; simp only [O]
    exact fun h => (lt_zero_left.1 h).2.not_ge (by exact_mod_cast hB.1.2)
  have c7 : Rop.lt B.sup (O : D) = false := by
    rw [Bool.eq_false_iff]; simp only [O]
    exact fun h => (lt_zero_right.1 h).2.not_ge (by exact_mod_cast hB.2.2)
  unfold divisionPart1 at h
  rw [c1, c2, c3, c4, c5, c6, c7] at h
  simp only [Bool.false_and, Bool.or_false, Bool.false_eq_true, if_false] at h
  split_ifs at h <;> cases h <;> exact ⟨lo_neg_inf _, hi_inf _⟩

theorem rad_pos {B : Interval D} (hB : (0 : ℝ) ∈ B) (h : ¬ Rop.le (rad B) (lit 0) = true) : ∃ b : ℝ, b ∈ B ∧ b ≠ 0 := by
  by_contra hc
  push Not at hc
  apply h
  have nB : B.Nonempty := ⟨0, hB⟩
  -- both bounds are zero
  have z1 : val B.inf = 0 := by
    refine le_antisymm (by exact_mod_cast hB.1.2) ?_
    by_contra hlt
    rw [not_le] at hlt
    obtain ⟨q, hq1, hq2⟩ := EReal.lt_iff_exists_real_btwn.1 hlt
    have hq2' : q < 0 := by exact_mod_cast hq2
    exact hq2'.ne (hc q ⟨⟨hB.1.1, hq1.le⟩, hB.2.1, le_trans (by exact_mod_cast hq2'.le) hB.2.2⟩)
  have z2 : val B.sup = 0 := by
    refine le_antisymm ?_ (by exact_mod_cast hB.2.2)
    by_contra hlt
    rw [not_le] at hlt
    obtain ⟨q, hq1, hq2⟩ := EReal.lt_iff_exists_real_btwn.1 hlt
    have hq1' : 0 < q := by exact_mod_cast hq1
    exact hq1'.ne' (hc q ⟨⟨hB.1.1, hB.1.2.trans (by exact_mod_cast hq1'.le)⟩, hB.2.1, hq2.le⟩)
  have e1 : B.inf = (Hw.fin 0 Format.rep_zero : D) := by
    obtain ⟨q, hq, e⟩ := finD_fin' (finD_between hB.1.1 (p := 0) (q := 0) (by rw [z1]; simp) (by rw [z1]; simp))
    rw [e] at z1 ⊢
    have : q = 0 := by
      rw [Hw.val_fin] at z1; exact_mod_cast z1
    subst this; rfl
  have e2 : B.sup = (Hw.fin 0 Format.rep_zero : D) := by
    obtain ⟨q, hq, e⟩ := finD_fin' (finD_between hB.2.1 (p := 0) (q := 0) (by rw [z2]; simp) (by rw [z2]; simp))
    rw [e] at z2 ⊢
    have : q = 0 := by
      rw [Hw.val_fin] at z2; exact_mod_cast z2
    subst this; rfl
  unfold rad
  rw [e1, e2]
  decide +kernel

theorem cut_ok {Z c A B : Interval D} {r : Cut} (hZ : Bd Z) (h : cut Z c A B = .ok r) :
    (Z.Nonempty → r.sub Z) ∧ ∀ z c0 a b : ℝ, z ∈ Z → c0 ∈ c → a ∈ A → b ∈ B → a + b * (z - c0) = 0 → TrimSafe A B → r.keeps z := by
  -- a component which is intersected with `J`
  have one : ∀ J : Interval D, ∀ r' : Cut, overlap Z J = true → (if subset Z J = true then (.ok .keep : Res Cut) else .ok (.narrow (intersect Z J))) = .ok r' →
      (Z.Nonempty → r'.sub Z) ∧ ∀ z : ℝ, z ∈ Z → z ∈ J → r'.keeps z := by
    intro J r' ho hr
    split_ifs at hr
    · cases hr; exact ⟨fun _ => trivial, fun _ _ _ => trivial⟩
    · cases hr; exact ⟨fun _ => intersect_sub hZ ho, fun z hz hzJ => intersect_mem hz hzJ⟩
  unfold cut at h
  by_cases hB : zeroIn B = true
  · rw [if_pos hB] at h
    by_cases hr : Rop.le (rad B) (lit 0) = true
    · rw [if_pos hr] at h; cases h
      exact ⟨fun _ => trivial, fun _ _ _ _ _ _ _ _ _ _ => trivial⟩
    rw [if_neg hr] at h
    obtain ⟨⟨Z1, p⟩, h1, h⟩ := bind_ok.1 h
    obtain ⟨Z2, h2, h⟩ := bind_ok.1 h
    have hB0 := (C07_zero_in B).1 hB
    -- a zero is in one of the two parts
    have key : ∀ z c0 a b : ℝ, c0 ∈ c → a ∈ A → b ∈ B → a + b * (z - c0) = 0 → TrimSafe A B → z ∈ sub c Z1 ∨ z ∈ sub c Z2 := by
      intro z c0 a b hc ha hb e hs
      by_cases hb0 : b = 0
      · subst hb0
        have ha0 : a = 0 := by linarith
        subst ha0
        obtain ⟨s1, s2⟩ := hs hB0 (rad_pos hB0 hr) ha
        left
        have := sub_mem hc (divisionPart1_all h1 hB0 s1 s2 (c0 - z))
        rwa [sub_sub_cancel] at this
      · have ez : z = c0 - a / b := by field_simp; linarith
        rcases divisionPart_mem h1 h2 ha hb hb0 with hq | ⟨-, hq⟩
        · left; rw [ez]; exact sub_mem hc hq
        · right; rw [ez]; exact sub_mem hc hq
    simp only at h
    by_cases o1 : overlap Z (sub c Z1) = true
    · rw [if_pos o1] at h
      by_cases o2 : overlap Z (sub c Z2) = true
      · rw [if_pos o2] at h
        split_ifs at h
        · cases h; exact ⟨fun _ => trivial, fun _ _ _ _ _ _ _ _ _ _ => trivial⟩
        · cases h
          exact ⟨fun _ => ⟨intersect_sub hZ o1, intersect_sub hZ o2⟩, fun z c0 a b hz hc ha hb e hs =>
            (key z c0 a b hc ha hb e hs).imp (intersect_mem hz) (intersect_mem hz)⟩
      · rw [if_neg o2] at h
        obtain ⟨g1, g2⟩ := one _ _ o1 h
        exact ⟨g1, fun z c0 a b hz hc ha hb e hs => (key z c0 a b hc ha hb e hs).elim (g2 z hz) fun hz2 => absurd (overlap_of_mem hz hz2) o2⟩
    · rw [if_neg o1] at h
      by_cases o2 : overlap Z (sub c Z2) = true
      · rw [if_pos o2] at h
        obtain ⟨g1, g2⟩ := one _ _ o2 h
        exact ⟨g1, fun z c0 a b hz hc ha hb e hs => (key z c0 a b hc ha hb e hs).elim (fun hz1 => absurd (overlap_of_mem hz hz1) o1) (g2 z hz)⟩
      · rw [if_neg o2] at h; cases h
        exact ⟨fun _ => trivial, fun z c0 a b hz hc ha hb e hs => (key z c0 a b hc ha hb e hs).elim
          (fun hz1 => absurd (overlap_of_mem hz hz1) o1) fun hz2 => absurd (overlap_of_mem hz hz2) o2⟩
  · rw [if_neg hB] at h
    obtain ⟨q, hq, h⟩ := bind_ok.1 h
    have key : ∀ z c0 a b : ℝ, c0 ∈ c → a ∈ A → b ∈ B → a + b * (z - c0) = 0 → z ∈ sub c q := by
      intro z c0 a b hc ha hb e
      have hb0 : b ≠ 0 := by
        rintro rfl
        exact hB ((C07_zero_in B).2 hb)
      have ez : z = c0 - a / b := by field_simp; linarith
      rw [ez]
      exact sub_mem hc (div_mem hq ha hb)
    simp only at h
    by_cases o1 : overlap Z (sub c q) = true
    · rw [if_pos o1] at h
      obtain ⟨g1, g2⟩ := one _ _ o1 h
      exact ⟨g1, fun z c0 a b hz hc ha hb e _ => g2 z hz (key z c0 a b hc ha hb e)⟩
    · rw [if_neg o1] at h; cases h
      exact ⟨fun _ => trivial, fun z c0 a b hz hc ha hb e _ => absurd (overlap_of_mem hz (key z c0 a b hc ha hb e)) o1⟩

/-! ## the numerator -/

theorem acc_mem : ∀ {l : List (Interval D)} {a : List ℝ} {t : Interval D} {s : ℝ}, s ∈ t → List.Forall₂ (fun x X => x ∈ X) a l →
    s + a.sum ∈ l.foldl Interval.add t
  | [], _, t, s, hs, h => by cases h; simpa using hs
  | X :: l, _, t, s, hs, h => by
    obtain ⟨x, a, hx, ha, rfl⟩ := List.forall₂_cons_right_iff.1 h
    rw [List.foldl_cons, List.sum_cons, ← add_assoc]
    exact acc_mem (add_mem hs hx) ha

theorem numer_mem {fc : Vec n (Interval D)} {fdi : Mat n n (Interval D)} {I C : Vec n (Interval D)} {i : Fin n} (j : Fin n) {f0 : ℝ} {A z c : Fin n → ℝ}
    (h0 : f0 ∈ fc i) (hA : ∀ j, A j ∈ fdi i j) (hz : ∀ j, z j ∈ I j) (hc : ∀ j, c j ∈ C j) (he : f0 + ∑ j, A j * (z j - c j) = 0) :
    ∃ a : ℝ, a ∈ numer fc fdi I C i j ∧ a + A j * (z j - c j) = 0 := by
  set t : List ℝ := List.ofFn fun j => A j * (z j - c j) with ht
  have hF : List.Forall₂ (fun (x : ℝ) X => x ∈ X) t (terms fdi I C i) := by
    rw [List.forall₂_iff_get]
    refine ⟨by simp [ht, terms], fun k h1 h2 => ?_⟩
    simp only [ht, terms, List.get_eq_getElem, List.getElem_ofFn]
    exact mul_mem (hA _) (sub_mem (hz _) (hc _))
  have hz0 : (0 : ℝ) ∈ Interval.point (lit 0 : D) := point_mem is_zero
  have h1 := acc_mem hz0 (List.forall₂_take (j : ℕ) hF)
  have h2 := acc_mem hz0 (List.rel_reverse (List.forall₂_drop (j + 1 : ℕ) hF))
  rw [zero_add] at h1 h2
  refine ⟨_, add_mem (add_mem h0 h1) h2, ?_⟩
  have hlen : (j : ℕ) < t.length := by simp [ht]
  have hsum : t.sum = (t.take j).sum + (t[(j : ℕ)] + (t.drop (j + 1)).sum) := by
    conv_lhs => rw [← List.take_append_drop (j : ℕ) t, List.sum_append, List.drop_eq_getElem_cons hlen, List.sum_cons]
  have hj : t[(j : ℕ)] = A j * (z j - c j) := by simp [ht]
  have htot : t.sum = ∑ j, A j * (z j - c j) := by rw [ht, List.sum_ofFn]
  rw [List.sum_reverse]
  rw [hj] at hsum
  rw [← htot, hsum] at he
  linarith

end Allsol
end Kv
