import Verif.Complex.DkaLemmas
import Verif.Ode.Radius
import Verif.Props.Sets

/-! # `smith_error` returns -/

namespace Kv.Dka
open RopSem Kv.Interval Kv.Smith
open Rop (lit)

theorem hwMul_nn {x y : Fl binary64} (h : (Fl.NN x ∧ Fl.NN y) ∨ x = y) : Fl.NN (Hw.mulDown x y) := by
  unfold Hw.mulDown
  have key : ∀ q r : ℚ, 0 ≤ q * r → Fl.NN (Fl.neg (Fl.round .up (-q * r)) : Fl binary64) := fun q r hqr => by
    rw [neg_mul, Fl.round_neg_up, Fl.neg_neg]; exact Fl.NN.round hqr
  cases x with
  | nan => trivial
  | pinf =>
    cases y with
    | nan => trivial
    | pinf => trivial
    | ninf => rcases h with h | h
              · exact h.2.elim
              · cases h
    | fin r hr =>
      rcases h with h | h
      · have h0 : (0 : ℚ) ≤ r := h.2
        show Fl.NN (Fl.neg (Fl.infOfSign (-1 * Fl.sgn (Fl.fin r hr))))
        have : 0 ≤ Fl.sgn (Fl.fin r hr : Fl binary64) := h.2.sgn
        unfold Fl.infOfSign
        split_ifs <;> first | trivial | omega
      · cases h
  | ninf =>
    rcases h with h | h
    · exact h.1.elim
    · subst h; trivial
  | fin q hq =>
    cases y with
    | nan => trivial
    | pinf =>
      rcases h with h | h
      · show Fl.NN (Fl.neg (Fl.infOfSign (Fl.sgn (Fl.fin (-q) _) * 1)))
        have h0 : (0 : ℚ) ≤ q := h.1
        have : ∀ hq', Fl.sgn (Fl.fin (-q) hq' : Fl binary64) ≤ 0 := fun hq' => by
          unfold Fl.sgn; dsimp only; split_ifs <;> first | omega | (exfalso; linarith)
        have := this hq.neg
        unfold Fl.infOfSign
        split_ifs <;> first | trivial | omega
      · cases h
    | ninf => rcases h with h | h
              · exact h.2.elim
              · cases h
    | fin r hr =>
      refine key q r ?_
      rcases h with h | h
      · exact mul_nonneg h.1 h.2
      · cases h; exact mul_self_nonneg _

theorem mulDown_nn {a b : D} (ha : NN a) (hb : NN b) : NN (Rop.mulDown a b) := hwMul_nn (.inl ⟨ha, hb⟩)
theorem addDown_nn {a b : D} (ha : NN a) (hb : NN b) : NN (Rop.addDown a b) := by
  show Fl.NN (Hw.addDown a b)
  unfold Hw.addDown
  revert ha hb
  show Fl.NN (F := binary64) a → Fl.NN (F := binary64) b → _
  cases a <;> cases b <;> intro ha hb <;> first | trivial | exact ha.elim | exact hb.elim | skip
  rename_i q hq r hr
  show Fl.NN (Fl.neg (Fl.round .up (-q + -r)) : Fl binary64)
  rw [← neg_add, Fl.round_neg_up, Fl.neg_neg]; exact Fl.NN.round (add_nonneg ha hb)

theorem nn_zero : NN (lit 0 : D) := NN.lit le_rfl

theorem mul_point_cases {T : Type} [Rop T] (a : T) : (mul (point a) (point a)).inf = Rop.mulDown a a ∨ (mul (point a) (point a)).inf = lit 0 := by
  have e : (point a).sup = (point a).inf := rfl
  unfold mul
  rw [e]
  repeat' split
  all_goals first | exact .inl rfl | exact .inr rfl | skip
  all_goals dsimp only; split <;> exact .inl rfl

/-- the lower bound of `x * x` for a number `x` -/
theorem mul_point_nn (a : D) : NN (mul (point a) (point a)).inf := by
  have hs : NN (Rop.mulDown a a) := hwMul_nn (.inr rfl)
  rcases mul_point_cases a with h | h
  · rw [h]; exact hs
  · rw [h]; exact nn_zero

theorem mul_one_cases {T : Type} [Rop T] {I : Interval T} (h1 : Rop.le (O : T) (lit 1) = true) (h2 : ¬ Rop.eq (lit 1 : T) O = true)
    (h3 : Rop.le O I.inf = true) : (mul (point (lit 1)) I).inf = lit 0 ∨ (mul (point (lit 1)) I).inf = Rop.mulDown (lit 1) I.inf := by
  unfold mul
  rw [if_pos (show Rop.le O (point (lit 1)).inf = true from h1), if_neg (show ¬ Rop.eq (point (lit 1)).sup O = true from h2), if_pos h3]
  by_cases h4 : Rop.eq I.sup O = true
  · rw [if_pos h4]; exact .inl rfl
  · rw [if_neg h4]; exact .inr rfl

theorem mul_one_nn {I : Interval D} (hI : NN I.inf) (hs : ¬ nan I.inf) : NN (mul (point (lit 1)) I).inf := by
  have h3 : Rop.le O I.inf = true := by
    rw [le_iff]
    refine ⟨(is_zero (T := D)).1, hs, ?_⟩
    rw [show val (O : D) = ((0 : ℝ) : EReal) from (is_zero (T := D)).2]
    exact_mod_cast (nn_iff.1 hI).resolve_left hs
  rcases mul_one_cases (I := I) (by decide +kernel) (by decide +kernel) h3 with h | h
  · rw [h]; exact nn_zero
  · rw [h]; exact mulDown_nn (NN.lit (by norm_num)) hI

theorem powPoint_two (a : D) : powPoint a 2 = mul (point (lit 1)) (mul (point a) (point a)) := by
  unfold powPoint
  rw [powLoop, dif_neg (by norm_num), powLoop, dif_neg (by norm_num), powLoop, dif_pos (by norm_num)]
  rw [if_pos (by norm_num), if_neg (by norm_num)]

theorem mul_point_notnan {a : D} (h : ¬ nan a) : ¬ nan (mul (point a) (point a)).inf := by
  rcases D_cases a with rfl | rfl | rfl | hf
  · exact absurd nan_dNaN h
  · have : (mul (point dPinf) (point dPinf)).inf = dPinf := by decide +kernel
    rw [this]; exact fun h => by cases h
  · have : (mul (point dNinf) (point dNinf)).inf = dPinf := by decide +kernel
    rw [this]; exact fun h => by cases h
  · exact (mul_mem (point_mem (is_dbl' hf)) (point_mem (is_dbl' hf))).1.1

theorem powPoint_nn {a : D} (h : ¬ nan a) : NN (powPoint a 2).inf := by
  rw [powPoint_two]
  exact mul_one_nn (mul_point_nn a) (mul_point_notnan h)

theorem nn_ite {p : Prop} [Decidable p] {a b : D} (ha : NN a) (hb : NN b) : NN (if p then a else b) := by split_ifs <;> assumption

theorem mag_notnan {I : Interval D} {t : ℝ} (h : t ∈ I) : ¬ nan (mag I) := (C10_mag_bound h).1

theorem powInt_two {I : Interval D} {t : ℝ} (h : t ∈ I) : ∃ J, powInt I 2 = .ok J ∧ NN J.inf := by
  unfold powInt
  rw [if_neg (by norm_num), if_neg (by norm_num)]
  dsimp only
  rw [if_neg (by norm_num)]
  refine ⟨_, rfl, ?_⟩
  split
  · exact nn_ite (powPoint_nn (mag_notnan h)) nn_zero
  · exact nn_ite (powPoint_nn h.2.1) (powPoint_nn h.1.1)

theorem abs_ok {Z : Cx} {z : ℂ} (h : z ∈ Z) : ∃ a, Cx.abs Z = .ok a := by
  obtain ⟨A, hA, hA'⟩ := powInt_two h.1
  obtain ⟨B, hB, hB'⟩ := powInt_two h.2
  unfold Cx.abs
  rw [hA]
  show ∃ a, (powInt Z.im 2 >>= fun b => sqrt (add A b)) = .ok a
  rw [hB]
  show ∃ a, sqrt (add A B) = .ok a
  unfold sqrt
  rw [if_neg]
  · exact ⟨_, rfl⟩
  · rw [lt_zero_right]
    rintro ⟨h1, h2⟩
    rcases nn_iff.1 (addDown_nn hA' hB') with h3 | h3
    · exact h1 h3
    · exact absurd h2 (not_lt.2 h3)

theorem div_ok {a b : Interval D} {t : ℝ} (h : zeroIn b = false) (ht : t ∈ b) : ∃ d, div a b = .ok d := by
  have h1 := (not_congr (zeroIn_iff ht)).1 (by rw [h]; simp)
  unfold div
  by_cases h2 : Rop.lt (O : D) b.inf = true
  · rw [if_pos h2]; repeat' split
    all_goals exact ⟨_, rfl⟩
  · have h3 : Rop.lt b.sup (O : D) = true := by
      rw [lt_zero_right]
      refine ⟨ht.2.1, ?_⟩
      by_contra hc
      refine h1 ⟨?_, not_lt.1 hc⟩
      by_contra hc'
      exact h2 (by rw [lt_zero_left]; exact ⟨ht.1.1, not_le.1 hc'⟩)
    rw [if_neg h2, if_pos h3]; repeat' split
    all_goals exact ⟨_, rfl⟩

theorem cDiv_ok {X Y : Cx} {y : ℂ} (h : maybeZero Y = false) (hy : y ∈ Y) : ∃ Z, Cx.cDiv X Y = .ok Z := by
  have hm := add_mem (mul_mem hy.1 hy.1) (mul_mem hy.2 hy.2)
  obtain ⟨u, hu⟩ := div_ok (a := add (mul Y.re X.re) (mul Y.im X.im)) h hm
  obtain ⟨v, hv⟩ := div_ok (a := sub (mul Y.re X.im) (mul X.re Y.im)) h hm
  unfold Cx.cDiv
  dsimp only
  rw [hu]
  show ∃ Z, (div (sub (mul Y.re X.im) (mul X.re Y.im)) (add (mul Y.re Y.re) (mul Y.im Y.im)) >>= fun v => .ok (⟨u, v⟩ : Cx)) = .ok Z
  rw [hv]
  exact ⟨_, rfl⟩

variable {n : ℕ} {p : Fin (n + 1) → Cx} {c : Fin (n + 1) → ℂ} {X : Fin n → Cx} {x : Fin n → ℂ}

theorem radius_ok (hn : n < 2 ^ 31) (hp : ∀ k, c k ∈ p k) (hx : ∀ i, x i ∈ X i) (i : Fin n) : ∃ e, radius p X i = .ok e := by
  unfold radius
  dsimp only
  by_cases hz : maybeZero (denom p X i) = true
  · rw [if_pos hz]; exact ⟨_, rfl⟩
  · rw [if_neg hz]
    rw [Bool.not_eq_true] at hz
    have hd := denom_mem (hp (Fin.last n)) hx i
    have hf := Cx.kMulC_mem (k := .dbl (lit n)) (c := n) (evalPolynomial_mem hp (hx i)) (is_nat hn)
    obtain ⟨q, hq⟩ := cDiv_ok (X := Cx.kMulC (.dbl (lit n)) (evalPolynomial p (X i))) hz hd
    obtain ⟨a, ha⟩ := abs_ok (Cx.cDiv_mem hq hf hd).1
    rw [hq]
    show ∃ e, (Cx.abs q >>= fun a => .ok a.sup) = .ok e
    rw [ha]
    exact ⟨_, rfl⟩

theorem squares_ok (hn : n < 2 ^ 31) (hp : ∀ k, c k ∈ p k) (hx : ∀ i, x i ∈ X i) : ∀ (l : List (Fin n)) (y : Fin n → Cx), ∃ r, squares p X l y = .ok r
  | [], y => ⟨y, rfl⟩
  | i :: l, y => by
    obtain ⟨e, he⟩ := radius_ok hn hp hx i
    unfold squares
    rw [he]
    exact squares_ok hn hp hx l _

end Kv.Dka
