import Verif.Ode.Model
import Verif.Solver.AllsolLemmas

/-! # The step size is not negative -/

namespace Kv
open RopSem Kv.Interval Kraw
open Rop (lit)
set_option linter.unusedVariables false

namespace Fl
variable {F : Format}

/-- NaN or not negative -/
def NN : Fl F → Prop
  | nan => True
  | pinf => True
  | ninf => False
  | fin q _ => 0 ≤ q

theorem NN.round {md : RMode} {q : ℚ} (h : 0 ≤ q) : NN (round md q : Fl F) := by
  have h0 : (0 : ℚ) ≤ F.roundQ md q := by
    have := F.roundQ_mono md h
    rwa [show F.roundQ md 0 = 0 from Format.rep_zero.repU.roundQ_eq md] at this
  unfold Fl.round pack
  split_ifs with h1
  · exact h0
  · have : 0 < F.roundQ md q := by
      rcases h0.lt_or_eq with h | h
      · exact h
      · exfalso; apply h1; rw [← h, abs_zero]; exact Format.maxQ_pos.le
    rw [decide_eq_true this]
    cases md
    · trivial
    · exact Format.maxQ_pos.le
    · trivial

theorem NN.infOfSign {s : ℤ} (h : 0 ≤ s) : NN (infOfSign s : Fl F) := by
  unfold Fl.infOfSign
  split_ifs <;> first | trivial | omega

theorem NN.sgn {x : Fl F} (h : NN x) : 0 ≤ sgn x := by
  cases x with
  | nan => exact le_refl _
  | pinf => exact Int.one_nonneg
  | ninf => exact h.elim
  | fin q h' =>
    show 0 ≤ (if 0 < q then (1 : ℤ) else if q < 0 then -1 else 0)
    split_ifs with h1 h2
    · omega
    · exact absurd h (not_le.2 h2)
    · omega

theorem NN.add {md : RMode} {x y : Fl F} (hx : NN x) (hy : NN y) : NN (add md x y) := by
  cases x <;> cases y <;> first | trivial | exact hx.elim | exact hy.elim | exact NN.round (_root_.add_nonneg hx hy)

theorem NN.mul {md : RMode} {x y : Fl F} (hx : NN x) (hy : NN y) : NN (mul md x y) := by
  have := mul_nonneg hx.sgn hy.sgn
  cases x <;> cases y <;> first | trivial | exact hx.elim | exact hy.elim | exact NN.round (_root_.mul_nonneg hx hy) | exact NN.infOfSign this

theorem NN.div {md : RMode} {x y : Fl F} (hx : NN x) (hy : NN y) : NN (div md x y) := by
  have := hx.sgn
  cases x with
  | nan => trivial
  | ninf => exact hx.elim
  | pinf =>
    cases y with
    | fin b hb =>
      show NN (Fl.infOfSign (if b < 0 then _ else _))
      rw [if_neg (not_lt.2 hy)]; exact NN.infOfSign this
    | _ => trivial
  | fin a ha =>
    cases y with
    | fin b hb =>
      show NN (if _ then _ else _)
      split_ifs
      · exact NN.infOfSign this
      · exact NN.round (div_nonneg hx hy)
    | nan => trivial
    | pinf => exact le_refl _
    | ninf => exact le_refl _

end Fl

/-- NaN or not negative -/
def NN (a : D) : Prop := Fl.NN (F := binary64) a

theorem NN.add {x y : D} (hx : NN x) (hy : NN y) : NN (Rop.add x y) := Fl.NN.add hx hy
theorem NN.mul {x y : D} (hx : NN x) (hy : NN y) : NN (Rop.mul x y) := Fl.NN.mul hx hy
theorem NN.div {x y : D} (hx : NN x) (hy : NN y) : NN (Rop.div x y) := Fl.NN.div hx hy

theorem nn_iff {a : D} : NN a ↔ nan a ∨ 0 ≤ val a := by
  have : ∀ a : Fl binary64, Fl.NN a ↔ a = Fl.nan ∨ 0 ≤ Fl.toE a := by
    intro a
    cases a with
    | nan => exact ⟨fun _ => Or.inl rfl, fun _ => trivial⟩
    | pinf => exact ⟨fun _ => Or.inr le_top, fun _ => trivial⟩
    | ninf => exact ⟨fun h => h.elim, fun h => by rcases h with h | h <;> [cases h; exact absurd h (by show ¬ (0 : EReal) ≤ ⊥; simp)]⟩
    | fin q h =>
      constructor
      · intro h; right; show (0 : EReal) ≤ ((q : ℝ) : EReal); exact_mod_cast h
      · rintro (h | h)
        · cases h
        · have h : (0 : EReal) ≤ ((q : ℝ) : EReal) := h
          show 0 ≤ q; exact_mod_cast h
  exact this a

theorem NN.lit {q : ℚ} (h : 0 ≤ q) : NN (lit q : D) := Fl.NN.round h

theorem NN.stdMax {a b : D} (ha : NN a) (hb : NN b) : NN (stdMax a b) := by unfold Kraw.stdMax; split_ifs <;> assumption
theorem NN.stdMin {a b : D} (ha : NN a) (hb : NN b) : NN (Ode.stdMin a b) := by unfold Ode.stdMin; split_ifs <;> assumption

theorem NN.stdMax' {a b : D} (ha : NN a) : NN (Kraw.stdMax a b) := by
  unfold Kraw.stdMax
  split_ifs with h
  · rw [lt_iff] at h
    rcases nn_iff.1 ha with h' | h'
    · exact absurd h' h.1
    · exact nn_iff.2 (Or.inr (h'.trans h.2.2.le))
  · exact ha

theorem NN.mid {x : Interval D} (h1 : NN x.inf) (h2 : NN x.sup) : NN (mid x) := by
  unfold Interval.mid
  split_ifs
  · exact ((h1.mul (NN.lit (by norm_num))).add (h2.mul (NN.lit (by norm_num))))
  · exact (h1.add h2).mul (NN.lit (by norm_num))

/-! ## the end of the step -/

namespace Ode

/-- finite start, not after the end -/
structure Forward (start stop : Interval D) : Prop where
  bd : Bd start
  le1 : Rop.le start.inf start.sup = true
  le2 : Rop.le start.sup stop.inf = true
  le3 : Rop.le stop.inf stop.sup = true

theorem domain_zero {E S : Interval D} (hS : Bd S) (hn : ¬ nan E.sup) (h : val S.inf ≤ val E.sup) :
    (0 : ℝ) ∈ (⟨lit 0, (Interval.sub E S).sup⟩ : Interval D) := by
  have hi := is_dbl' hS.1
  have hz := Interval.is_zero (T := D)
  obtain ⟨h1, h2⟩ := RopSem.sub_up E.sup S.inf hn hi.1 (fun hh => EReal.coe_ne_top _ (hi.2.symm.trans hh.2))
    (fun hh => EReal.coe_ne_bot _ (hi.2.symm.trans hh.2))
  refine ⟨⟨hz.1, by rw [hz.2]⟩, h1, ?_⟩
  refine le_trans ?_ h2
  rw [hi.2] at h ⊢
  rw [EReal.coe_zero]
  rcases eq_or_ne (val E.sup) ⊤ with e | e
  · rw [e]; simp
  · have e' : val E.sup ≠ ⊥ := fun hh => by rw [hh] at h; exact EReal.coe_ne_bot _ (le_bot_iff.1 h)
    lift val E.sup to ℝ using ⟨e, e'⟩ with c
    rw [EReal.coe_le_coe_iff] at h
    rw [← EReal.coe_sub]; exact_mod_cast sub_nonneg.2 h

theorem domain_sub {E S : Interval D} {t0 t1 : ℝ} (h0 : t0 ∈ S) (h1 : t1 ∈ E) {τ : ℝ} (hτ : τ ∈ Set.Icc 0 (t1 - t0)) :
    τ ∈ (⟨lit 0, (Interval.sub E S).sup⟩ : Interval D) := by
  have hz := Interval.is_zero (T := D)
  have := Interval.sub_mem h1 h0
  exact ⟨⟨hz.1, by rw [hz.2]; exact_mod_cast hτ.1⟩, this.2.1, le_trans (by exact_mod_cast hτ.2) this.2.2⟩

theorem mid_nan {S : Interval D} {r : D} (h : nan r) : nan (mid (Interval.addS S r)) := by
  obtain rfl : r = dNaN := h
  have h1 : ∀ a : Fl binary64, Fl.neg (Fl.add .up (Fl.neg a) (Fl.neg Fl.nan)) = Fl.nan := fun a => by cases a <;> rfl
  have h2 : ∀ a : Fl binary64, Fl.add .up a Fl.nan = Fl.nan := fun a => by cases a <;> rfl
  have e : Interval.addS S dNaN = ⟨dNaN, dNaN⟩ := by
    show (⟨_, _⟩ : Interval D) = _
    congr 1
    · exact h1 S.inf
    · exact h2 S.sup
  have e2 : mid (⟨dNaN, dNaN⟩ : Interval D) = dNaN := by decide +kernel
  rw [e, e2]; exact nan_dNaN

theorem mid_pinf : mid (⟨dPinf, dPinf⟩ : Interval D) = dPinf := by decide +kernel

def dHalf : D := (Fl.fin (1 / 2) (by decide +kernel) : Fl binary64)

theorem lit_dHalf : (lit (1 / 2) : D) = dHalf := by decide +kernel

theorem mid_fin_pinf {a : D} (ha : FinD a) : mid (⟨a, dPinf⟩ : Interval D) = dPinf := by
  obtain ⟨q, h, rfl⟩ := finD_iff.1 ha
  have hh : Rop.mul dPinf (lit (1 / 2)) = dPinf := by decide +kernel
  unfold Interval.mid
  split_ifs with hc
  · dsimp only
    rw [hh]
    rw [lit_dHalf]
    have hb := h.abs_le
    have key : ∃ r hr, Fl.mul .near (Fl.fin q h : Fl binary64) (Fl.fin (1 / 2) (by decide +kernel)) = Fl.fin r hr := by
      show ∃ r hr, Fl.pack .near (binary64.roundQ .near (q * (1 / 2))) (Format.roundQ_repU _ _) = Fl.fin r hr
      unfold Fl.pack
      rw [dif_pos]
      · exact ⟨_, _, rfl⟩
      · rw [abs_le] at hb ⊢
        have m0 := (Format.maxQ_pos (F := binary64)).le
        constructor
        · have := Format.roundQ_mono (F := binary64) .near (a := -binary64.maxQ) (b := q * (1 / 2)) (by linarith)
          rwa [(Format.maxQ_rep (F := binary64)).neg.repU.roundQ_eq] at this
        · have := Format.roundQ_mono (F := binary64) .near (a := q * (1 / 2)) (b := binary64.maxQ) (by linarith)
          rwa [(Format.maxQ_rep (F := binary64)).repU.roundQ_eq] at this
    obtain ⟨r, hr, e⟩ := key
    exact (congrArg (fun x => Fl.add .near x Fl.pinf) e).trans rfl
  · dsimp only
    exact hh

/-- the middle of the shifted interval is after its start -/
theorem mid_ge {S : Interval D} (hS : Bd S) (hle : Rop.le S.inf S.sup = true) {r : D} (hr : NN r) (hn : ¬ nan r) :
    ¬ nan (mid (Interval.addS S r)) ∧ val S.inf ≤ val (mid (Interval.addS S r)) := by
  have i1 := is_dbl' hS.1
  have i2 := is_dbl' hS.2
  have hle' := ((le_iff _ _).1 hle).2.2
  rcases D_cases r with h | h | h | h
  · exact absurd h hn
  · subst h
    have e : Interval.addS S dPinf = ⟨dPinf, dPinf⟩ := by
      obtain ⟨a, ha, e1⟩ := finD_iff.1 hS.1
      obtain ⟨b, hb, e2⟩ := finD_iff.1 hS.2
      show (⟨Fl.neg (Fl.add .up (Fl.neg S.inf) _), Fl.add .up S.sup _⟩ : Interval D) = _
      rw [e1, e2]; rfl
    rw [e, mid_pinf]
    exact ⟨not_nan_dPinf, le_top⟩
  · subst h; exact hr.elim
  · have ir := is_dbl' h
    have hr0 : 0 ≤ dbl r := by
      rcases nn_iff.1 hr with h' | h'
      · exact absurd h' hn
      · rw [ir.2] at h'; exact_mod_cast h'
    obtain ⟨d1, d2, d3⟩ := Fl.add_down_isDown (F := binary64) (x := S.inf) (y := r) i1.1 ir.1
      (fun hh => EReal.coe_ne_top _ (i1.2.symm.trans hh.1)) (fun hh => EReal.coe_ne_bot _ (i1.2.symm.trans hh.1))
    obtain ⟨u1, u2⟩ := RopSem.add_up S.sup r i2.1 ir.1
      (fun hh => EReal.coe_ne_top _ (i2.2.symm.trans hh.1)) (fun hh => EReal.coe_ne_bot _ (i2.2.symm.trans hh.1))
    have e1 : Fl.toE (F := binary64) S.inf = (dbl S.inf : ℝ) := i1.2
    have e2 : Fl.toE (F := binary64) r = (dbl r : ℝ) := ir.2
    have d4 := d3 S.inf i1.1 (by rw [e1, e2, ← EReal.coe_add]; exact EReal.coe_le_coe_iff.2 (by linarith))
    change val S.inf ≤ val (Interval.addS S r).inf at d4
    change ¬ nan (Interval.addS S r).inf at d1
    change val (Interval.addS S r).inf ≤ _ at d2
    change ¬ nan (Interval.addS S r).sup at u1
    change _ ≤ val (Interval.addS S r).sup at u2
    rw [e1, e2, ← EReal.coe_add] at d2
    rw [i2.2, ir.2, ← EReal.coe_add] at u2
    have hf : FinD (Interval.addS S r).inf := by
      rcases D_cases (Interval.addS S r).inf with h' | h' | h' | h'
      · exact absurd h' d1
      · rw [h', val_dPinf] at d2; exact absurd (top_le_iff.1 d2) (EReal.coe_ne_top _)
      · rw [h', val_dNinf, i1.2] at d4; exact absurd (le_bot_iff.1 d4) (EReal.coe_ne_bot _)
      · exact h'
    rcases D_cases (Interval.addS S r).sup with h' | h' | h' | h'
    · exact absurd h' u1
    · have : Interval.addS S r = ⟨(Interval.addS S r).inf, dPinf⟩ := by rw [← h']
      rw [this, mid_fin_pinf hf]
      exact ⟨not_nan_dPinf, le_top⟩
    · rw [h', val_dNinf] at u2; exact absurd (le_bot_iff.1 u2) (EReal.coe_ne_bot _)
    · have hb : Bd (Interval.addS S r) := ⟨hf, h'⟩
      have j1 := is_dbl' hf
      have j2 := is_dbl' h'
      rw [j1.2] at d2 d4
      rw [j2.2, EReal.coe_le_coe_iff] at u2
      rw [EReal.coe_le_coe_iff] at d2
      rw [i1.2, i2.2, EReal.coe_le_coe_iff] at hle'
      obtain ⟨m1, m2⟩ := mid_bd hb (hb.nonempty (by linarith))
      have j3 := is_dbl' m1
      refine ⟨j3.1, d4.trans ?_⟩
      rw [j3.2, EReal.coe_le_coe_iff]
      exact ((mem_of_bd hb).1 m2).1

section
variable {n : ℕ} {P : Problem n} {q : Param} {radius radius' : D} {end2 : Interval D} {ret : ℤ}

theorem chooseEnd_nan (ha : q.autostep = true) (hn : nan radius) (h : chooseEnd P q radius = (end2, radius', ret)) :
    nan end2.inf ∧ nan radius' ∧ ret = 1 := by
  unfold chooseEnd at h
  rw [if_pos ha] at h
  have hm := mid_nan (S := P.start) hn
  dsimp only at h
  rw [if_neg] at h
  · simp only [Prod.mk.injEq] at h
    obtain ⟨rfl, rfl, rfl⟩ := h
    exact ⟨hm, hn, rfl⟩
  · rw [le_iff]; exact fun hh => hh.2.1 hm

theorem chooseEnd_good (ha : q.autostep = true) (hf : Forward P.start P.stop) (hr : NN radius) (hn : ¬ nan radius)
    (h : chooseEnd P q radius = (end2, radius', ret)) :
    (0 : ℝ) ∈ (⟨lit 0, (Interval.sub end2 P.start).sup⟩ : Interval D) ∧ NN radius' := by
  unfold chooseEnd at h
  rw [if_pos ha] at h
  dsimp only at h
  have i1 := is_dbl' hf.bd.1
  have i2 := is_dbl' hf.bd.2
  have l1 := (le_iff _ _).1 hf.le1
  have l2 := (le_iff _ _).1 hf.le2
  have l3 := (le_iff _ _).1 hf.le3
  split_ifs at h with hc
  · simp only [Prod.mk.injEq] at h
    obtain ⟨rfl, rfl, rfl⟩ := h
    have h0 := domain_zero (E := P.stop) hf.bd l3.2.1 (l1.2.2.trans (l2.2.2.trans l3.2.2))
    refine ⟨h0, NN.mid ?_ (nn_iff.2 (Or.inr (by simpa using h0.2.2)))⟩
    show NN (Rop.subDown P.stop.inf P.start.sup)
    obtain ⟨d1, d2, d3⟩ := Fl.sub_down_isDown (F := binary64) (x := P.stop.inf) (y := P.start.sup) l2.2.1 i2.1
      (fun hh => EReal.coe_ne_top _ (i2.2.symm.trans hh.2)) (fun hh => EReal.coe_ne_bot _ (i2.2.symm.trans hh.2))
    have hz := Interval.is_zero (T := D)
    refine nn_iff.2 (Or.inr ?_)
    have := d3 (lit 0 : D) hz.1 (by
      have hz2 : Fl.toE (F := binary64) (lit 0 : D) = 0 := (RopSem.lit_zero (T := D)).2
      rw [hz2]
      have e2 : Fl.toE (F := binary64) P.start.sup = (dbl P.start.sup : ℝ) := i2.2
      have l : val P.start.sup ≤ Fl.toE (F := binary64) P.stop.inf := l2.2.2
      rw [i2.2] at l
      rw [e2]
      rcases eq_or_ne (Fl.toE (F := binary64) P.stop.inf) ⊤ with e | e
      · rw [e]; simp
      · have e' : Fl.toE (F := binary64) P.stop.inf ≠ ⊥ := fun hh => by rw [hh] at l; exact EReal.coe_ne_bot _ (le_bot_iff.1 l)
        lift Fl.toE (F := binary64) P.stop.inf to ℝ using ⟨e, e'⟩ with c
        rw [EReal.coe_le_coe_iff] at l
        rw [← EReal.coe_sub]; exact_mod_cast sub_nonneg.2 l)
    have hz2 : Fl.toE (F := binary64) (lit 0 : D) = 0 := (RopSem.lit_zero (T := D)).2
    rw [hz2] at this
    exact this
  · simp only [Prod.mk.injEq] at h
    obtain ⟨rfl, rfl, rfl⟩ := h
    obtain ⟨g1, g2⟩ := mid_ge hf.bd hf.le1 hr hn
    exact ⟨domain_zero hf.bd g1 g2, hr⟩

end
end Ode
end Kv
