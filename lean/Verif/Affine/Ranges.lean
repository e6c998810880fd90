import Verif.Affine.Nonlin
import Verif.Interval.ElemLog
import Verif.Interval.ElemSin
import Mathlib.Analysis.Convex.SpecificFunctions.Basic
import Mathlib.Analysis.Convex.SpecificFunctions.Deriv
import Mathlib.Analysis.Convex.SpecificFunctions.Pow

/-! # Affine arithmetic: slopes and ranges of `inv`, `sqrt`, `square`, `exp`, `log` -/

namespace Kv
open RopSem Kv.Interval
open Rop (lit addUp addDown subUp subDown mulUp mulDown divUp divDown)

/-! ## real functions minus a line -/

namespace Chord

theorem square_ge (a t : ℝ) : -a * a * (1 / 4) ≤ t * (t - a) := by nlinarith [sq_nonneg (t - a / 2)]
theorem square_le {a l h t : ℝ} (h1 : l ≤ t) (h2 : t ≤ h) : t * (t - a) ≤ l * (l - a) ∨ t * (t - a) ≤ h * (h - a) := by
  rcases le_total (t + l - a) 0 with h0 | h0
  · exact .inl (by nlinarith)
  · exact .inr (by nlinarith)

theorem convex_or {f : ℝ → ℝ} {s : Set ℝ} (hf : ConvexOn ℝ s f) (a : ℝ) {l h t : ℝ} (hl : l ∈ s) (hh : h ∈ s) (h1 : l ≤ t) (h2 : t ≤ h) :
    f t - a * t ≤ f l - a * l ∨ f t - a * t ≤ f h - a * h := by
  have hc : ConvexOn ℝ s fun x => f x + (-a) * x := hf.add ⟨hf.1, fun x _ y _ p q _ _ _ => by
    simp only [smul_eq_mul]; exact le_of_eq (by ring)⟩
  have := hc.le_max_of_mem_Icc hl hh ⟨h1, h2⟩
  rcases le_max_iff.1 this with h' | h'
  · exact .inl (by linarith)
  · exact .inr (by linarith)

theorem concave_or {f : ℝ → ℝ} {s : Set ℝ} (hf : ConcaveOn ℝ s f) (a : ℝ) {l h t : ℝ} (hl : l ∈ s) (hh : h ∈ s) (h1 : l ≤ t) (h2 : t ≤ h) :
    f l - a * l ≤ f t - a * t ∨ f h - a * h ≤ f t - a * t := by
  rcases convex_or hf.neg (-a) hl hh h1 h2 with h' | h'
  · left; simp only [Pi.neg_apply] at h'; linarith
  · right; simp only [Pi.neg_apply] at h'; linarith

theorem exp_ge {a : ℝ} (ha : 0 < a) (t : ℝ) : a * (1 - Real.log a) ≤ Real.exp t - a * t := by
  have h := Real.add_one_le_exp (t - Real.log a)
  rw [Real.exp_sub, Real.exp_log ha, le_div_iff₀ ha] at h
  nlinarith

theorem log_le {a t : ℝ} (ha : 0 < a) (ht : 0 < t) : Real.log t - a * t ≤ Real.log (1 / a) - 1 := by
  have h := Real.log_le_sub_one_of_pos (mul_pos ha ht)
  rw [Real.log_mul ha.ne' ht.ne'] at h
  rw [Real.log_div one_ne_zero ha.ne', Real.log_one]
  linarith

theorem sqrt_le {a t : ℝ} (ha : 0 < a) (ht : 0 ≤ t) : Real.sqrt t - a * t ≤ 1 / (4 * a) := by
  rw [le_div_iff₀ (by positivity)]
  have := Real.sq_sqrt ht
  have h := sq_nonneg (2 * a * Real.sqrt t - 1)
  have e : (2 * a * Real.sqrt t - 1) ^ 2 = 4 * a ^ 2 * Real.sqrt t ^ 2 - 4 * a * Real.sqrt t + 1 := by ring
  rw [e, this] at h
  linarith

theorem inv_ge {a t : ℝ} (ha : a ≤ 0) (ht : 0 < t) : 2 * Real.sqrt (-a) ≤ 1 / t - a * t := by
  have := Real.sq_sqrt (neg_nonneg.2 ha)
  have h : 1 / t - a * t - 2 * Real.sqrt (-a) = (1 - Real.sqrt (-a) * t) ^ 2 / t := by
    field_simp
    nlinarith
  have : 0 ≤ (1 - Real.sqrt (-a) * t) ^ 2 / t := by positivity
  linarith

theorem inv_or {a l h t : ℝ} (hl : 0 < l) (h1 : l ≤ t) (h2 : t ≤ h) :
    1 / t - a * t ≤ 1 / l - a * l ∨ 1 / t - a * t ≤ 1 / h - a * h := by
  have hc : ConvexOn ℝ (Set.Ioi 0) fun x : ℝ => x⁻¹ := by
    have := (strictConvexOn_zpow (m := -1) (by norm_num) (by norm_num)).convexOn
    simpa using this
  have := convex_or hc a (l := l) (h := h) hl (lt_of_lt_of_le hl (h1.trans h2)) h1 h2
  simpa only [one_div] using this

end Chord

/-! ## hulls -/

theorem hull3_convex {R A B : Interval D} {e p q t : ℝ} (he : e ∈ R) (hp : p ∈ A) (hq : q ∈ B) (h1 : e ≤ t)
    (h2 : t ≤ p ∨ t ≤ q) : t ∈ hull (hull R A) B := by
  have e1 := hull_mem_left (hull_mem_left he hp) hq
  have p1 := hull_mem_left (hull_mem_right he hp) hq
  have q1 := hull_mem_right (hull_mem_right he hp) hq
  exact ⟨e1.1.mono h1, h2.elim p1.2.mono q1.2.mono⟩
theorem hull3_concave {R A B : Interval D} {e p q t : ℝ} (he : e ∈ R) (hp : p ∈ A) (hq : q ∈ B) (h1 : t ≤ e)
    (h2 : p ≤ t ∨ q ≤ t) : t ∈ hull (hull R A) B := by
  have e1 := hull_mem_left (hull_mem_left he hp) hq
  have p1 := hull_mem_left (hull_mem_right he hp) hq
  have q1 := hull_mem_right (hull_mem_right he hp) hq
  exact ⟨h2.elim p1.1.mono q1.1.mono, e1.2.mono h1⟩
theorem hull3_between {R A B : Interval D} {e p q t : ℝ} (he : e ∈ R) (hp : p ∈ A) (hq : q ∈ B) (h1 : t ≤ p ∨ t ≤ q)
    (h2 : p ≤ t ∨ q ≤ t) : t ∈ hull (hull R A) B := by
  have p1 := hull_mem_left (hull_mem_right he hp) hq
  have q1 := hull_mem_right (hull_mem_right he hp) hq
  exact ⟨h2.elim p1.1.mono q1.1.mono, h1.elim p1.2.mono q1.2.mono⟩

/-! ## comparisons and exceptions on finite numbers -/

theorem ltD_iff {a b : D} (ha : FinD a) (hb : FinD b) : Rop.lt a b = true ↔ dbl a < dbl b := by
  have h1 := is_dbl' ha
  have h2 := is_dbl' hb
  rw [lt_iff, h1.2, h2.2]
  exact ⟨fun h => by exact_mod_cast h.2.2, fun h => ⟨h1.1, h2.1, by exact_mod_cast h⟩⟩
theorem leD_iff {a b : D} (ha : FinD a) (hb : FinD b) : Rop.le a b = true ↔ dbl a ≤ dbl b := by
  have h1 := is_dbl' ha
  have h2 := is_dbl' hb
  rw [le_iff, h1.2, h2.2]
  exact ⟨fun h => by exact_mod_cast h.2.2, fun h => ⟨h1.1, h2.1, by exact_mod_cast h⟩⟩

theorem sDiv_ne {Y Z : Interval D} {k : D} {y : ℝ} (h : sDiv k Y = .ok Z) (hy : y ∈ Y) : y ≠ 0 := by
  unfold sDiv at h
  split_ifs at h with h1
  · rw [Bool.or_eq_true] at h1
    rcases h1 with h1 | h1
    · exact (E_pos_of (lt_zero_left.1 h1).2 hy.1.2).ne'
    · exact (E_neg_of (lt_zero_right.1 h1).2 hy.2.2).ne
  · rw [Bool.or_eq_true] at h1
    rcases h1 with h1 | h1
    · exact (E_pos_of (lt_zero_left.1 h1).2 hy.1.2).ne'
    · exact (E_neg_of (lt_zero_right.1 h1).2 hy.2.2).ne
theorem sqrt_dom {X Z : Interval D} {x : ℝ} (h : Interval.sqrt X = .ok Z) (hx : x ∈ X) : 0 ≤ x := by
  unfold Interval.sqrt at h
  split_ifs at h with h1
  exact coe_nonneg (not_lt_zero_right h1 hx.1.1) hx.1.2
theorem log_dom {fuel : ℕ} {X Z : Interval D} {x : ℝ} (h : Interval.log fuel X = .ok Z) (hx : x ∈ X) : 0 ≤ x := by
  unfold Interval.log at h
  split_ifs at h with h1
  exact coe_nonneg (not_lt_zero_right h1 hx.1.1) hx.1.2

theorem pt_mem {a : D} (h : FinD a) : dbl a ∈ point a := point_mem (is_dbl' h)

theorem lit_zero_fin : (lit 0 : D) = (Fl.zero : Fl binary64) := Fl.round_of_rep .near _

theorem litD {q : ℚ} (h : binary64.Rep q) : (lit q : D) = (Fl.fin q h : Fl binary64) := Fl.round_of_rep .near h
theorem lit_quarter : Is (lit (1 / 4) : D) (1 / 4) := by
  have h : binary64.Rep (1 / 4) := by decide +kernel
  have e := is_dbl' (finD_fin (q := 1 / 4) (h := h))
  rw [dbl_fin] at e
  rw [litD h]
  push_cast at e
  exact e

theorem eq_zero_of_dbl {a : D} (h : FinD a) (h0 : dbl a = 0) : a = lit 0 := by
  obtain ⟨q, hq, rfl⟩ := finD_iff.1 h
  rw [dbl_fin] at h0
  have : q = 0 := by exact_mod_cast h0
  subst this
  rw [lit_zero_fin]; rfl

/-- dividing by an infinity gives zero or NaN -/
theorem Fl.div_inf_fin {md : RMode} {x : Fl binary64} (h : FinD (Fl.div md x .pinf)) : (Fl.div md x .pinf : D) = lit 0 := by
  cases x with
  | nan => exact absurd h not_finD_nan
  | pinf => exact absurd h not_finD_nan
  | ninf => exact absurd h not_finD_nan
  | fin q hq => exact lit_zero_fin.symm

theorem div_pinf {x y : D} (hy : y = dPinf) (h : FinD (Rop.div x y)) : Rop.div x y = lit 0 := by
  subst hy; exact Fl.div_inf_fin h

theorem sub_pinf {a b : D} (h : (a = dPinf ∧ (b = dNinf ∨ FinD b)) ∨ (b = dNinf ∧ (a = dPinf ∨ FinD a))) : Rop.sub a b = dPinf := by
  rcases h with ⟨rfl, rfl | h⟩ | ⟨rfl, rfl | h⟩
  · rfl
  · obtain ⟨q, hq, rfl⟩ := finD_iff.1 h; rfl
  · rfl
  · obtain ⟨q, hq, rfl⟩ := finD_iff.1 h; rfl

namespace Affine
variable {I R : Interval D} {a : D} {t : ℝ}

theorem squareRange_mem (ht : t ∈ I) (h : squareRange I = .ok (a, R)) (fa : FinD a) : t * t - dbl a * t ∈ R := by
  simp only [squareRange, Except.ok.injEq, Prod.mk.injEq] at h
  obtain ⟨rfl, rfl⟩ := h
  obtain ⟨f1, f2⟩ := add_fin fa
  have l1 := (loD_iff f1).1 ht.1
  have l2 := (hiD_iff f2).1 ht.2
  have e : t * t - dbl (Rop.add I.inf I.sup) * t = t * (t - dbl (Rop.add I.inf I.sup)) := by ring
  rw [e]
  refine hull3_convex (mulS_mem (mul_mem (neg_mem (pt_mem fa)) (pt_mem fa)) (c := 1 / 4) ?_) (mul_mem (pt_mem f1) (subS_mem (pt_mem f1) (is_dbl' fa)))
    (mul_mem (pt_mem f2) (subS_mem (pt_mem f2) (is_dbl' fa))) ?_ ?_
  · exact lit_quarter
  · have := Chord.square_ge (dbl (Rop.add I.inf I.sup)) t
    linarith
  · exact Chord.square_le l1 l2

theorem sqrtRange_mem (ht : t ∈ I) (i2 : I.sup = dPinf ∨ FinD I.sup)
    (h : sqrtRange I = .ok (a, R)) (fa : FinD a) : 0 ≤ t ∧ Real.sqrt t - dbl a * t ∈ R := by
  unfold sqrtRange at h
  dsimp only at h
  split_ifs at h with h0
  have h0' := coe_nonneg (not_lt_zero_right h0 ht.1.1) ht.1.2
  refine ⟨h0', ?_⟩
  obtain ⟨q, hq, h⟩ := bind_ok.1 h
  obtain ⟨s1, hs1, h⟩ := bind_ok.1 h
  obtain ⟨s2, hs2, h⟩ := bind_ok.1 h
  cases h
  have hne := sDiv_ne hq (sMul_mem (pt_mem fa) is_four)
  rcases i2 with i2 | f2
  · refine absurd ?_ hne
    rw [div_pinf ?_ fa, dbl_zero, mul_zero]
    rw [i2]
    rcases D_cases (Fl.sqrt .near I.inf : Fl binary64) with e | e | e | e
    · rw [e, i2] at fa; exact absurd fa (by decide +kernel)
    · rw [e]; rfl
    · rw [e, i2] at fa; exact absurd fa (by decide +kernel)
    · obtain ⟨q, hq, e⟩ := finD_iff.1 e
      rw [e]; rfl
  have f1 : FinD I.inf := by
    rcases D_cases I.inf with e | e | e | e
    · exact absurd (by rw [e]; exact nan_dNaN) ht.1.1
    · exact absurd (by rw [e]; exact val_dPinf) ht.1.ne_top
    · rw [e] at h0; exact absurd (by decide +kernel) h0
    · exact e
  have l1 := (loD_iff f1).1 ht.1
  have l2 := (hiD_iff f2).1 ht.2
  have l0 := sqrt_dom hs1 (pt_mem f1)
  have m0 := sDiv_mem hq (sMul_mem (pt_mem fa) is_four) lit_one
  have m1 := sub_mem (sqrt_mem hs1 (pt_mem f1)) (sMul_mem (pt_mem f1) (is_dbl' fa))
  have m2 := sub_mem (sqrt_mem hs2 (pt_mem f2)) (sMul_mem (pt_mem f2) (is_dbl' fa))
  rcases lt_or_ge 0 (dbl (Rop.div (lit 1) (Rop.add (Fl.sqrt .near I.inf : Fl binary64) (Fl.sqrt .near I.sup : Fl binary64)) : D)) with hp | hn
  · exact hull3_concave m0 m1 m2 (Chord.sqrt_le hp h0')
      (Chord.concave_or Real.strictConcaveOn_sqrt.concaveOn _ l0 (l0.trans (l1.trans l2)) l1 l2)
  · refine hull3_between m0 m1 m2 (.inr ?_) (.inl ?_)
    · have := Real.sqrt_le_sqrt l2; nlinarith
    · have := Real.sqrt_le_sqrt l1; nlinarith

theorem logRange_mem {L : Libm} {fuel : ℕ} (ht : t ∈ I) (i2 : I.sup = dPinf ∨ FinD I.sup)
    (h : logRange L fuel I = .ok (a, R)) (fa : FinD a) : 0 < t ∧ Real.log t - dbl a * t ∈ R := by
  unfold logRange at h
  dsimp only at h
  by_cases h0 : Rop.le I.inf (lit 0) = true
  · rw [if_pos h0] at h; cases h
  rw [if_neg h0] at h
  have f1 : FinD I.inf := by
    rcases D_cases I.inf with e | e | e | e
    · exact absurd (by rw [e]; exact nan_dNaN) ht.1.1
    · exact absurd (by rw [e]; exact val_dPinf) ht.1.ne_top
    · rw [e] at h0; exact absurd (by decide +kernel) h0
    · exact e
  rw [leD_iff f1 fin_zero, dbl_zero, not_le] at h0
  have l1 := (loD_iff f1).1 ht.1
  refine ⟨h0.trans_le l1, ?_⟩
  obtain ⟨q, hq, h⟩ := bind_ok.1 h
  obtain ⟨g, hg, h⟩ := bind_ok.1 h
  obtain ⟨s1, hs1, h⟩ := bind_ok.1 h
  obtain ⟨s2, hs2, h⟩ := bind_ok.1 h
  cases h
  have hne := sDiv_ne hq (pt_mem fa)
  rcases i2 with i2 | f2
  · refine absurd ?_ hne
    have he : ¬ Rop.eq I.sup I.inf = true := by
      rw [i2]; obtain ⟨q, hq, e⟩ := finD_iff.1 f1
      rw [e]; exact Bool.false_ne_true
    rw [if_neg he] at fa ⊢
    rw [div_pinf (sub_pinf (.inl ⟨i2, .inr f1⟩)) fa, dbl_zero]
  set a := if Rop.eq I.sup I.inf = true then Rop.div (lit 1) I.sup else Rop.div (Rop.sub (L.log I.sup) (L.log I.inf)) (Rop.sub I.sup I.inf)
  have l2 := (hiD_iff f2).1 ht.2
  have m0 := sDiv_mem hq (pt_mem fa) lit_one
  have pa : 0 < dbl a := lt_of_le_of_ne (one_div_nonneg.1 (log_dom hg m0)) hne.symm
  have m0' := subS_mem (log_mem hg m0 (one_div_pos.2 pa)) lit_one
  have m1 := sub_mem (log_mem hs1 (pt_mem f1) h0) (sMul_mem (pt_mem f1) (is_dbl' fa))
  have m2 := sub_mem (log_mem hs2 (pt_mem f2) (by linarith)) (sMul_mem (pt_mem f2) (is_dbl' fa))
  refine hull3_concave m0' m1 m2 (Chord.log_le pa (by linarith)) ?_
  exact Chord.concave_or strictConcaveOn_log_Ioi.concaveOn _ h0 (show (0:ℝ) < _ by linarith) l1 l2

theorem hull_sup_pinf {X Y : Interval D} (hY : Y.sup = dPinf) : ¬ FinD (Interval.hull X Y).sup := by
  intro h
  unfold hull at h
  dsimp only at h
  split_ifs at h with h1
  · rw [hY] at h; exact not_finD_pinf h
  · rw [hY] at h1
    obtain ⟨q, hq, e⟩ := finD_iff.1 h
    rw [e] at h1
    exact h1 rfl

theorem exp_pinf {fuel : ℕ} {Z : Interval D} (h : Interval.exp fuel (point dPinf) = .ok Z) : Z = ⟨Rop.maxv, dPinf⟩ := by
  have e : (Interval.exp fuel (point dPinf) : Res (Interval D)) = .ok ⟨Rop.maxv, dPinf⟩ := rfl
  rw [e] at h; cases h; rfl
theorem exp_ninf {fuel : ℕ} {Z : Interval D} (h : Interval.exp fuel (point dNinf) = .ok Z) : Z = ⟨lit 0, Rop.denormMin⟩ := by
  have e : (Interval.exp fuel (point dNinf) : Res (Interval D)) = .ok ⟨lit 0, Rop.denormMin⟩ := rfl
  rw [e] at h; cases h; rfl

theorem expRange_mem {L : Libm} {fuel : ℕ} (ht : t ∈ I) (i1 : I.inf = dNinf ∨ FinD I.inf) (i2 : I.sup = dPinf ∨ FinD I.sup)
    (h : expRange L fuel I = .ok (a, R)) (fa : FinD a) (fR : FinD R.sup) : Real.exp t - dbl a * t ∈ R := by
  unfold expRange at h
  dsimp only at h
  obtain ⟨g, hg, h⟩ := bind_ok.1 h
  obtain ⟨s1, hs1, h⟩ := bind_ok.1 h
  obtain ⟨s2, hs2, h⟩ := bind_ok.1 h
  cases h
  have h0 : ∀ (b : D) (G : Interval D), b = lit 0 → Interval.mul (point b) G = ⟨lit 0, lit 0⟩ := by
    rintro b G rfl
    have e1 : Rop.le (lit 0 : D) (lit 0) = true := by decide +kernel
    have e2 : Rop.eq (lit 0 : D) (lit 0) = true := by decide +kernel
    show (if Rop.le (lit 0 : D) (lit 0) = true then if Rop.eq (lit 0 : D) (lit 0) = true then _ else _ else _) = _
    rw [if_pos e1, if_pos e2]
  have hz : ∀ (b : D) (G : Interval D), b = lit 0 → sMul b G = ⟨lit 0, lit 0⟩ := by
    rintro b G rfl
    have e1 : ¬ Rop.lt (lit 0 : D) (lit 0) = true := by decide +kernel
    unfold sMul
    rw [if_neg e1, if_neg e1]
  rcases i2 with i2 | f2
  · -- upper end infinite: the slope is zero, the range has an infinite upper end
    refine absurd fR ?_
    have he : ¬ Rop.eq I.sup I.inf = true := by
      rw [i2]
      rcases i1 with i1 | i1
      · rw [i1]; exact Bool.false_ne_true
      · obtain ⟨q, hq, e⟩ := finD_iff.1 i1
        rw [e]; exact Bool.false_ne_true
    rw [if_neg he] at fa ⊢
    have a0 := div_pinf (sub_pinf (.inl ⟨i2, i1⟩)) fa
    apply hull_sup_pinf
    rw [hz _ _ a0]
    rw [i2] at hs2
    rw [exp_pinf hs2]
    show subUp dPinf (lit 0) = dPinf
    rw [lit_zero_fin]
    rfl
  have l2 := (hiD_iff f2).1 ht.2
  have m2 := fun a (fa : FinD a) => sub_mem (Interval.exp_mem hs2 (pt_mem f2)) (sMul_mem (pt_mem f2) (is_dbl' fa))
  rcases i1 with i1 | f1
  · have he : ¬ Rop.eq I.sup I.inf = true := by
      rw [i1]
      obtain ⟨q, hq, e⟩ := finD_iff.1 f2
      rw [e]; exact Bool.false_ne_true
    rw [if_neg he] at fa ⊢
    have a0 := div_pinf (sub_pinf (.inr ⟨i1, .inr f2⟩)) fa
    have m2 := m2 _ fa
    have z0 : (0:ℝ) ∈ (⟨lit 0, lit 0⟩ : Interval D) := point_mem lit_zero
    rw [a0] at m2 ⊢
    rw [h0 _ _ rfl]
    rw [i1] at hs1
    have m1 : (0:ℝ) ∈ Interval.sub s1 (sMul (lit 0) (point I.inf)) := by
      rw [hz _ _ rfl, exp_ninf hs1]
      rw [← sub_zero (0:ℝ)]
      refine sub_mem ?_ z0
      have hf : FinD (Rop.denormMin : D) := by decide +kernel
      refine ⟨is_zero.lo, (hiD_iff hf).2 ?_⟩
      rw [← dbl_zero]
      exact (leD_iff fin_zero hf).1 (by decide +kernel)
    refine hull3_convex z0 m1 m2 ?_ (.inr ?_)
    · rw [dbl_zero, zero_mul, sub_zero]; exact (Real.exp_pos _).le
    · rw [dbl_zero, zero_mul, zero_mul]
      have := Real.exp_le_exp.2 l2
      linarith
  set a := if Rop.eq I.sup I.inf = true then L.exp I.sup else Rop.div (Rop.sub (L.exp I.sup) (L.exp I.inf)) (Rop.sub I.sup I.inf)
  have l1 := (loD_iff f1).1 ht.1
  have m1 := sub_mem (Interval.exp_mem hs1 (pt_mem f1)) (sMul_mem (pt_mem f1) (is_dbl' fa))
  have m2 := m2 _ fa
  have hu := Chord.convex_or convexOn_exp (dbl a) (Set.mem_univ _) (Set.mem_univ _) l1 l2
  rcases (log_dom hg (pt_mem fa)).lt_or_eq with pa | pa
  · have m0 := mul_mem (pt_mem fa) (sSub_mem (log_mem hg (pt_mem fa) pa) lit_one)
    exact hull3_convex m0 m1 m2 (Chord.exp_ge pa t) hu
  · have a0 := eq_zero_of_dbl fa pa.symm
    rw [h0 a _ a0]
    refine hull3_convex (e := 0) (point_mem lit_zero) m1 m2 ?_ hu
    rw [← pa, zero_mul, sub_zero]
    exact (Real.exp_pos _).le


theorem sDiv_inf {Z : Interval D} (h : sDiv (lit 1) (point dPinf) = .ok Z ∨ sDiv (lit 1) (point dNinf) = .ok Z) : Z = ⟨lit 0, lit 0⟩ := by
  have e1 : sDiv (lit 1) (point dPinf) = .ok (⟨lit 0, lit 0⟩ : Interval D) := by decide +kernel
  have e2 : sDiv (lit 1) (point dNinf) = .ok (⟨lit 0, lit 0⟩ : Interval D) := by decide +kernel
  rcases h with h | h
  · rw [e1] at h; cases h; rfl
  · rw [e2] at h; cases h; rfl

theorem sMul_zero (G : Interval D) : sMul (lit 0) G = ⟨lit 0, lit 0⟩ := by
  have e1 : ¬ Rop.lt (lit 0 : D) (lit 0) = true := by decide +kernel
  unfold sMul
  rw [if_neg e1, if_neg e1]

theorem invRange_mem (ht : t ∈ I) (i1 : I.inf = dNinf ∨ FinD I.inf) (i2 : I.sup = dPinf ∨ FinD I.sup)
    (h : invRange I = .ok (a, R)) (fa : FinD a) : t ≠ 0 ∧ 1 / t - dbl a * t ∈ R := by
  unfold invRange at h
  dsimp only at h
  by_cases h0 : (Rop.lt I.inf (lit 0) && Rop.lt (lit 0) I.sup) = true
  · rw [if_pos h0] at h; cases h
  rw [if_neg h0] at h
  obtain ⟨s, hs, h⟩ := bind_ok.1 h
  obtain ⟨q1, hq1, h⟩ := bind_ok.1 h
  obtain ⟨q2, hq2, h⟩ := bind_ok.1 h
  cases h
  have z0 : (0:ℝ) ∈ (⟨lit 0, lit 0⟩ : Interval D) := point_mem lit_zero
  have zz : (0:ℝ) ∈ Interval.sub (⟨lit 0, lit 0⟩ : Interval D) ⟨lit 0, lit 0⟩ := by
    have := sub_mem z0 z0
    rwa [sub_zero] at this
  have ms := sqrt_mem hs (neg_mem (pt_mem fa))
  have m0 : (if Rop.lt (lit 0) I.sup = true then 2 * √(-dbl (Rop.div (lit (-1)) (Rop.mul I.inf I.sup))) else
      -2 * √(-dbl (Rop.div (lit (-1)) (Rop.mul I.inf I.sup)))) ∈ (if Rop.lt (lit 0) I.sup = true then sMul (lit 2) s else sMul (lit (-2)) s) := by
    split_ifs
    · exact sMul_mem ms is_two
    · refine sMul_mem ms ?_
      have := Is.lit_int (T := D) (-2) (by norm_num); push_cast at this; exact this
  have na := sqrt_dom hs (neg_mem (pt_mem fa))
  -- the slope is zero when an end is infinite
  have hz : ∀ {x y : D}, ¬ FinD (Rop.mul x y) → FinD (Rop.div (lit (-1)) (Rop.mul x y)) →
      Rop.div (lit (-1)) (Rop.mul x y) = lit 0 := by
    intro x y hn hf
    rcases D_cases (Rop.mul x y) with e | e | e | e
    · rw [e] at hf; exact absurd hf (by decide +kernel)
    · exact div_pinf e hf
    · rw [e]; decide +kernel
    · exact absurd e hn
  rcases i1 with i1 | f1
  · have h1 : Rop.lt I.inf (lit 0) = true := by rw [i1]; decide +kernel
    rw [h1, Bool.true_and] at h0
    have f2 : FinD I.sup := by
      rcases i2 with i2 | f2
      · rw [i2] at h0; exact absurd (by decide +kernel) h0
      · exact f2
    have l2 := (hiD_iff f2).1 ht.2
    have a0 := hz (x := I.inf) (y := I.sup) (fun h => by have := (mul_fin h).1; rw [i1] at this; exact not_finD_ninf this) fa
    have b2 := sDiv_ne hq2 (pt_mem f2)
    rw [ltD_iff fin_zero f2, dbl_zero, not_lt] at h0
    have b2 := lt_of_le_of_ne h0 b2
    refine ⟨by linarith, ?_⟩
    have m2 := sub_mem (sDiv_mem hq2 (pt_mem f2) lit_one) (sMul_mem (pt_mem f2) (is_dbl' fa))
    have m1 : (0:ℝ) ∈ Interval.sub q1 (sMul (Rop.div (lit (-1)) (Rop.mul I.inf I.sup)) (point I.inf)) := by
      rw [a0, sMul_zero, sDiv_inf (Z := q1) (.inr (by rw [← i1]; exact hq1))]
      exact zz
    rw [a0, dbl_zero] at m0 m2
    rw [a0, dbl_zero] 
    rw [a0] at m1
    refine hull3_between m0 m1 m2 (.inl ?_) (.inr ?_)
    · rw [zero_mul, sub_zero]
      exact one_div_nonpos.2 (by linarith)
    · rw [zero_mul, sub_zero, zero_mul, sub_zero]
      exact one_div_le_one_div_of_neg_of_le b2 l2
  have l1 := (loD_iff f1).1 ht.1
  have b1 := sDiv_ne hq1 (pt_mem f1)
  have m1 := sub_mem (sDiv_mem hq1 (pt_mem f1) lit_one) (sMul_mem (pt_mem f1) (is_dbl' fa))
  rcases i2 with i2 | f2
  · have h2 : Rop.lt (lit 0) I.sup = true := by rw [i2]; decide +kernel
    rw [h2, Bool.and_true, ltD_iff f1 fin_zero, dbl_zero, not_lt] at h0
    have b1 := lt_of_le_of_ne h0 b1.symm
    have a0 := hz (x := I.inf) (y := I.sup) (fun h => by have := (mul_fin h).2; rw [i2] at this; exact not_finD_pinf this) fa
    refine ⟨by linarith, ?_⟩
    have m2 : (0:ℝ) ∈ Interval.sub q2 (sMul (Rop.div (lit (-1)) (Rop.mul I.inf I.sup)) (point I.sup)) := by
      rw [a0, sMul_zero, sDiv_inf (Z := q2) (.inl (by rw [← i2]; exact hq2))]
      exact zz
    rw [a0, dbl_zero] at m0 m1
    rw [a0, dbl_zero]
    rw [a0] at m2
    refine hull3_between m0 m1 m2 (.inl ?_) (.inr ?_)
    · rw [zero_mul, sub_zero, zero_mul, sub_zero]
      exact one_div_le_one_div_of_le b1 l1
    · rw [zero_mul, sub_zero]
      exact one_div_nonneg.2 (by linarith)
  have l2 := (hiD_iff f2).1 ht.2
  have b2 := sDiv_ne hq2 (pt_mem f2)
  have m2 := sub_mem (sDiv_mem hq2 (pt_mem f2) lit_one) (sMul_mem (pt_mem f2) (is_dbl' fa))
  rw [Bool.and_eq_true, ltD_iff f1 fin_zero, ltD_iff fin_zero f2, dbl_zero] at h0
  have na' : dbl (Rop.div (lit (-1)) (Rop.mul I.inf I.sup)) ≤ 0 := by linarith
  by_cases h2 : Rop.lt (lit 0) I.sup = true
  · rw [if_pos h2, if_pos h2] at m0
    rw [if_pos h2]
    rw [ltD_iff fin_zero f2, dbl_zero] at h2
    have b1 : 0 < dbl I.inf := lt_of_le_of_ne (not_lt.1 fun h => h0 ⟨h, h2⟩) b1.symm
    exact ⟨by linarith, hull3_convex m0 m1 m2 (Chord.inv_ge na' (by linarith)) (Chord.inv_or b1 l1 l2)⟩
  · rw [if_neg h2, if_neg h2] at m0
    rw [if_neg h2]
    rw [ltD_iff fin_zero f2, dbl_zero, not_lt] at h2
    have b2 : dbl I.sup < 0 := lt_of_le_of_ne h2 b2
    set a := dbl (Rop.div (lit (-1)) (Rop.mul I.inf I.sup))
    have neg : ∀ x : ℝ, 1 / x - a * x = -(1 / (-x) - a * (-x)) := fun x => by rw [one_div_neg_eq_neg_one_div]; ring
    refine ⟨by linarith, hull3_concave m0 m1 m2 ?_ ?_⟩
    · have := Chord.inv_ge na' (t := -t) (by linarith)
      rw [neg t]; linarith
    · have := Chord.inv_or (a := a) (l := -dbl I.sup) (t := -t) (h := -dbl I.inf) (by linarith) (by linarith) (by linarith)
      rw [neg t, neg (dbl I.inf), neg (dbl I.sup)]
      rcases this with h | h
      · right; linarith
      · left; linarith

end Affine
end Kv
