import Verif.Double.DDAvx

/-!
# `rop<dd>` with AVX-512: lemmas
-/

set_option exponentiation.threshold 3000

namespace Kv
namespace DDAvx
open DD Fl Format Emu

local notation "B" => binary64

theorem twoproduct_eq (md : RMode) (a b : Dbl) : twoproduct md a b = twoproductR md true a b := by
  unfold twoproduct twoproductR
  simp only [if_true]

theorem sqrtUp_eq (x : DD) : sqrtUp x = DD.sqrtUp true x := by
  unfold sqrtUp DD.sqrtUp
  simp only [twoproduct_eq, finish]

theorem sqrtDown_eq (x : DD) : sqrtDown x = DD.sqrtDown true x := by
  unfold sqrtDown DD.sqrtDown
  simp only [twoproduct_eq, finish]

/-- both components are finite -/
def Fin (x : DD) : Bool :=
  match x with
  | ⟨fin _ _, fin _ _⟩ => true
  | _ => false

/-- a finite result of the last two statements is the result of the checked version -/
theorem finish_eq (s : Bool) {z1 z2 : Dbl} (h : Fin (finish z1 z2) = true) : finish z1 z2 = finishR s z1 z2 := by
  unfold finish at h ⊢
  simp only at h ⊢
  cases h1 : (twosum z1 z2).1 with
  | fin a ha => cases s <;> simp [finishR, finishUp, finishDown, h1, Fl.eq]
  | _ => simp [Fin, h1] at h

theorem fma_bd {s : Bool} {a b : ℚ} (ha : (B).Rep a) (hb : (B).Rep b) {c : Dbl} {w : ℝ} (h : Bd s c w) :
    Bd s (fmaR (dir s) (fin a ha) (fin b hb) c) ((a : ℝ) * b + w) := by
  cases c with
  | nan => exact absurd rfl h.ne_nan
  | pinf =>
    cases s
    · change UB ninf _ at h; cases h
    · exact UB.inf _
  | ninf =>
    cases s
    · exact UB.inf _
    · change UB ninf _ at h; cases h
  | fin c hc =>
    rw [bd_fin_iff] at h
    refine (bd_round s (a * b + c)).mono ?_
    cases s <;> simp at h ⊢ <;> linarith

/-- the common part of the operations when the leading part `z` does not overflow -/
theorem finish_bd' (s : Bool) {z : ℚ} (hz : (B).Rep z) {z2 : Dbl} {w : ℝ} (h : Bd s z2 w)
    (hf : Fin (finish (fin z hz) z2) = true) : DBd s (finish (fin z hz) z2) (z + w) := by
  rw [finish_eq s hf]; exact finish_bd s hz h

/-- the operations in direction `s` -/
def addR (s : Bool) (x y : DD) : DD := match s with | true => addUp x y | false => addDown x y
/-- the operations in direction `s` -/
def subR (s : Bool) (x y : DD) : DD := match s with | true => subUp x y | false => subDown x y
/-- the operations in direction `s` -/
def mulR (s : Bool) (x y : DD) : DD := match s with | true => mulUp x y | false => mulDown x y
/-- the operations in direction `s` -/
def divR (s : Bool) (x y : DD) : DD := match s with | true => divUp x y | false => divDown x y

section
variable {x1 x2 y1 y2 : ℚ} (hx1 : (B).Rep x1) (hx2 : (B).Rep x2) (hy1 : (B).Rep y1) (hy2 : (B).Rep y2)

theorem addR_bd (s : Bool) (ho : |x1 + y1| ≤ (B).maxQ)
    (hf : Fin (addR s ⟨fin x1 hx1, fin x2 hx2⟩ ⟨fin y1 hy1, fin y2 hy2⟩) = true) :
    DBd s (addR s ⟨fin x1 hx1, fin x2 hx2⟩ ⟨fin y1 hy1, fin y2 hy2⟩) ((x1 : ℝ) + x2 + (y1 + y2)) := by
  have hm := abs_near_le maxQ_rep.repU ho
  have hz := rep_of_repU (roundQ_repU .near (x1 + y1)) hm
  obtain ⟨h, e⟩ := twosum_fin hx1 hy1 hz (round_fin_of_le hm)
  have E : addR s ⟨fin x1 hx1, fin x2 hx2⟩ ⟨fin y1 hy1, fin y2 hy2⟩ =
      finish (fin _ hz) (Fl.add (dir s) (fin _ h) (Fl.add (dir s) (fin x2 hx2) (fin y2 hy2))) := by
    cases s <;> simp only [addR, addUp, addDown, e] <;> rfl
  rw [E] at hf ⊢
  refine (finish_bd' s hz (bd_add (bd_exact s h) (bd_add (bd_exact s hx2) (bd_exact s hy2))) hf).congr ?_
  push_cast; ring

theorem subR_bd (s : Bool) (ho : |x1 - y1| ≤ (B).maxQ)
    (hf : Fin (subR s ⟨fin x1 hx1, fin x2 hx2⟩ ⟨fin y1 hy1, fin y2 hy2⟩) = true) :
    DBd s (subR s ⟨fin x1 hx1, fin x2 hx2⟩ ⟨fin y1 hy1, fin y2 hy2⟩) ((x1 : ℝ) + x2 - (y1 + y2)) := by
  rw [sub_eq_add_neg] at ho
  have hm := abs_near_le maxQ_rep.repU ho
  have hz := rep_of_repU (roundQ_repU .near (x1 + -y1)) hm
  obtain ⟨h, e⟩ := twosum_fin hx1 hy1.neg hz (round_fin_of_le hm)
  have E : subR s ⟨fin x1 hx1, fin x2 hx2⟩ ⟨fin y1 hy1, fin y2 hy2⟩ =
      finish (fin _ hz) (Fl.add (dir s) (fin _ h) (Fl.sub (dir s) (fin x2 hx2) (fin y2 hy2))) := by
    have e' : twosum (fin x1 hx1) (Fl.neg (fin y1 hy1)) = _ := e
    cases s <;> simp only [subR, subUp, subDown, e'] <;> rfl
  rw [E] at hf ⊢
  refine (finish_bd' s hz (bd_add (bd_exact s h) (bd_sub (bd_exact s hx2) hy2)) hf).congr ?_
  push_cast; ring

theorem mulR_bd (s : Bool) (ho : |x1 * y1| ≤ (B).maxQ)
    (hf : Fin (mulR s ⟨fin x1 hx1, fin x2 hx2⟩ ⟨fin y1 hy1, fin y2 hy2⟩) = true) :
    DBd s (mulR s ⟨fin x1 hx1, fin x2 hx2⟩ ⟨fin y1 hy1, fin y2 hy2⟩) (((x1 : ℝ) + x2) * (y1 + y2)) := by
  have hm := abs_near_le maxQ_rep.repU ho
  have hz := rep_of_repU (roundQ_repU .near (x1 * y1)) hm
  have er : ti (fin x1 hx1) (fin y1 hy1) = fin _ hz := round_fin_of_le hm
  have hb := twoproductR_bd s true hx1 hy1 hz (round_fin_of_le hm)
  have e1 : (twoproduct (dir s) (fin x1 hx1) (fin y1 hy1)).1 = fin _ hz := er
  rw [← twoproduct_eq] at hb
  have E : mulR s ⟨fin x1 hx1, fin x2 hx2⟩ ⟨fin y1 hy1, fin y2 hy2⟩ =
      finish (fin _ hz) (fmaR (dir s) (fin x2 hx2) (fin y2 hy2) (fmaR (dir s) (fin x2 hx2) (fin y1 hy1)
        (fmaR (dir s) (fin x1 hx1) (fin y2 hy2) (twoproduct (dir s) (fin x1 hx1) (fin y1 hy1)).2))) := by
    cases s <;> simp only [mulR, mulUp, mulDown, dir] at e1 ⊢ <;> rw [e1] <;> rfl
  rw [E] at hf ⊢
  refine (finish_bd' s hz (fma_bd hx2 hy2 (fma_bd hx2 hy1 (fma_bd hx1 hy2 hb))) hf).congr ?_
  ring

end

/-- the second component in a division in direction `s`, with the numerator in direction `m` -/
def divCore (s m : Bool) (z x1 x2 y1 y2 : Dbl) : Dbl :=
  let p := twoproduct (dir m) (Fl.neg z) y1
  if isInf p.1 then
    let h := lit (1 / 2)
    let p := twoproduct (dir m) (Fl.neg z) (ti y1 h)
    let v2 := divNum (dir m) z p.1 p.2 (ti x1 h) (ti x2 h) (ti y2 h)
    Fl.div (dir s) v2 (if Fl.lt (lit 0) v2 then Fl.add (dir !s) (ti y1 h) (ti y2 h) else Fl.add (dir s) (ti y1 h) (ti y2 h))
  else
    let v2 := divNum (dir m) z p.1 p.2 x1 x2 y2
    Fl.div (dir s) v2 (if Fl.lt (lit 0) v2 then Fl.add (dir !s) y1 y2 else Fl.add (dir s) y1 y2)

theorem divNum_bd (m : Bool) {z z3 x1 x2 y2 : ℚ} (hz : (B).Rep z) (hz3 : (B).Rep z3) (hy2 : (B).Rep y2)
    {z4 a1 a2 : Dbl} {r : ℝ} (h4 : Bd m z4 r) (h1 : Bd m a1 x1) (h2 : Bd m a2 x2) :
    Bd m (divNum (dir m) (fin z hz) (fin z3 hz3) z4 a1 a2 (fin y2 hy2))
      ((z3 : ℝ) + x1 + (-z) * y2 + x2 + r) := by
  unfold divNum
  have := fma_bd hz.neg hy2 (bd_add (bd_exact m hz3) h1)
  refine (bd_add (bd_add this h2) h4).congr ?_
  push_cast; ring

theorem divCore_bd (s : Bool) {z x1 x2 y1 y2 : ℚ} (hz : (B).Rep z) (hx1 : (B).Rep x1) (hx2 : (B).Rep x2)
    (hy1 : (B).Rep y1) (hy2 : (B).Rep y2) (hlt : |y2| < |y1|) (hzy : |z * y1| ≤ 2 * |x1|)
    (hh : ((B).Rep (y2 * (1 / 2)) ∧ (B).Rep (x2 * (1 / 2))) ∨ |x1| ≤ 2 ^ (1022 : ℤ)) :
    Bd s (divCore s (if Fl.le (lit 0) (fin y1 hy1) then s else !s) (fin z hz) (fin x1 hx1) (fin x2 hx2)
        (fin y1 hy1) (fin y2 hy2)) (((x1 : ℝ) + x2) / (y1 + y2) - z) := by
  have hy0 : y1 ≠ 0 := by
    rintro rfl; rw [abs_zero] at hlt; exact absurd hlt (not_lt.2 (abs_nonneg _))
  have hle : Fl.le (lit 0) (fin y1 hy1) = decide (0 ≤ y1) := by rw [lit0]; rfl
  rw [hle]
  set m := (if decide (0 ≤ y1) = true then s else !s) with hm
  -- the sign of the divisor
  have key : ∀ {n : Dbl} {e : ℝ} {a b : ℚ} (ha : (B).Rep a) (hb : (B).Rep b), (∃ c : ℚ, 0 < c ∧ a = y1 * c ∧ b = y2 * c) →
      Bd m n e → Bd s (Fl.div (dir s) n (if Fl.lt (lit 0) n then Fl.add (dir !s) (fin a ha) (fin b hb)
      else Fl.add (dir s) (fin a ha) (fin b hb))) (e / ((a : ℝ) + b)) := by
    rintro n e a b ha hb ⟨c, hc, rfl, rfl⟩ hn
    rcases lt_or_gt_of_ne hy0 with h | h
    · have h' : ¬ 0 ≤ y1 := not_le.2 h
      rw [hm, if_neg (by simpa using h)] at hn
      refine bd_div_neg s ha hb ?_ hn
      rw [abs_of_neg h] at hlt
      have := (abs_lt.1 hlt).2
      rw [← add_mul]
      exact mul_neg_of_neg_of_pos (by linarith) hc
    · rw [hm, if_pos (by simpa using h.le)] at hn
      refine bd_div_pos s ha hb ?_ hn
      rw [abs_of_pos h] at hlt
      have := (abs_lt.1 hlt).1
      rw [← add_mul]
      exact mul_pos (by linarith) hc
  have hY : (y1 : ℝ) + y2 ≠ 0 := by
    intro h
    have h' : y1 + y2 = 0 := by exact_mod_cast h
    have : y2 = -y1 := by linarith
    rw [this, abs_neg] at hlt
    exact lt_irrefl _ hlt
  unfold divCore
  simp only [twoproduct_eq, twoproductR_fst]
  have etp : ti (Fl.neg (fin z hz)) (fin y1 hy1) = Fl.round .near (-z * y1) := rfl
  by_cases hf : |(B).roundQ .near (-z * y1)| ≤ (B).maxQ
  · have er := round_fin_of_le hf
    rw [etp, er, isInf_fin]
    simp only [Bool.false_eq_true, if_false]
    have hb := twoproductR_bd m true hz.neg hy1 _ er
    have hN := divNum_bd m hz (rep_of_repU (roundQ_repU _ _) hf) hy2 hb (bd_exact m hx1) (bd_exact m hx2)
    refine (key hy1 hy2 ⟨1, one_pos, by ring, by ring⟩ hN).congr ?_
    push_cast
    field_simp
    ring
  · have hinf : isInf (Fl.round .near (-z * y1) : Dbl) = true := by
      unfold Fl.round pack
      rw [dif_neg hf]
      cases hd : decide (0 < (B).roundQ .near (-z * y1)) <;> simp [overflow, isInf, Fl.abs, Fl.eq]
    rw [etp, hinf]
    simp only [if_true]
    have hov := ovf hf
    rw [neg_mul, abs_neg] at hov
    have hx1m := hx1.abs_le
    have p970 := two_zpow_pos 970
    have hy1' : 1 ≤ |y1| := by
      by_contra hc
      have h1 : |z * y1| ≤ |z| := by
        rw [abs_mul]; exact mul_le_of_le_one_right (abs_nonneg _) (not_le.1 hc).le
      have := hz.abs_le
      linarith
    have hyh := rep_half_large hy1 hy1'
    have hx1' : 1 ≤ |x1| := by
      have : (2 : ℚ) ≤ (B).maxQ := by decide +kernel
      linarith
    have hxh := rep_half_large hx1 hx1'
    obtain ⟨hy2h, hx2h⟩ : (B).Rep (y2 * (1 / 2)) ∧ (B).Rep (x2 * (1 / 2)) := by
      rcases hh with h | h
      · exact h
      · exfalso
        have e : (2 : ℚ) ^ (1023 : ℤ) = 2 * 2 ^ (1022 : ℤ) := by
          rw [show (1023 : ℤ) = 1 + 1022 by norm_num, zpow_add₀ (by norm_num)]; norm_num
        have := pow_le_maxQ64
        linarith
    rw [lit_eq Format.rep_half, ti_exact hy1 Format.rep_half hyh rfl, ti_exact hy2 Format.rep_half hy2h rfl,
      ti_exact hx1 Format.rep_half hxh rfl, ti_exact hx2 Format.rep_half hx2h rfl]
    have etp2 : ti (Fl.neg (fin z hz)) (fin (y1 * (1 / 2)) hyh) = Fl.round .near (-z * (y1 * (1 / 2))) := rfl
    have hf2 : |(B).roundQ .near (-z * (y1 * (1 / 2)))| ≤ (B).maxQ := by
      refine abs_near_le maxQ_rep.repU ?_
      rw [show -z * (y1 * (1 / 2)) = -(z * y1) * (1 / 2) by ring, abs_mul, abs_neg,
        abs_of_pos (by norm_num : (0 : ℚ) < 1 / 2)]
      linarith
    have er := round_fin_of_le hf2
    rw [etp2, er]
    have hb := twoproductR_bd m true hz.neg hyh _ er
    have b1 := bd_exact m hxh
    have b2 := bd_exact m hx2h
    have hN := divNum_bd m hz (rep_of_repU (roundQ_repU _ _) hf2) hy2h hb b1 b2
    refine (key hyh hy2h ⟨1 / 2, by norm_num, by ring, by ring⟩ hN).congr ?_
    push_cast
    have hY' : (y1 : ℝ) * (1 / 2) + y2 * (1 / 2) ≠ 0 := by
      rw [← add_mul]; exact mul_ne_zero hY (by norm_num)
    field_simp
    ring

theorem divR_bd (s : Bool) {x1 x2 y1 y2 : ℚ} (hx1 : (B).Rep x1) (hx2 : (B).Rep x2) (hy1 : (B).Rep y1)
    (hy2 : (B).Rep y2) (hlt : |y2| < |y1|)
    (hh : ((B).Rep (y2 * (1 / 2)) ∧ (B).Rep (x2 * (1 / 2))) ∨ |x1| ≤ 2 ^ (1022 : ℤ)) (ho : |x1 / y1| ≤ (B).maxQ)
    (hf : Fin (divR s ⟨fin x1 hx1, fin x2 hx2⟩ ⟨fin y1 hy1, fin y2 hy2⟩) = true) :
    DBd s (divR s ⟨fin x1 hx1, fin x2 hx2⟩ ⟨fin y1 hy1, fin y2 hy2⟩) (((x1 : ℝ) + x2) / (y1 + y2)) := by
  have hy0 : y1 ≠ 0 := by
    rintro rfl; rw [abs_zero] at hlt; exact absurd hlt (not_lt.2 (abs_nonneg _))
  have hm := abs_near_le maxQ_rep.repU ho
  have hz := rep_of_repU (roundQ_repU .near (x1 / y1)) hm
  have edv : dv (fin x1 hx1) (fin y1 hy1) = fin _ hz := (div_fin _ _ _ hy0).trans (round_fin_of_le hm)
  have E : divR s ⟨fin x1 hx1, fin x2 hx2⟩ ⟨fin y1 hy1, fin y2 hy2⟩ =
      finish (fin _ hz) (divCore s (if Fl.le (lit 0) (fin y1 hy1) then s else !s) (fin _ hz) (fin x1 hx1)
        (fin x2 hx2) (fin y1 hy1) (fin y2 hy2)) := by
    have e1 : Fl.eq (fin _ hz) (pinf : Dbl) = false := rfl
    have e2 : Fl.eq (fin _ hz) (ninf : Dbl) = false := rfl
    cases s <;> cases h : Fl.le (lit 0) (fin y1 hy1) <;>
      simp only [divR, divUp, divDown, edv, isInf_fin, e1, e2, Bool.false_eq_true, if_false, h, if_true] <;> rfl
  rw [E] at hf ⊢
  refine (finish_bd' s hz (divCore_bd s hz hx1 hx2 hy1 hy2 hlt ?_ hh) hf).congr (by ring)
  have h1 := RepU.near_le (F := B) (q := x1 / y1) rep_zero.repU
  rw [zero_sub, abs_neg] at h1
  have h2 : |(B).roundQ .near (x1 / y1)| ≤ 2 * |x1 / y1| := by
    have := abs_add_le ((B).roundQ .near (x1 / y1) - x1 / y1) (x1 / y1)
    rw [sub_add_cancel] at this
    linarith
  rw [abs_mul]
  calc |(B).roundQ .near (x1 / y1)| * |y1| ≤ 2 * |x1 / y1| * |y1| :=
        mul_le_mul_of_nonneg_right h2 (abs_nonneg _)
    _ = 2 * |x1| := by
        rw [abs_div, mul_assoc, div_mul_cancel₀ _ (abs_pos.2 hy0).ne']

end DDAvx
end Kv
