import Verif.Special.Geoseries
import Verif.Props.Elem
import Verif.Props.Arith
import Verif.Solver.LinLemmas
import Mathlib.Analysis.SpecificLimits.Basic

/-! # Lemmas for the geometric series -/

namespace Kv
open RopSem Kv.Interval Filter
open Rop (lit)

/-- The partial sum closed with a tail value `A` of the range stays in the range. -/
theorem geo_partial {l u A B : ℝ} (hAB : A ≤ B) (step : ∀ r s, l ≤ r → r ≤ u → A ≤ s → s ≤ B → A ≤ 1 + r * s ∧ 1 + r * s ≤ B) :
    ∀ (m : ℕ) (r : ℕ → ℝ), (∀ i, l ≤ r i ∧ r i ≤ u) →
      (∑ k ∈ Finset.range m, ∏ i ∈ Finset.range k, r i) + (∏ i ∈ Finset.range m, r i) * A ∈ Set.Icc A B := by
  intro m
  induction m with
  | zero => intro r _; simpa using hAB
  | succ m ih =>
    intro r hr
    have h := ih (fun i => r (i + 1)) fun i => hr (i + 1)
    have e : (∑ k ∈ Finset.range (m + 1), ∏ i ∈ Finset.range k, r i) + (∏ i ∈ Finset.range (m + 1), r i) * A =
        1 + r 0 * ((∑ k ∈ Finset.range m, ∏ i ∈ Finset.range k, r (i + 1)) + (∏ i ∈ Finset.range m, r (i + 1)) * A) := by
      rw [Finset.sum_range_succ', Finset.prod_range_succ']
      have : ∀ k, ∏ i ∈ Finset.range (k + 1), r i = r 0 * ∏ i ∈ Finset.range k, r (i + 1) := fun k => by
        rw [Finset.prod_range_succ', mul_comm]
      simp only [this, ← Finset.mul_sum, Finset.range_zero, Finset.prod_empty]
      ring
    rw [e]
    exact step _ _ (hr 0).1 (hr 0).2 h.1 h.2

theorem geo_core {l u A B : ℝ} (hl : -1 < l) (hu : u < 1) (hAB : A ≤ B)
    (step : ∀ r s, l ≤ r → r ≤ u → A ≤ s → s ≤ B → A ≤ 1 + r * s ∧ 1 + r * s ≤ B) {r : ℕ → ℝ} (hr : ∀ i, l ≤ r i ∧ r i ≤ u) :
    Summable (fun k => ∏ i ∈ Finset.range k, r i) ∧ A ≤ ∑' k, ∏ i ∈ Finset.range k, r i ∧ ∑' k, ∏ i ∈ Finset.range k, r i ≤ B := by
  set q := max |l| |u| with hq
  have hlu : l ≤ u := (hr 0).1.trans (hr 0).2
  have hq1 : q < 1 := max_lt (abs_lt.2 ⟨hl, by linarith⟩) (abs_lt.2 ⟨by linarith, hu⟩)
  have hq0 : 0 ≤ q := (abs_nonneg l).trans (le_max_left _ _)
  have hrq : ∀ i, |r i| ≤ q := fun i => abs_le_max_abs_abs (hr i).1 (hr i).2
  have hP : ∀ k, ‖∏ i ∈ Finset.range k, r i‖ ≤ q ^ k := fun k => by
    rw [Real.norm_eq_abs, Finset.abs_prod]
    calc ∏ i ∈ Finset.range k, |r i| ≤ ∏ _i ∈ Finset.range k, q := Finset.prod_le_prod (fun i _ => abs_nonneg _) fun i _ => hrq i
      _ = q ^ k := by simp
  have hs : Summable (fun k => ∏ i ∈ Finset.range k, r i) := Summable.of_norm_bounded (summable_geometric_of_lt_one hq0 hq1) hP
  have h0 : Tendsto (fun k => ∏ i ∈ Finset.range k, r i) atTop (nhds 0) := hs.tendsto_atTop_zero
  have ht := (hs.hasSum.tendsto_sum_nat).add (h0.mul_const A)
  rw [zero_mul, add_zero] at ht
  have := isClosed_Icc.mem_of_tendsto ht (Eventually.of_forall fun m => geo_partial hAB step m r hr)
  exact ⟨hs, this.1, this.2⟩

/-- the finite range of an interval all of whose members are in (-1,1) -/
theorem bd_of_unit {I : Interval D} {t : ℝ} (ht : t ∈ I) (h : ∀ t ∈ I, -1 < t ∧ t < 1) : Bd I := by
  constructor
  · rcases D_cases I.inf with e | e | e | e
    · exact absurd nan_dNaN (by rw [← e]; exact ht.1.1)
    · have := ht.1.2; rw [e, val_dPinf] at this; simp at this
    · have h2 : min t (-2) ∈ I := ⟨⟨ht.1.1, by rw [e, val_dNinf]; exact bot_le⟩, ht.2.1, le_trans (by exact_mod_cast min_le_left _ _) ht.2.2⟩
      have := (h _ h2).1; have := min_le_right t (-2); linarith
    · exact e
  · rcases D_cases I.sup with e | e | e | e
    · exact absurd nan_dNaN (by rw [← e]; exact ht.2.1)
    · have h2 : max t 2 ∈ I := ⟨⟨ht.1.1, le_trans ht.1.2 (by exact_mod_cast le_max_left _ _)⟩, ht.2.1, by rw [e, val_dPinf]; exact le_top⟩
      have := (h _ h2).2; have := le_max_right t 2; linarith
    · have := ht.2.2; rw [e, val_dNinf] at this; simp at this
    · exact e

theorem geoseries_mem {I Z : Interval D} {r : ℕ → ℝ} (hI : ∀ t ∈ I, -1 < t ∧ t < 1) (hr : ∀ i, r i ∈ I) (h : geoseries I = .ok Z) :
    Summable (fun k => ∏ i ∈ Finset.range k, r i) ∧ ∑' k, ∏ i ∈ Finset.range k, r i ∈ Z := by
  have hb := bd_of_unit (hr 0) hI
  have hl := is_dbl' hb.1
  have hu := is_dbl' hb.2
  set l := dbl I.inf
  set u := dbl I.sup
  have hr' : ∀ i, l ≤ r i ∧ r i ≤ u := fun i => (mem_of_bd hb).1 (hr i)
  have hlu : l ≤ u := (hr' 0).1.trans (hr' 0).2
  have hlI : l ∈ I := (mem_of_bd hb).2 ⟨le_rfl, hlu⟩
  have huI : u ∈ I := (mem_of_bd hb).2 ⟨hlu, le_rfl⟩
  have h1 : -1 < l := (hI _ hlI).1
  have h2 : u < 1 := (hI _ huI).2
  have hu' : (0 : ℝ) < 1 - u := by linarith
  have hl' : (0 : ℝ) < 1 - l := by linarith
  unfold geoseries at h
  by_cases c1 : geIS I (lit 0) = true
  · rw [if_pos c1] at h
    have c : 0 ≤ l := by
      unfold geIS at c1
      rw [le_iff, is_zero.2, hl.2] at c1
      exact_mod_cast c1.2.2
    have := geo_core (A := 1 / (1 - l)) (B := 1 / (1 - u)) h1 h2 (one_div_le_one_div_of_le hu' (by linarith)) (by
      intro r s a b c d
      have e1 : 1 / (1 - l) * (1 - l) = 1 := one_div_mul_cancel hl'.ne'
      have e2 : 1 / (1 - u) * (1 - u) = 1 := one_div_mul_cancel hu'.ne'
      set p := 1 / (1 - l)
      have : 0 ≤ p := (one_div_pos.2 hl').le
      set q := 1 / (1 - u)
      have : 0 ≤ q := (one_div_pos.2 hu').le
      constructor <;> nlinarith [mul_nonneg (sub_nonneg.2 a) (this.trans (by linarith : q ≤ q)), mul_nonneg (by linarith : 0 ≤ r) (sub_nonneg.2 c), mul_nonneg (sub_nonneg.2 a) ‹0 ≤ p›,
        mul_nonneg (by linarith : 0 ≤ r) (sub_nonneg.2 d), mul_nonneg (sub_nonneg.2 b) ‹0 ≤ q›]) hr'
    refine ⟨this.1, ?_⟩
    have m1 := sDiv_mem h (sSub_mem hlI is_one) is_one
    have m2 := sDiv_mem h (sSub_mem huI is_one) is_one
    exact ⟨⟨m1.1.1, m1.1.2.trans (by exact_mod_cast this.2.1)⟩, m2.2.1, le_trans (by exact_mod_cast this.2.2) m2.2.2⟩
  rw [if_neg c1] at h
  have c1' : l < 0 := by
    by_contra hh
    refine c1 ((le_iff _ _).2 ⟨is_zero.1, hl.1, ?_⟩)
    rw [is_zero.2, hl.2]; exact_mod_cast not_lt.1 hh
  by_cases c2 : leIS I (lit 0) = true
  · simp only [c2, if_true] at h
    obtain ⟨a, ha, h⟩ := bind_ok.1 h
    obtain ⟨b, hb', h⟩ := bind_ok.1 h
    cases h
    have c : u ≤ 0 := by
      unfold leIS at c2
      rw [le_iff, is_zero.2, hu.2] at c2
      exact_mod_cast c2.2.2
    have hd : 0 < 1 - l * u := by nlinarith
    have := geo_core (A := (1 + l) / (1 - l * u)) (B := (1 + u) / (1 - l * u)) h1 h2 (div_le_div_of_nonneg_right (by linarith) hd.le) (by
      intro r s a b c d
      have e1 : (1 + l) / (1 - l * u) = 1 + l * ((1 + u) / (1 - l * u)) := by
        rw [div_eq_iff hd.ne', add_mul, mul_assoc, div_mul_cancel₀ _ hd.ne']; ring
      have e2 : (1 + u) / (1 - l * u) = 1 + u * ((1 + l) / (1 - l * u)) := by
        rw [div_eq_iff hd.ne', add_mul, mul_assoc, div_mul_cancel₀ _ hd.ne']; ring
      have p1 : 0 ≤ (1 + l) / (1 - l * u) := div_nonneg (by linarith) hd.le
      set p := (1 + l) / (1 - l * u)
      set q := (1 + u) / (1 - l * u)
      constructor <;> nlinarith [mul_nonneg (sub_nonneg.2 a) (by linarith : 0 ≤ s), mul_nonneg (by linarith : 0 ≤ -l) (sub_nonneg.2 d),
        mul_nonneg (sub_nonneg.2 b) (by linarith : 0 ≤ s), mul_nonneg (by linarith : 0 ≤ -u) (sub_nonneg.2 c)]) hr'
    refine ⟨this.1, ?_⟩
    have mt := sSub_mem (mul_mem (point_mem hl) (point_mem hu)) is_one
    have m1 := div_mem ha (sAdd_mem (point_mem hl) is_one) mt
    have m2 := div_mem hb' (sAdd_mem (point_mem hu) is_one) mt
    exact ⟨⟨m1.1.1, m1.1.2.trans (by exact_mod_cast this.2.1)⟩, m2.2.1, le_trans (by exact_mod_cast this.2.2) m2.2.2⟩
  · simp only [c2, if_false, Bool.false_eq_true] at h
    obtain ⟨a, ha, h⟩ := bind_ok.1 h
    obtain ⟨b, hb', h⟩ := bind_ok.1 h
    cases h
    have c0 : 0 < u := by
      by_contra hh
      refine c2 ((le_iff _ _).2 ⟨hu.1, is_zero.1, ?_⟩)
      rw [is_zero.2, hu.2]; exact_mod_cast not_lt.1 hh
    have := geo_core (A := 1 + l / (1 - u)) (B := 1 / (1 - u)) h1 h2 (by
        rw [← sub_nonneg]
        have : 1 / (1 - u) - (1 + l / (1 - u)) = (u - l) / (1 - u) := by field_simp; ring
        rw [this]; exact div_nonneg (by linarith) hu'.le) (by
      intro r s a b c d
      have e2 : 1 / (1 - u) * (1 - u) = 1 := one_div_mul_cancel hu'.ne'
      have e1 : l / (1 - u) = l * (1 / (1 - u)) := by ring
      rw [e1] at c ⊢
      have p : 0 ≤ 1 / (1 - u) := (one_div_pos.2 hu').le
      set q := 1 / (1 - u)
      have key : -q ≤ s := by nlinarith
      rcases le_total 0 s with hs | hs
      · constructor <;> nlinarith [mul_nonneg (sub_nonneg.2 a) hs, mul_nonneg (sub_nonneg.2 b) hs, mul_nonneg (neg_nonneg.2 c1'.le) (sub_nonneg.2 d)]
      · constructor <;> nlinarith [mul_nonneg (sub_nonneg.2 a) (neg_nonneg.2 hs), mul_nonneg (sub_nonneg.2 b) (neg_nonneg.2 hs),
          mul_nonneg (neg_nonneg.2 c1'.le) (sub_nonneg.2 c), mul_nonneg c0.le (sub_nonneg.2 c), mul_nonneg (by linarith : 0 ≤ 1 + l) (mul_nonneg (by linarith : 0 ≤ u - l) p)]) hr'
    refine ⟨this.1, ?_⟩
    have m1 := sAdd_mem (div_mem ha (point_mem hl) (sSub_mem (point_mem hu) is_one)) is_one
    have m2 := sDiv_mem hb' (sSub_mem (point_mem hu) is_one) is_one
    exact ⟨⟨m1.1.1, m1.1.2.trans (by exact_mod_cast this.2.1)⟩, m2.2.1, le_trans (by exact_mod_cast this.2.2) m2.2.2⟩

end Kv
