import Verif.Special.GeoseriesLemmas
import Verif.Props.Optimal

/-!
# C41: the geometric series with varying quotients

`∑' k, ∏ i ∈ range k, r i` is `1 + r₀ + r₀ r₁ + r₀ r₁ r₂ + ..`.
-/

namespace Kv
open RopSem Kv.Interval
open Rop (lit)

/-- C41: for an interval inside (-1,1) and every sequence in it the series converges and its sum is in the result. -/
theorem C41 {I Z : Interval D} {r : ℕ → ℝ} (hI : ∀ t ∈ I, -1 < t ∧ t < 1) (hr : ∀ i, r i ∈ I) (h : geoseries I = .ok Z) :
    Summable (fun k => ∏ i ∈ Finset.range k, r i) ∧ ∑' k, ∏ i ∈ Finset.range k, r i ∈ Z := geoseries_mem hI hr h

/-- doubles below 1 keep their distance -/
theorem gap_one {a : D} {x : ℝ} (ha : Is a x) (hx : x < 1) : x ≤ 1 - 2 ^ (-53 : ℤ) := by
  obtain ⟨q, hq, rfl⟩ := finD_iff.1 ⟨x, ha⟩
  have e : x = (q : ℝ) := by
    have := ha.2; change ((q : ℝ) : EReal) = _ at this; exact_mod_cast this.symm
  subst e
  have hq1 : q < 1 := by exact_mod_cast hx
  suffices q ≤ 1 - 2 ^ (-53 : ℤ) by
    have h := (Rat.cast_le (K := ℝ)).2 this; push_cast at h; exact h
  obtain ⟨m, e, hm, he1, he2, rfl⟩ := hq
  have hp : (0 : ℚ) < 2 ^ e := zpow_pos (by norm_num) e
  by_cases h1 : -53 ≤ e
  · obtain ⟨n, hn⟩ : ∃ n : ℕ, e = n - 53 := ⟨(e + 53).toNat, by omega⟩
    rw [hn, zpow_sub₀ (by norm_num), zpow_natCast] at hq1 ⊢
    have h2 : m * 2 ^ n < (2 : ℤ) ^ 53 := by
      have : (m : ℚ) * 2 ^ n < 2 ^ 53 := by
        rw [← mul_div_assoc, div_lt_one (by positivity)] at hq1; exact_mod_cast hq1
      exact_mod_cast this
    have h3 : (m : ℚ) * 2 ^ n ≤ 2 ^ 53 - 1 := by exact_mod_cast Int.le_sub_one_of_lt h2
    norm_num at h3 ⊢
    linarith
  · have h2 : (2 : ℚ) ^ e ≤ 2 ^ (-54 : ℤ) := zpow_le_zpow_right₀ (by norm_num) (by omega)
    have h3 : (m : ℚ) ≤ 2 ^ 53 := by
      have : m ≤ 2 ^ 53 := (le_abs_self m).trans (by simpa [binary64] using hm.le)
      exact_mod_cast this
    have : (m : ℚ) * 2 ^ e ≤ 2 ^ 53 * 2 ^ (-54 : ℤ) := mul_le_mul h3 h2 hp.le (by positivity)
    norm_num at this ⊢
    linarith

theorem rep_eps : binary64.Rep (2 ^ (-53 : ℤ)) := Format.rep_two_zpow (by decide) (by decide)
theorem rep_pred_one : binary64.Rep (1 - 2 ^ (-53 : ℤ)) := ⟨2 ^ 53 - 1, -53, by decide, by decide, by decide, by norm_num⟩

/-- `1 - Y` does not contain 0 if the doubles bounding `Y` are below 1 -/
theorem zero_notMem_one_sub {Y : Interval D} {y : ℝ} (hy : Is Y.sup y) (h : y < 1) : (0 : ℝ) ∉ sSub (lit 1) Y := by
  intro h0
  have hg := gap_one hy h
  obtain ⟨q, hq, e⟩ := finD_iff.1 ⟨y, hy⟩
  have e' : y = (q : ℝ) := by
    have := hy.2; rw [e] at this; change ((q : ℝ) : EReal) = _ at this; exact_mod_cast this.symm
  have h1 : (Rop.lit 1 : D) = Hw.fin 1 Format.rep_one := by decide +kernel
  have := subDown_best Format.rep_one hq (t := Hw.fin _ rep_eps) (Hw.not_nan_fin _ _) (by
    rw [Hw.val_fin, EReal.coe_le_coe_iff]; push_cast; linarith)
  have h2 := h0.1.2
  change val (Rop.subDown (lit 1) Y.sup) ≤ _ at h2
  rw [e, h1] at h2
  have := this.trans h2
  rw [Hw.val_fin, EReal.coe_le_coe_iff] at this
  push_cast at this
  have : (0 : ℝ) < 2 ^ (-53 : ℤ) := by positivity
  linarith

theorem ok_of_ne {α : Type} {e : Res α} (h1 : ∀ e', e = .error e' → e' = .domainError) (h2 : e ≠ .error .domainError) : ∃ z, e = .ok z := by
  cases e with
  | error e' => exact absurd (by rw [h1 e' rfl]) h2
  | ok z => exact ⟨z, rfl⟩

theorem sDiv_only {x : D} {Y : Interval D} (e : Err) (h : sDiv x Y = .error e) : e = .domainError := by
  unfold sDiv at h; split_ifs at h; injection h with h; exact h.symm

/-- C41: the call returns for every nonempty interval inside (-1,1), however close its ends are to -1 and 1. -/
theorem C41_returns {I : Interval D} {t : ℝ} (hI : ∀ t ∈ I, -1 < t ∧ t < 1) (ht : t ∈ I) : ∃ Z, geoseries I = .ok Z := by
  have hb := bd_of_unit ht hI
  have hl := is_dbl' hb.1
  have hu := is_dbl' hb.2
  have hlu := (mem_of_bd hb).1 ht
  have hlI : dbl I.inf ∈ I := (mem_of_bd hb).2 ⟨le_rfl, hlu.1.trans hlu.2⟩
  have huI : dbl I.sup ∈ I := (mem_of_bd hb).2 ⟨hlu.1.trans hlu.2, le_rfl⟩
  have h1 := hI _ hlI
  have h2 := hI _ huI
  unfold geoseries
  by_cases c1 : geIS I (lit 0) = true
  · rw [if_pos c1]
    exact ok_of_ne sDiv_only fun h => zero_notMem_one_sub hu h2.2 ((C03_sDiv_error_iff _ (sSub_mem huI is_one)).1 h)
  rw [if_neg c1]
  by_cases c2 : leIS I (lit 0) = true
  · simp only [c2, if_true]
    have c : dbl I.sup ≤ 0 := by
      unfold leIS at c2
      rw [le_iff, is_zero.2, hu.2] at c2
      exact_mod_cast c2.2.2
    have hm := mul_mem (point_mem hl) (point_mem hu)
    have hp : dbl I.inf * dbl I.sup ≤ 1 - 2 ^ (-53 : ℤ) := by
      have hn : Is (Rop.neg I.inf) (-dbl I.inf) := is_neg hl
      have := gap_one hn (by linarith [h1.1])
      nlinarith
    have hs : ∃ y, Is (mul (point I.inf) (point I.sup)).sup y ∧ y < 1 := by
      obtain ⟨a, ha, ea⟩ := finD_iff.1 hb.1
      obtain ⟨b, hb', eb⟩ := finD_iff.1 hb.2
      have va : dbl I.inf = (a : ℝ) := is_dbl ⟨by rw [ea]; exact Hw.not_nan_fin a ha, by rw [ea]; rfl⟩
      have vb : dbl I.sup = (b : ℝ) := is_dbl ⟨by rw [eb]; exact Hw.not_nan_fin b hb', by rw [eb]; rfl⟩
      have best := C04_mul (X := point I.inf) (Y := point I.sup) ⟨a, a, ha, ha, le_rfl, by rw [ea]; rfl⟩ ⟨b, b, hb', hb', le_rfl, by rw [eb]; rfl⟩
      have hle := best.2.2.2 (Hw.fin _ rep_pred_one) (Hw.not_nan_fin _ _) (by
        rintro s ⟨x, y, hx, hy, rfl⟩
        have hx' : x = dbl I.inf := le_antisymm (by have := hx.2.2; rw [show (point I.inf).sup = I.inf from rfl, hl.2] at this; exact_mod_cast this)
          (by have := hx.1.2; rw [show (point I.inf).inf = I.inf from rfl, hl.2] at this; exact_mod_cast this)
        have hy' : y = dbl I.sup := le_antisymm (by have := hy.2.2; rw [show (point I.sup).sup = I.sup from rfl, hu.2] at this; exact_mod_cast this)
          (by have := hy.1.2; rw [show (point I.sup).inf = I.sup from rfl, hu.2] at this; exact_mod_cast this)
        rw [hx', hy', Hw.val_fin, EReal.coe_le_coe_iff]; push_cast; exact hp)
      have hge := hm.2
      rcases D_cases (mul (point I.inf) (point I.sup)).sup with e | e | e | e
      · exact absurd nan_dNaN (by rw [← e]; exact hge.1)
      · rw [e, val_dPinf, Hw.val_fin] at hle; exact absurd (top_le_iff.1 hle) (EReal.coe_ne_top _)
      · have := hge.2; rw [e, val_dNinf] at this; exact absurd (le_bot_iff.1 this) (EReal.coe_ne_bot _)
      · refine ⟨_, is_dbl' e, ?_⟩
        rw [(is_dbl' e).2, Hw.val_fin, EReal.coe_le_coe_iff] at hle
        push_cast at hle
        have : (0 : ℝ) < 2 ^ (-53 : ℤ) := by positivity
        linarith
    obtain ⟨y, hy, hy1⟩ := hs
    have hd : ∀ X, ∃ Z, div X (sSub (lit 1) (mul (point I.inf) (point I.sup))) = .ok Z := fun X =>
      ok_of_ne (fun _ => C03_div_only_error) fun h => zero_notMem_one_sub hy hy1 ((C03_div_error_iff _ (sSub_mem hm is_one)).1 h)
    obtain ⟨Z1, e1⟩ := hd (sAdd (lit 1) (point I.inf))
    obtain ⟨Z2, e2⟩ := hd (sAdd (lit 1) (point I.sup))
    exact ⟨_, by rw [e1, e2]; rfl⟩
  · simp only [c2, if_false, Bool.false_eq_true]
    have hp : (0 : ℝ) ∉ sSub (lit 1) (point I.sup) := zero_notMem_one_sub hu h2.2
    have hm := sSub_mem (point_mem hu) is_one
    obtain ⟨Z1, e1⟩ := ok_of_ne (e := div (point I.inf) (sSub (lit 1) (point I.sup))) (fun _ => C03_div_only_error)
      fun h => hp ((C03_div_error_iff _ hm).1 h)
    obtain ⟨Z2, e2⟩ := ok_of_ne (e := sDiv (lit 1 : D) (sSub (lit 1) (point I.sup))) sDiv_only fun h => hp ((C03_sDiv_error_iff _ hm).1 h)
    exact ⟨_, by rw [e1, e2]; rfl⟩

/-- The interval [-1/2, 1/4] is inside (-1,1), and the constant sequence 1/4 is in it. -/
example : ∃ Z, geoseries ⟨lit (-1/2), lit (1/4)⟩ = .ok Z ∧ ∑' k, ∏ i ∈ Finset.range k, ((fun _ => 1/4 : ℕ → ℝ) i) ∈ Z := by
  have e1 : Is (lit (-1/2) : D) (-1/2) := by
    have := is_neg (is_half (T := D)); rw [show (lit (-1/2) : D) = Rop.neg (lit (1/2)) by decide +kernel]; convert this using 1; norm_num
  have e2 : Is (lit (1/4) : D) (1/4) := by
    refine ⟨by rw [show (lit (1/4) : D) = Hw.fin (2 ^ (-2 : ℤ)) (Format.rep_two_zpow (by decide) (by decide)) by decide +kernel]; exact Hw.not_nan_fin _ _, ?_⟩
    rw [show (lit (1/4) : D) = Hw.fin (2 ^ (-2 : ℤ)) (Format.rep_two_zpow (by decide) (by decide)) by decide +kernel, Hw.val_fin]
    norm_num
  have hm : ∀ t : ℝ, t ∈ (⟨lit (-1/2), lit (1/4)⟩ : Interval D) ↔ -1/2 ≤ t ∧ t ≤ 1/4 := fun t => by
    rw [mem_iff]; simp only [e1.1, e2.1, e1.2, e2.2, EReal.coe_le_coe_iff, not_false_iff, true_and]
  have hI : ∀ t ∈ (⟨lit (-1/2), lit (1/4)⟩ : Interval D), -1 < t ∧ t < 1 := fun t ht => by
    have := (hm t).1 ht; constructor <;> linarith
  have h4 := (hm (1/4)).2 ⟨by norm_num, le_rfl⟩
  obtain ⟨Z, hZ⟩ := C41_returns hI h4
  exact ⟨Z, hZ, (C41 hI (fun _ => h4) hZ).2⟩

/-- The condition is not checked: for `[2,3]` a value is returned, though the series diverges. -/
theorem C41_unchecked : geoseries ⟨lit 2, lit 3⟩ = .ok ⟨lit (-1), lit (-1/2)⟩ ∧
    ∀ r : ℕ → ℝ, (∀ i, r i ∈ (⟨lit 2, lit 3⟩ : Interval D)) → ¬ Summable (fun k => ∏ i ∈ Finset.range k, r i) := by
  refine ⟨by decide +kernel, fun r hr hs => ?_⟩
  have h2 : ∀ i, 2 ≤ r i := fun i => by
    have := (hr i).1.2; rw [show val (lit 2 : D) = _ from is_two.2] at this; exact_mod_cast this
  have h1 : ∀ k, 1 ≤ ∏ i ∈ Finset.range k, r i := fun k => by
    have : ∏ _i ∈ Finset.range k, (1 : ℝ) ≤ ∏ i ∈ Finset.range k, r i := Finset.prod_le_prod (fun _ _ => zero_le_one) fun i _ => by linarith [h2 i]
    simpa using this
  have := ge_of_tendsto' hs.tendsto_atTop_zero h1
  linarith

end Kv
