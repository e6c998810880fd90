import Mathlib.LinearAlgebra.Lagrange
import Mathlib.Analysis.Complex.OpenMapping

/-! # Smith's theorem on the zeros of a polynomial, from approximations `x i` of them -/

namespace Kv.Smith
open Finset Polynomial

variable {n : ℕ} {c : Fin (n + 1) → ℂ} {x : Fin n → ℂ} {z : ℂ} {i : Fin n}

/-- the value of the polynomial with the coefficients `c` -/
def pval (c : Fin (n + 1) → ℂ) (z : ℂ) : ℂ := ∑ k, c k * z ^ (k : ℕ)

/-- the denominator of the Weierstraß correction -/
def den (c : Fin (n + 1) → ℂ) (x : Fin n → ℂ) (i : Fin n) : ℂ := c (Fin.last n) * ∏ j ∈ univ.erase i, (x i - x j)

/-- the Weierstraß correction -/
noncomputable def wc (c : Fin (n + 1) → ℂ) (x : Fin n → ℂ) (i : Fin n) : ℂ := pval c (x i) / den c x i

noncomputable def poly (c : Fin (n + 1) → ℂ) : ℂ[X] := ∑ k, C (c k) * X ^ (k : ℕ)

theorem eval_poly : (poly c).eval z = pval c z := by
  simp [poly, pval, eval_finsetSum]

theorem den_inj (h : ∀ i, den c x i ≠ 0) : Function.Injective x := by
  intro i j hij
  by_contra hne
  apply h i
  rw [den, prod_eq_zero (mem_erase.2 ⟨Ne.symm hne, mem_univ j⟩) (by rw [hij, sub_self]), mul_zero]

theorem lagrange (h : ∀ i, den c x i ≠ 0) (z : ℂ) :
    pval c z = c (Fin.last n) * ∏ j, (z - x j) + ∑ i, pval c (x i) * ∏ j ∈ univ.erase i, ((z - x j) / (x i - x j)) := by
  have hinj := den_inj h
  set q : ℂ[X] := poly c - C (c (Fin.last n)) * Lagrange.nodal univ x with hq
  have e1 : poly c = (∑ k : Fin n, C (c k.castSucc) * X ^ (k : ℕ)) + C (c (Fin.last n)) * X ^ n := by
    rw [poly, Fin.sum_univ_castSucc]; rfl
  have d1 : (∑ k : Fin n, C (c k.castSucc) * X ^ (k : ℕ)).degree < (n : WithBot ℕ) := by
    exact degree_sum_fin_lt _
  have d2 : (X ^ n - Lagrange.nodal univ x : ℂ[X]).degree < (n : WithBot ℕ) := by
    have := degree_sub_lt_left (p := (X ^ n : ℂ[X])) (q := Lagrange.nodal univ x)
      (by rw [degree_X_pow, Lagrange.degree_nodal]; simp) (by simp)
      (by rw [leadingCoeff_X_pow, (Lagrange.nodal_monic).leadingCoeff])
    rwa [degree_X_pow] at this
  have hd : q.degree < #(univ : Finset (Fin n)) := by
    have e2 : q = (∑ k : Fin n, C (c k.castSucc) * X ^ (k : ℕ)) + C (c (Fin.last n)) * (X ^ n - Lagrange.nodal univ x) := by
      rw [hq, e1]; ring
    rw [e2, card_univ, Fintype.card_fin]
    refine lt_of_le_of_lt (degree_add_le _ _) (max_lt d1 (lt_of_le_of_lt ?_ d2))
    refine le_trans (degree_mul_le _ _) ?_
    calc _ ≤ 0 + _ := add_le_add_left degree_C_le _
      _ = _ := zero_add _
  have e3 := Lagrange.eq_interpolate (v := x) hinj.injOn hd
  have e4 := congrArg (eval z) e3
  have e5 : ∀ i, q.eval (x i) = pval c (x i) := fun i => by
    rw [hq, eval_sub, eval_mul, Lagrange.eval_nodal_at_node (mem_univ i), mul_zero, sub_zero, eval_poly]
  rw [hq, eval_sub, eval_mul, eval_C, Lagrange.eval_nodal, eval_poly, ← hq, Lagrange.interpolate_apply, eval_finsetSum] at e4
  rw [sub_eq_iff_eq_add'] at e4
  rw [e4]
  congr 1
  refine sum_congr rfl fun i _ => ?_
  rw [eval_mul, eval_C, e5, Lagrange.basis, eval_prod]
  congr 1
  refine prod_congr rfl fun j _ => ?_
  rw [Lagrange.basisDivisor, eval_mul, eval_C, eval_sub, eval_X, eval_C]
  ring

theorem term (h : ∀ i, den c x i ≠ 0) (z : ℂ) (i : Fin n) :
    pval c (x i) * ∏ j ∈ univ.erase i, ((z - x j) / (x i - x j)) = c (Fin.last n) * wc c x i * ∏ j ∈ univ.erase i, (z - x j) := by
  have := h i
  rw [den] at this
  have h1 := left_ne_zero_of_mul this
  have h2 := right_ne_zero_of_mul this
  rw [prod_div_distrib, wc, den]
  field_simp

theorem local_form (h : ∀ i, den c x i ≠ 0) (i : Fin n) (hz : ∀ j, j ≠ i → z ≠ x j) :
    pval c z = c (Fin.last n) * (∏ j ∈ univ.erase i, (z - x j)) *
      ((z - x i) * (1 + ∑ j ∈ univ.erase i, wc c x j / (z - x j)) + wc c x i) := by
  rw [lagrange h z]
  simp only [term h]
  rw [← add_sum_erase _ _ (mem_univ i), ← mul_prod_erase _ _ (mem_univ i)]
  have : ∀ j ∈ univ.erase i, c (Fin.last n) * wc c x j * ∏ k ∈ univ.erase j, (z - x k) =
      c (Fin.last n) * (∏ k ∈ univ.erase i, (z - x k)) * (z - x i) * (wc c x j / (z - x j)) := by
    intro j hj
    have hji := ne_of_mem_erase hj
    have h0 : z - x j ≠ 0 := sub_ne_zero.2 (hz j hji)
    have p1 := mul_prod_erase univ (fun k => z - x k) (mem_univ i)
    have p2 := mul_prod_erase univ (fun k => z - x k) (mem_univ j)
    rw [mul_assoc (c (Fin.last n)), mul_assoc (c (Fin.last n)), mul_assoc (c (Fin.last n))]
    congr 1
    rw [mul_comm (∏ k ∈ univ.erase i, (z - x k)), p1, ← p2]
    field_simp
  rw [sum_congr rfl this, ← mul_sum]
  ring

/-- every zero is within `n |w i|` of some `x i` -/
theorem cover (hn : n ≠ 0) (h : ∀ i, den c x i ≠ 0) (hz : pval c z = 0) : ∃ i, ‖z - x i‖ ≤ n * ‖wc c x i‖ := by
  by_contra hc
  push Not at hc
  have hne : ∀ i, z - x i ≠ 0 := fun i h0 => by
    have := hc i; rw [h0, norm_zero] at this
    exact absurd this (not_lt.2 (by positivity))
  have : NeZero n := ⟨hn⟩
  let i : Fin n := 0
  have e := local_form h i (fun j _ => sub_ne_zero.1 (hne j))
  rw [hz] at e
  have h1 : c (Fin.last n) * (∏ j ∈ univ.erase i, (z - x j)) ≠ 0 :=
    mul_ne_zero (left_ne_zero_of_mul (h i)) (prod_ne_zero_iff.2 fun j _ => hne j)
  have e2 := (mul_eq_zero.1 e.symm).resolve_left h1
  have e3 : (1 : ℂ) = - ∑ j, wc c x j / (z - x j) := by
    rw [← add_sum_erase _ _ (mem_univ i)]
    have := hne i
    have e4 : (z - x i) * (1 + ∑ j ∈ univ.erase i, wc c x j / (z - x j) + wc c x i / (z - x i)) = 0 := by
      rw [mul_add (z - x i), mul_div_cancel₀ _ this]; exact e2
    have e5 := (mul_eq_zero.1 e4).resolve_left this
    linear_combination e5
  have e6 : (1 : ℝ) ≤ ∑ j, ‖wc c x j‖ / ‖z - x j‖ := by
    calc (1 : ℝ) = ‖(1 : ℂ)‖ := norm_one.symm
      _ = ‖∑ j, wc c x j / (z - x j)‖ := by conv_lhs => rw [e3, norm_neg]
      _ ≤ ∑ j, ‖wc c x j / (z - x j)‖ := norm_sum_le _ _
      _ = _ := sum_congr rfl fun j _ => norm_div _ _
  have e7 : ∑ j, ‖wc c x j‖ / ‖z - x j‖ < ∑ _j : Fin n, (1 / n : ℝ) := by
    refine sum_lt_sum_of_nonempty ⟨i, mem_univ i⟩ fun j _ => ?_
    have hp : 0 < ‖z - x j‖ := norm_pos_iff.2 (hne j)
    have hn' : (0 : ℝ) < n := by exact_mod_cast Nat.pos_of_ne_zero hn
    rw [div_lt_div_iff₀ hp hn']
    have := hc j; linarith
  rw [sum_const, card_univ, Fintype.card_fin, nsmul_eq_mul, mul_one_div_cancel (by exact_mod_cast hn)] at e7
  linarith

/-- an analytic function with `φ a = 0` and `m < |φ|` on the circle takes every value of size `≤ m` inside -/
theorem takes {φ : ℂ → ℂ} {a : ℂ} {r m : ℝ} (hr : 0 < r) (hm : 0 ≤ m) (hφ : AnalyticOnNhd ℂ φ (Metric.closedBall a r)) (h0 : φ a = 0)
    (hb : ∀ z ∈ Metric.sphere a r, m < ‖φ z‖) {v : ℂ} (hv : ‖v‖ ≤ m) : ∃ z ∈ Metric.closedBall a r, φ z = v := by
  have hK : IsCompact (φ '' Metric.closedBall a r) := (isCompact_closedBall a r).image_of_continuousOn hφ.continuousOn
  have ha : a ∈ Metric.closedBall a r := Metric.mem_closedBall_self hr.le
  have hin : φ '' Metric.closedBall a r ∩ Metric.closedBall 0 m ⊆ interior (φ '' Metric.closedBall a r) := by
    rintro _ ⟨⟨z, hz, rfl⟩, hzm⟩
    rw [mem_closedBall_zero_iff] at hzm
    have hzb : z ∈ Metric.ball a r := by
      rw [Metric.mem_ball]
      refine lt_of_le_of_ne (Metric.mem_closedBall.1 hz) fun e => ?_
      exact absurd (hb z e) (not_lt.2 hzm)
    rw [mem_interior_iff_mem_nhds]
    rcases (hφ z hz).eventually_constant_or_nhds_le_map_nhds with hc | hc
    · exfalso
      have hE := hφ.eqOn_of_preconnected_of_eventuallyEq (g := fun _ => φ z) (fun _ _ => analyticAt_const)
        (convex_closedBall a r).isPreconnected hz hc
      have hs : a + r ∈ Metric.sphere a r := by
        rw [mem_sphere_iff_norm, add_sub_cancel_left, Complex.norm_real, Real.norm_of_nonneg hr.le]
      have e1 := hE ha
      have e2 := hE (Metric.sphere_subset_closedBall hs)
      have := hb _ hs
      rw [e2, ← e1, h0, norm_zero] at this
      linarith
    · refine hc (Filter.mem_map.2 (Filter.mem_of_superset (Metric.isOpen_ball.mem_nhds hzb) fun y hy => ?_))
      exact ⟨y, Metric.ball_subset_closedBall hy, rfl⟩
  have hsub : Metric.closedBall (0 : ℂ) m ⊆ interior (φ '' Metric.closedBall a r) := by
    refine (convex_closedBall (0 : ℂ) m).isPreconnected.subset_left_of_subset_union isOpen_interior hK.isClosed.isOpen_compl
      ?_ ?_ ?_
    · exact Disjoint.mono_left interior_subset disjoint_compl_right
    · intro y hy
      by_cases hyA : y ∈ φ '' Metric.closedBall a r
      · exact .inl (hin ⟨hyA, hy⟩)
      · exact .inr hyA
    · have : (0 : ℂ) ∈ Metric.closedBall (0 : ℂ) m := Metric.mem_closedBall_self hm
      exact ⟨0, this, hin ⟨⟨a, ha, h0⟩, this⟩⟩
  obtain ⟨z, hz, e⟩ := interior_subset (hsub (mem_closedBall_zero_iff.2 hv))
  exact ⟨z, hz, e⟩

/-- a disc which meets no other one contains a zero -/
theorem exists_zero (h : ∀ i, den c x i ≠ 0) (i : Fin n)
    (hd : ∀ z, ‖z - x i‖ ≤ n * ‖wc c x i‖ → ∀ j, j ≠ i → n * ‖wc c x j‖ < ‖z - x j‖) :
    ∃ z, pval c z = 0 ∧ ‖z - x i‖ ≤ n * ‖wc c x i‖ := by
  have hn : (0 : ℝ) < n := by exact_mod_cast i.pos
  by_cases hw : wc c x i = 0
  · refine ⟨x i, ?_, by rw [sub_self, norm_zero]; positivity⟩
    rw [wc, div_eq_zero_iff] at hw
    exact hw.resolve_right (h i)
  have hw' : 0 < ‖wc c x i‖ := norm_pos_iff.2 hw
  have hr : 0 < n * ‖wc c x i‖ := by positivity
  have hne : ∀ z, ‖z - x i‖ ≤ n * ‖wc c x i‖ → ∀ j, j ≠ i → z ≠ x j := fun z hz j hj e => by
    have := hd z hz j hj
    rw [e, sub_self, norm_zero] at this
    exact absurd this (not_lt.2 (by positivity))
  let φ : ℂ → ℂ := fun z => (z - x i) * (1 + ∑ j ∈ univ.erase i, wc c x j / (z - x j))
  suffices hz : ∃ z ∈ Metric.closedBall (x i) (n * ‖wc c x i‖), φ z = - wc c x i by
    obtain ⟨z, hz, e⟩ := hz
    rw [mem_closedBall_iff_norm] at hz
    refine ⟨z, ?_, hz⟩
    rw [local_form h i (hne z hz)]
    have : (z - x i) * (1 + ∑ j ∈ univ.erase i, wc c x j / (z - x j)) = - wc c x i := e
    rw [this]; ring
  by_cases h1 : n = 1
  · subst h1
    have he : (univ.erase i : Finset (Fin 1)) = ∅ := by
      ext j; simp [Subsingleton.elim j i]
    refine ⟨x i - wc c x i, ?_, ?_⟩
    · rw [mem_closedBall_iff_norm]; simp
    · simp only [φ, he, sum_empty]; ring
  refine takes hr (norm_nonneg (wc c x i)) ?_ (by simp [φ]) ?_ (by rw [norm_neg])
  · intro z hz
    rw [mem_closedBall_iff_norm] at hz
    refine (analyticAt_id.sub analyticAt_const).mul (analyticAt_const.add ?_)
    refine Finset.analyticAt_fun_sum _ fun j hj => ?_
    exact analyticAt_const.div (analyticAt_id.sub analyticAt_const) (sub_ne_zero.2 (hne z hz j (ne_of_mem_erase hj)))
  · intro z hz
    rw [mem_sphere_iff_norm] at hz
    have hz' := hz.le
    have hlt : ‖∑ j ∈ univ.erase i, wc c x j / (z - x j)‖ < ((n : ℝ) - 1) / n := by
      have hcard : #(univ.erase i) = n - 1 := by rw [card_erase_of_mem (mem_univ i), card_univ, Fintype.card_fin]
      have hpos : 1 ≤ n := i.pos
      have hne' : (univ.erase i).Nonempty := by
        rw [← card_pos, hcard]; omega
      calc _ ≤ ∑ j ∈ univ.erase i, ‖wc c x j / (z - x j)‖ := norm_sum_le _ _
        _ < ∑ _j ∈ univ.erase i, (1 / n : ℝ) := by
          refine sum_lt_sum_of_nonempty hne' fun j hj => ?_
          have hji := ne_of_mem_erase hj
          have hp : 0 < ‖z - x j‖ := norm_pos_iff.2 (sub_ne_zero.2 (hne z hz' j hji))
          rw [norm_div, div_lt_div_iff₀ hp hn]
          have := hd z hz' j hji; linarith
        _ = _ := by
          rw [sum_const, hcard, nsmul_eq_mul, Nat.cast_sub hpos]; push_cast; ring
    have hge : 1 / (n : ℝ) < ‖1 + ∑ j ∈ univ.erase i, wc c x j / (z - x j)‖ := by
      have := norm_sub_le_norm_add (1 : ℂ) (∑ j ∈ univ.erase i, wc c x j / (z - x j))
      rw [norm_one] at this
      have e : ((n : ℝ) - 1) / n = 1 - 1 / n := by field_simp
      linarith
    show ‖wc c x i‖ < ‖(z - x i) * (1 + ∑ j ∈ univ.erase i, wc c x j / (z - x j))‖
    rw [norm_mul, hz]
    calc ‖wc c x i‖ = n * ‖wc c x i‖ * (1 / n) := by field_simp
      _ < _ := mul_lt_mul_of_pos_left hge hr

/-- at most `n` points are zeros of a polynomial with a leading coefficient other than zero -/
theorem zeros_le (h : c (Fin.last n) ≠ 0) (s : Finset ℂ) (hs : ∀ z ∈ s, pval c z = 0) : #s ≤ n := by
  have h0 : poly c ≠ 0 := fun e => h (by
    have := congrArg (fun q => q.coeff n) e
    simp only [poly, finsetSum_coeff, coeff_C_mul, coeff_X_pow, coeff_zero] at this
    rw [Finset.sum_eq_single (Fin.last n)] at this
    · simpa using this
    · intro b _ hb
      have : (n : ℕ) ≠ b := fun e => hb (Fin.ext e.symm)
      simp [this]
    · simp)
  have hsub : s ⊆ (poly c).roots.toFinset := fun z hz => by
    rw [Multiset.mem_toFinset, mem_roots h0, IsRoot, eval_poly]; exact hs z hz
  refine (card_le_card hsub).trans ((Multiset.toFinset_card_le _).trans ((card_roots' _).trans ?_))
  rw [poly]
  refine natDegree_sum_le_of_forall_le _ _ fun k _ => ?_
  exact (natDegree_C_mul_X_pow_le _ _).trans (Nat.lt_succ_iff.1 k.2)

/-- pairwise disjoint sets which contain all discs each contain exactly one zero -/
theorem unique_zero (h : ∀ i, den c x i ≠ 0) (B : Fin n → Set ℂ) (hB : ∀ i z, ‖z - x i‖ ≤ n * ‖wc c x i‖ → z ∈ B i)
    (hd : ∀ i j, i ≠ j → Disjoint (B i) (B j)) (i : Fin n) : ∃! z, z ∈ B i ∧ pval c z = 0 := by
  classical
  have hz : ∀ i, ∃ z, pval c z = 0 ∧ ‖z - x i‖ ≤ n * ‖wc c x i‖ := fun i => exists_zero h i fun z hz j hj => by
    by_contra hc
    exact Set.disjoint_left.1 (hd i j (Ne.symm hj)) (hB i z hz) (hB j z (not_lt.1 hc))
  choose ζ h1 h2 using hz
  have hmem : ∀ i, ζ i ∈ B i := fun i => hB i _ (h2 i)
  have hinj : Function.Injective ζ := fun i j e => by
    by_contra hne
    exact Set.disjoint_left.1 (hd i j hne) (hmem i) (e ▸ hmem j)
  refine ⟨ζ i, ⟨hmem i, h1 i⟩, fun z hz => ?_⟩
  by_contra hne
  have hnot : z ∉ univ.image ζ := fun hm => by
    obtain ⟨j, -, e⟩ := Finset.mem_image.1 hm
    by_cases hij : i = j
    · subst hij; exact hne e.symm
    · exact Set.disjoint_left.1 (hd i j hij) hz.1 (e ▸ hmem j)
  have := zeros_le (left_ne_zero_of_mul (h i)) (insert z (univ.image ζ)) (fun y hy => by
    rcases Finset.mem_insert.1 hy with rfl | hy
    · exact hz.2
    · obtain ⟨j, -, rfl⟩ := Finset.mem_image.1 hy; exact h1 j)
  rw [card_insert_of_notMem hnot, card_image_of_injective _ hinj, card_univ, Fintype.card_fin] at this
  omega

end Kv.Smith
