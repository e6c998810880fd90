import Verif.Affine.Linear

/-! # Affine arithmetic: conversion, multiplication, common part of the nonlinear functions -/

namespace Kv
open RopSem Kv.Interval
open Rop (lit addUp addDown subUp subDown mulUp mulDown divUp divDown)

namespace AM
variable {α β : Type}

theorem bind_run {m : AM α} {k : α → AM β} {s s' : ℕ} {b : β} (h : (m >>= k) s = (.ok b, s')) :
    ∃ a s1, m s = (.ok a, s1) ∧ k a s1 = (.ok b, s') := by
  change (match m s with | (.ok a, m') => k a m' | (.error e, m') => (.error e, m')) = _ at h
  rcases hm : m s with ⟨r, s1⟩
  rw [hm] at h
  cases r with
  | ok a => exact ⟨a, s1, rfl, h⟩
  | error e => cases h

theorem lift_run {r : Res α} {s s' : ℕ} {a : α} (h : lift r s = (.ok a, s')) : r = .ok a ∧ s' = s := by
  unfold lift at h; cases h; exact ⟨rfl, rfl⟩
theorem pure_run {a b : α} {s s' : ℕ} (h : (pure a : AM α) s = (.ok b, s')) : b = a ∧ s' = s := by
  cases h; exact ⟨rfl, rfl⟩
theorem next_run {s s' : ℕ} {a} (h : next s = (.ok a, s')) : a = s + 1 ∧ s' = s + 1 := by
  cases h; exact ⟨rfl, rfl⟩
theorem get_run {s s' : ℕ} {a} (h : get s = (.ok a, s')) : a = s ∧ s' = s := by
  cases h; exact ⟨rfl, rfl⟩

end AM

namespace Affine
open AM
variable {ε : ℕ → ℝ} {x y r : Form} {u v t : ℝ} {m m' : ℕ}

/-! ## range of a form -/

theorem sumUp_hi {n : ℕ} {e : D} {f : ℕ → D} {s : ℝ} {g : ℕ → ℝ} (he : Hi e s) (h : ∀ i < n, Hi (f i) (g i)) :
    Hi (sumUp n e f) (s + ∑ i ∈ Finset.range n, g i) := by
  induction n with
  | zero => simpa [sumUp] using he
  | succ n ih =>
    rw [sumUp_succ, Finset.sum_range_succ, ← add_assoc]
    exact Hi.add (ih fun i hi => h i (by omega)) (h n (by omega))

/-- exact radius -/
noncomputable def exRad (x : Form) : ℝ := ∑ i ∈ Finset.range (size x - 1), |dbl (c x (i + 1))| + dbl x.er

theorem rad_hi (hf : x.Fin) : Hi (rad x) (exRad x) := by
  unfold rad exRad
  have h : ∀ i < size x - 1, Hi (Rop.abs (c x (i + 1))) |dbl (c x (i + 1))| := fun i _ => by
    have := Fin.c hf (i + 1)
    rw [hiD_iff (abs_finD.2 this), dbl_abs this]
  have := sumUp_hi (e := lit 0) (s := 0) hi_zero h
  rw [zero_add] at this
  exact Hi.add this ((hiD_iff (fin_iff.1 hf).2).2 le_rfl)

theorem rad_fin (h : FinD (rad x)) : (∀ i, i ≠ 0 → i < size x → FinD (c x i)) ∧ FinD x.er ∧ exRad x ≤ dbl (rad x) := by
  obtain ⟨h1, h2⟩ := addUp_fin h
  obtain ⟨-, h3, h4⟩ := sumUp_ge h1
  have h3' : ∀ i < size x - 1, FinD (c x (i + 1)) := fun i hi => abs_finD.1 (h3 i hi)
  refine ⟨fun i h0 hi => ?_, h2, ?_⟩
  · have := h3' (i - 1) (by omega)
    rwa [Nat.sub_add_cancel (by omega)] at this
  · have := addUp_ge h
    rw [dbl_zero, zero_add] at h4
    unfold exRad
    have e : ∑ i ∈ Finset.range (size x - 1), dbl (Rop.abs (c x (i + 1))) = ∑ i ∈ Finset.range (size x - 1), |dbl (c x (i + 1))| :=
      Finset.sum_congr rfl fun i hi => dbl_abs (h3' i (Finset.mem_range.1 hi))
    unfold rad
    linarith

/-- noise terms without the centre -/
noncomputable def tail (ε : ℕ → ℝ) (x : Form) : ℝ := ∑ i ∈ Finset.range (size x - 1), dbl (c x (i + 1)) * ε (i + 1)

theorem lin_tail (hε : Noise ε) (hs : size x ≠ 0) : x.lin ε = dbl (c x 0) + tail ε x := by
  obtain ⟨n, hn⟩ := Nat.exists_eq_succ_of_ne_zero hs
  unfold tail
  rw [lin_def, hn, Finset.sum_range_succ', hε.zero]
  simp [add_comm]

theorem abs_tail (hε : Noise ε) : |tail ε x| ≤ ∑ i ∈ Finset.range (size x - 1), |dbl (c x (i + 1))| := by
  refine (Finset.abs_sum_le_sum_abs _ _).trans (Finset.sum_le_sum fun i _ => ?_)
  rw [abs_mul]
  calc |dbl (c x (i + 1))| * |ε (i + 1)| ≤ |dbl (c x (i + 1))| * 1 := mul_le_mul_of_nonneg_left (hε.le _) (abs_nonneg _)
    _ = _ := mul_one _

theorem dev (hε : Noise ε) (hs : size x ≠ 0) (hx : x.Rep ε u) (hf : x.Fin) : |u - dbl (c x 0)| ≤ exRad x := by
  have h1 := hx hf
  have h2 := abs_tail (x := x) hε
  rw [lin_tail hε hs] at h1
  have e : u - dbl (c x 0) = (u - (dbl (c x 0) + tail ε x)) + tail ε x := by ring
  rw [e]
  have := abs_add_le (u - (dbl (c x 0) + tail ε x)) (tail ε x)
  unfold exRad
  linarith

theorem exRad_nonneg (hε : Noise ε) (hs : size x ≠ 0) (hx : x.Rep ε u) (hf : x.Fin) : 0 ≤ exRad x := (abs_nonneg _).trans (dev hε hs hx hf)

theorem toInterval_ok {I : Interval D} (h : toInterval x = .ok I) : size x ≠ 0 ∧ I = ⟨subDown (c x 0) (rad x), addUp (c x 0) (rad x)⟩ := by
  unfold toInterval at h
  split_ifs at h with hs
  cases h
  exact ⟨hs, rfl⟩

theorem toInterval_near {I : Interval D} (hf : x.Fin) (h : toInterval x = .ok I) (hu : |u - dbl (c x 0)| ≤ exRad x) : u ∈ I := by
  obtain ⟨hs, rfl⟩ := toInterval_ok h
  have hc := Fin.c hf 0
  rw [abs_le] at hu
  have h1 := rad_hi hf
  constructor
  · exact (Lo.sub ((loD_iff hc).2 le_rfl) h1).mono (by linarith)
  · exact (Hi.add ((hiD_iff hc).2 le_rfl) h1).mono (by linarith)

theorem toInterval_mem {I : Interval D} (hε : Noise ε) (hx : x.Rep ε u) (hf : x.Fin) (h : toInterval x = .ok I) : u ∈ I :=
  toInterval_near hf h (dev hε (toInterval_ok h).1 hx hf)

/-! ## new noise symbols -/

theorem rep_new {f : ℕ → D} {err : D} (he : f (m + 1) = err)
    (h : (∀ i < m + 1, FinD (f i)) → FinD err → |t - ∑ i ∈ Finset.range (m + 1), dbl (f i) * ε i| ≤ dbl err) :
    ∃ e, |e| ≤ 1 ∧ Form.Rep (Function.update ε (m + 1) e) ⟨vec (m + 2) f, lit 0⟩ t := by
  by_cases hf : Form.Fin ⟨vec (m + 2) f, lit 0⟩
  · obtain ⟨f1, -⟩ := fin_vec.1 hf
    obtain ⟨e, h1, h2⟩ := pick (h (fun i hi => f1 i (by omega)) (by rw [← he]; exact f1 _ (by omega)))
    refine ⟨e, h1, fun _ => ?_⟩
    rw [lin_vec, Finset.sum_range_succ, Function.update_self, he]
    have : ∑ i ∈ Finset.range (m + 1), dbl (f i) * Function.update ε (m + 1) e i = ∑ i ∈ Finset.range (m + 1), dbl (f i) * ε i :=
      Finset.sum_congr rfl fun i hi => by
        rw [Finset.mem_range] at hi
        rw [Function.update_of_ne (by omega)]
    rw [this, ← h2]
    dsimp only
    rw [dbl_zero]; simp
  · exact ⟨0, by simp, fun h' => absurd h' hf⟩

theorem ofInterval_rep (hε : Noise ε) {I : Interval D} (hv : v ∈ I) (h : ofInterval I m = (.ok r, m')) :
    m' = m + 1 ∧ size r = m + 2 ∧ ∃ e, |e| ≤ 1 ∧ r.Rep (Function.update ε (m + 1) e) v := by
  obtain ⟨a, s1, h1, h⟩ := bind_run h
  obtain ⟨rfl, rfl⟩ := next_run h1
  obtain ⟨rfl, rfl⟩ := pure_run h
  refine ⟨rfl, size_vec, rep_new rfl fun hf he => ?_⟩
  rw [if_neg (by omega), if_pos rfl] at he ⊢
  obtain ⟨h1, h2⟩ := subUp_fin he
  obtain ⟨h3, -⟩ := mulUp_fin h1
  obtain ⟨h4, -⟩ := addUp_fin h3
  have b1 := subUp_ge he
  have b2 := mulUp_ge h1
  have b3 := addUp_ge h3
  rw [dbl_half] at b2
  have e : ∑ i ∈ Finset.range (m + 1), dbl (if i = 0 then mulUp (addUp I.sup I.inf) (lit (1 / 2)) else if i = m + 1 then
      subUp (mulUp (addUp I.sup I.inf) (lit (1 / 2))) I.inf else lit 0) * ε i = dbl (mulUp (addUp I.sup I.inf) (lit (1 / 2))) := by
    rw [Finset.sum_range_succ', if_pos rfl, hε.zero, mul_one, Finset.sum_eq_zero, zero_add]
    intro i hi
    rw [Finset.mem_range] at hi
    rw [if_neg (by omega), if_neg (by omega), dbl_zero, zero_mul]
  rw [e]
  have l := (loD_iff h2).1 hv.1
  have u := (hiD_iff h4).1 hv.2
  rw [abs_le]
  constructor <;> linarith

/-! ## multiplication -/

theorem mul_rep (hε : Noise ε) (hx : x.Rep ε u) (hy : y.Rep ε v) (sx : size x ≤ m + 1) (sy : size y ≤ m + 1)
    (h : mul x y m = (.ok r, m')) :
    m' = m + 1 ∧ size r = m + 2 ∧ ∃ e, |e| ≤ 1 ∧ r.Rep (Function.update ε (m + 1) e) (u * v) := by
  obtain ⟨a, s1, h1, h⟩ := bind_run h
  obtain ⟨rfl, rfl⟩ := next_run h1
  dsimp only at h
  by_cases hs : size x = 0 ∨ size y = 0 ∨ m + 1 + 1 < size x ∨ m + 1 + 1 < size y
  · rw [if_pos hs] at h
    cases (lift_run h).1
  rw [if_neg hs] at h
  obtain ⟨rfl, rfl⟩ := pure_run h
  push Not at hs
  obtain ⟨xs0, ys0, -, -⟩ := hs
  refine ⟨rfl, size_vec, rep_new (if_pos rfl) fun hf he => ?_⟩
  set n := Max.max (size x) (size y) with hn
  set lo : ℕ → D := fun i => if size x > size y then
        if i < size y then addDown (mulDown (c y 0) (c x i)) (mulDown (c x 0) (c y i)) else mulDown (c y 0) (c x i)
      else
        if i < size x then addDown (mulDown (c y 0) (c x i)) (mulDown (c x 0) (c y i)) else mulDown (c x 0) (c y i) with hlo
  set hi : ℕ → D := fun i => if size x > size y then
        if i < size y then addUp (mulUp (c y 0) (c x i)) (mulUp (c x 0) (c y i)) else mulUp (c y 0) (c x i)
      else
        if i < size x then addUp (mulUp (c y 0) (c x i)) (mulUp (c x 0) (c y i)) else mulUp (c x 0) (c y i) with hhi
  -- finiteness of everything in the error
  obtain ⟨e1, e2⟩ := addUp_fin he
  obtain ⟨e3, e4⟩ := addUp_fin e1
  obtain ⟨e5, e6, e7⟩ := sumUp_ge e3
  obtain ⟨e8, e9⟩ := mulUp_fin e4
  obtain ⟨e10, e11⟩ := addUp_fin e2
  obtain ⟨e12, e13⟩ := mulUp_fin e10
  obtain ⟨e14, e15⟩ := mulUp_fin e11
  have x0 := abs_finD.1 e14
  have y0 := abs_finD.1 e12
  obtain ⟨rx1, -, rx3⟩ := rad_fin e8
  obtain ⟨ry1, -, ry3⟩ := rad_fin e9
  have fx : x.Fin := fin_iff.2 ⟨fun i hi => by
    by_cases h0 : i = 0
    · rw [h0]; exact x0
    · exact rx1 i h0 hi, e13⟩
  have fy : y.Fin := fin_iff.2 ⟨fun i hi => by
    by_cases h0 : i = 0
    · rw [h0]; exact y0
    · exact ry1 i h0 hi, e15⟩
  have b1 := addUp_ge he
  have b2 := addUp_ge e1
  have b3 := mulUp_ge e4
  have b4 := addUp_ge e2
  have b5 := mulUp_ge e10
  have b6 := mulUp_ge e11
  rw [dbl_abs y0] at b5
  rw [dbl_abs x0] at b6
  obtain ⟨c1, c2⟩ := mul_pair e5
  -- coefficients
  have hc : ∀ i < n - 1, dbl (lo (i + 1)) ≤ dbl (c y 0) * dbl (c x (i + 1)) + dbl (c x 0) * dbl (c y (i + 1)) ∧
      dbl (c y 0) * dbl (c x (i + 1)) + dbl (c x 0) * dbl (c y (i + 1)) - dbl (lo (i + 1)) ≤ dbl (subUp (hi (i + 1)) (lo (i + 1))) := by
    intro i hi'
    have h6 := e6 i hi'
    refine pair h6 ?_ ?_
    · rw [hlo]; dsimp only
      split_ifs with h1 h2 h2
      · intro h
        obtain ⟨k1, k2⟩ := addDown_fin h
        have := addDown_le h
        have := mulDown_le k1
        have := mulDown_le k2
        linarith
      · intro h
        rw [c_ge (not_lt.1 h2), dbl_zero, mul_zero, add_zero]
        exact mulDown_le h
      · intro h
        obtain ⟨k1, k2⟩ := addDown_fin h
        have := addDown_le h
        have := mulDown_le k1
        have := mulDown_le k2
        linarith
      · intro h
        rw [c_ge (not_lt.1 h2), dbl_zero, mul_zero, zero_add]
        exact mulDown_le h
    · rw [hhi]; dsimp only
      split_ifs with h1 h2 h2
      · intro h
        obtain ⟨k1, k2⟩ := addUp_fin h
        have := addUp_ge h
        have := mulUp_ge k1
        have := mulUp_ge k2
        linarith
      · intro h
        rw [c_ge (not_lt.1 h2), dbl_zero, mul_zero, add_zero]
        exact mulUp_ge h
      · intro h
        obtain ⟨k1, k2⟩ := addUp_fin h
        have := addUp_ge h
        have := mulUp_ge k1
        have := mulUp_ge k2
        linarith
      · intro h
        rw [c_ge (not_lt.1 h2), dbl_zero, mul_zero, zero_add]
        exact mulUp_ge h
  have hn0 : n ≠ 0 := by omega
  have hnm : n ≤ m + 1 := by omega
  -- the linear part of the result
  have hl : ∀ R : ℕ → D, (∀ i, i < m + 1 → R i = if i = m + 1 then lit 0 else if i = 0 then mulDown (c x 0) (c y 0) else if i < n then lo i else lit 0) →
      ∑ i ∈ Finset.range (m + 1), dbl (R i) * ε i = dbl (mulDown (c x 0) (c y 0)) + ∑ i ∈ Finset.range (n - 1), dbl (lo (i + 1)) * ε (i + 1) := by
    intro R hR
    rw [Finset.sum_range_succ', hε.zero, hR 0 (by omega), if_neg (by omega), if_pos rfl, mul_one, add_comm]
    congr 1
    symm
    rw [← Finset.sum_subset (Finset.range_subset_range.2 (by omega : n - 1 ≤ m))]
    · refine Finset.sum_congr rfl fun i hi' => ?_
      rw [Finset.mem_range] at hi'
      rw [hR (i + 1) (by omega), if_neg (by omega), if_neg (by omega), if_pos (by omega)]
    · intro i hi1 hi2
      rw [Finset.mem_range] at hi1 hi2
      rw [hR (i + 1) (by omega), if_neg (by omega), if_neg (by omega), if_neg (by omega), dbl_zero, zero_mul]
  rw [hl _ (fun i hi' => by rw [if_neg (show ¬ i = m + 1 by omega), if_neg (show ¬ i = m + 1 by omega)])]
  -- tails
  have tx : tail ε x = ∑ i ∈ Finset.range (n - 1), dbl (c x (i + 1)) * ε (i + 1) := by
    refine Finset.sum_subset (Finset.range_subset_range.2 (by omega)) fun i _ hi' => ?_
    rw [Finset.mem_range, not_lt] at hi'
    rw [c_ge (by omega), dbl_zero, zero_mul]
  have ty : tail ε y = ∑ i ∈ Finset.range (n - 1), dbl (c y (i + 1)) * ε (i + 1) := by
    refine Finset.sum_subset (Finset.range_subset_range.2 (by omega)) fun i _ hi' => ?_
    rw [Finset.mem_range, not_lt] at hi'
    rw [c_ge (by omega), dbl_zero, zero_mul]
  have hsum : |dbl (c y 0) * tail ε x + dbl (c x 0) * tail ε y - ∑ i ∈ Finset.range (n - 1), dbl (lo (i + 1)) * ε (i + 1)| ≤
      ∑ i ∈ Finset.range (n - 1), dbl (subUp (hi (i + 1)) (lo (i + 1))) := by
    rw [tx, ty, Finset.mul_sum, Finset.mul_sum, ← Finset.sum_add_distrib, ← Finset.sum_sub_distrib]
    refine (Finset.abs_sum_le_sum_abs _ _).trans (Finset.sum_le_sum fun i hi' => ?_)
    obtain ⟨k1, k2⟩ := hc i (Finset.mem_range.1 hi')
    have e : dbl (c y 0) * (dbl (c x (i + 1)) * ε (i + 1)) + dbl (c x 0) * (dbl (c y (i + 1)) * ε (i + 1)) - dbl (lo (i + 1)) * ε (i + 1) =
      (dbl (c y 0) * dbl (c x (i + 1)) + dbl (c x 0) * dbl (c y (i + 1)) - dbl (lo (i + 1))) * ε (i + 1) := by ring
    rw [e, abs_mul, abs_of_nonneg (by linarith : (0:ℝ) ≤ dbl (c y 0) * dbl (c x (i + 1)) + dbl (c x 0) * dbl (c y (i + 1)) - dbl (lo (i + 1)))]
    exact (mul_le_of_le_one_right (by linarith) (hε.le _)).trans k2
  have dx := dev hε xs0 hx fx
  have dy := dev hε ys0 hy fy
  have qx := hx fx
  have qy := hy fy
  rw [lin_tail hε xs0] at qx
  rw [lin_tail hε ys0] at qy
  have rx0 := (abs_nonneg _).trans dx
  have hprod : |(u - dbl (c x 0)) * (v - dbl (c y 0))| ≤ dbl (rad x) * dbl (rad y) := by
    rw [abs_mul]
    exact mul_le_mul (dx.trans rx3) (dy.trans ry3) (abs_nonneg _) (rx0.trans rx3)
  have hxe : |dbl (c y 0) * (u - (dbl (c x 0) + tail ε x))| ≤ |dbl (c y 0)| * dbl x.er := by
    rw [abs_mul]; exact mul_le_mul_of_nonneg_left qx (abs_nonneg _)
  have hye : |dbl (c x 0) * (v - (dbl (c y 0) + tail ε y))| ≤ |dbl (c x 0)| * dbl y.er := by
    rw [abs_mul]; exact mul_le_mul_of_nonneg_left qy (abs_nonneg _)
  have e : u * v - (dbl (mulDown (c x 0) (c y 0)) + ∑ i ∈ Finset.range (n - 1), dbl (lo (i + 1)) * ε (i + 1)) =
      (dbl (c x 0) * dbl (c y 0) - dbl (mulDown (c x 0) (c y 0))) +
      (dbl (c y 0) * tail ε x + dbl (c x 0) * tail ε y - ∑ i ∈ Finset.range (n - 1), dbl (lo (i + 1)) * ε (i + 1)) +
      (u - dbl (c x 0)) * (v - dbl (c y 0)) + dbl (c y 0) * (u - (dbl (c x 0) + tail ε x)) +
      dbl (c x 0) * (v - (dbl (c y 0) + tail ε y)) := by ring
  rw [e]
  rw [abs_le] at hsum hprod hxe hye ⊢
  constructor <;> linarith [hsum.1, hsum.2, hprod.1, hprod.2, hxe.1, hxe.2, hye.1, hye.2]

/-! ## the common part of the nonlinear functions -/

/-- if `f(u) - a u` is in `range` then the form represents `f(u)` -/
theorem linear_rep (hε : Noise ε) (hx : x.Rep ε u) (sx : size x ≤ m + 1) {a : D} {range : Interval D} {w : ℝ}
    (hw : x.Fin → FinD a → FinD range.inf → FinD range.sup → w - dbl a * u ∈ range) (h : linear (m + 1) x a range = .ok r) :
    size r = m + 2 ∧ ∃ e, |e| ≤ 1 ∧ r.Rep (Function.update ε (m + 1) e) w := by
  unfold linear at h
  split_ifs at h with hs
  cases h
  push Not at hs
  refine ⟨size_vec, rep_new (if_pos rfl) fun hf he => ?_⟩
  obtain ⟨e1, e2⟩ := addUp_fin he
  obtain ⟨e3, e4⟩ := addUp_fin e1
  obtain ⟨e5, e6, e7⟩ := sumUp_ge e3
  obtain ⟨e8, e9⟩ := subUp_fin e5
  obtain ⟨e10, -⟩ := mulUp_fin e8
  obtain ⟨e11, -⟩ := addUp_fin e10
  obtain ⟨e12, e13⟩ := mulUp_fin e2
  obtain ⟨e14, e15⟩ := subUp_fin e4
  obtain ⟨e16, -⟩ := mulUp_fin e14
  obtain ⟨e17, e18⟩ := addUp_fin e16
  obtain ⟨e19, -⟩ := addDown_fin e17
  obtain ⟨e20, -⟩ := addUp_fin e18
  obtain ⟨x0, fa⟩ := mulDown_fin e19
  have fx : x.Fin := fin_iff.2 ⟨fun i hi => by
    by_cases h0 : i = 0
    · rw [h0]; exact x0
    · have := e6 (i - 1) (by omega)
      rw [Nat.sub_add_cancel (by omega)] at this
      exact (mulUp_fin (subUp_fin this).1).1, e13⟩
  have b1 := addUp_ge he
  have b2 := addUp_ge e1
  have b3 := subUp_ge e5
  have b4 := mulUp_ge e8
  have b5 := addUp_ge e10
  have b6 := mulUp_ge e2
  have b7 := subUp_ge e4
  have b8 := mulUp_ge e14
  have b9 := addUp_ge e16
  have b10 := addDown_le e17
  have b11 := addUp_ge e18
  have b12 := mulDown_le e19
  have b13 := mulUp_ge e20
  rw [dbl_half] at b4 b8
  rw [dbl_abs fa] at b6
  have hr := hw fx fa e9 e11
  have r1 := (loD_iff e9).1 hr.1
  have r2 := (hiD_iff e11).1 hr.2
  set b := mulUp (addUp range.sup range.inf) (lit (1 / 2)) with hb
  set l := addDown (mulDown (c x 0) a) b with hl
  set uu := addUp (mulUp (c x 0) a) b with huu
  set r0 := mulUp (addUp l uu) (lit (1 / 2)) with hr0
  have hsum : |dbl a * tail ε x - ∑ i ∈ Finset.range (size x - 1), dbl (mulDown (c x (i + 1)) a) * ε (i + 1)| ≤
      ∑ i ∈ Finset.range (size x - 1), dbl (subUp (mulUp (c x (i + 1)) a) (mulDown (c x (i + 1)) a)) := by
    unfold tail
    rw [Finset.mul_sum, ← Finset.sum_sub_distrib]
    refine (Finset.abs_sum_le_sum_abs _ _).trans (Finset.sum_le_sum fun i hi' => ?_)
    obtain ⟨k1, k2⟩ := mul_pair (e6 i (Finset.mem_range.1 hi'))
    have e : dbl a * (dbl (c x (i + 1)) * ε (i + 1)) - dbl (mulDown (c x (i + 1)) a) * ε (i + 1) =
      (dbl (c x (i + 1)) * dbl a - dbl (mulDown (c x (i + 1)) a)) * ε (i + 1) := by ring
    rw [e, abs_mul, abs_of_nonneg (by linarith : (0:ℝ) ≤ dbl (c x (i + 1)) * dbl a - dbl (mulDown (c x (i + 1)) a))]
    exact (mul_le_of_le_one_right (by linarith) (hε.le _)).trans k2
  have hl : ∀ R : ℕ → D, (∀ i, i < m + 1 → R i = if i = 0 then r0 else if i < size x then mulDown (c x i) a else lit 0) →
      ∑ i ∈ Finset.range (m + 1), dbl (R i) * ε i = dbl r0 + ∑ i ∈ Finset.range (size x - 1), dbl (mulDown (c x (i + 1)) a) * ε (i + 1) := by
    intro R hR
    rw [Finset.sum_range_succ', hε.zero, hR 0 (by omega), if_pos rfl, mul_one, add_comm]
    congr 1
    symm
    rw [← Finset.sum_subset (Finset.range_subset_range.2 (by omega : size x - 1 ≤ m))]
    · refine Finset.sum_congr rfl fun i hi' => ?_
      rw [Finset.mem_range] at hi'
      rw [hR (i + 1) (by omega), if_neg (by omega), if_pos (by omega)]
    · intro i hi1 hi2
      rw [Finset.mem_range] at hi1 hi2
      rw [hR (i + 1) (by omega), if_neg (by omega), if_neg (by omega), dbl_zero, zero_mul]
  rw [hl _ (fun i hi' => by rw [if_neg (by omega)])]
  have qx := hx fx
  rw [lin_tail hε hs.1] at qx
  have hxe : |dbl a * (u - (dbl (c x 0) + tail ε x))| ≤ |dbl a| * dbl x.er := by
    rw [abs_mul]; exact mul_le_mul_of_nonneg_left qx (abs_nonneg _)
  have e : w - (dbl r0 + ∑ i ∈ Finset.range (size x - 1), dbl (mulDown (c x (i + 1)) a) * ε (i + 1)) =
      (w - dbl a * u) - dbl b + (dbl (c x 0) * dbl a + dbl b - dbl r0) +
      (dbl a * tail ε x - ∑ i ∈ Finset.range (size x - 1), dbl (mulDown (c x (i + 1)) a) * ε (i + 1)) +
      dbl a * (u - (dbl (c x 0) + tail ε x)) := by ring
  rw [e]
  rw [abs_le] at hsum hxe ⊢
  constructor <;> linarith [hsum.1, hsum.2, hxe.1, hxe.2]

theorem inf_cases {I : Interval D} (hu : u ∈ I) : I.inf = dNinf ∨ FinD I.inf := by
  rcases D_cases I.inf with e | e | e | e
  · exact absurd (by rw [e]; exact nan_dNaN) hu.1.1
  · exact absurd (by rw [e]; exact val_dPinf) hu.1.ne_top
  · exact .inl e
  · exact .inr e
theorem sup_cases {I : Interval D} (hu : u ∈ I) : I.sup = dPinf ∨ FinD I.sup := by
  rcases D_cases I.sup with e | e | e | e
  · exact absurd (by rw [e]; exact nan_dNaN) hu.2.1
  · exact .inl e
  · exact absurd (by rw [e]; exact val_dNinf) hu.2.ne_bot
  · exact .inr e

/-- scheme of the functions given by slope and range -/
theorem unary_rep (hε : Noise ε) (hx : x.Rep ε u) (sx : size x ≤ m + 1) {f : Interval D → Res (D × Interval D)} {w : ℝ}
    (hw : ∀ {I a R}, u ∈ I → (I.inf = dNinf ∨ FinD I.inf) → (I.sup = dPinf ∨ FinD I.sup) → f I = .ok (a, R) → FinD a →
      FinD R.inf → FinD R.sup → w - dbl a * u ∈ R)
    (h : unary f x m = (.ok r, m')) :
    m' = m + 1 ∧ size r = m + 2 ∧ ∃ e, |e| ≤ 1 ∧ r.Rep (Function.update ε (m + 1) e) w := by
  obtain ⟨a, s1, h1, h⟩ := bind_run h
  obtain ⟨rfl, rfl⟩ := next_run h1
  obtain ⟨I, s2, h2, h⟩ := bind_run h
  obtain ⟨k2, rfl⟩ := lift_run h2
  obtain ⟨p, s3, h3, h⟩ := bind_run h
  obtain ⟨k3, rfl⟩ := lift_run h3
  obtain ⟨k, rfl⟩ := lift_run h
  refine ⟨rfl, linear_rep hε hx sx (fun fx fa f1 f2 => ?_) k⟩
  have hu := toInterval_mem hε hx fx k2
  exact hw hu (inf_cases hu) (sup_cases hu) k3 fa f1 f2

end Affine
end Kv
