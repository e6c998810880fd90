import Mathlib.Analysis.Calculus.Deriv.MeanValue
import Mathlib.Analysis.Calculus.Deriv.Mul
import Mathlib.Analysis.Calculus.Deriv.Pow
import Mathlib.Analysis.Calculus.Deriv.Prod
import Mathlib.Analysis.Calculus.IteratedDeriv.Lemmas
import Mathlib.MeasureTheory.Integral.IntervalIntegral.FundThmCalculus
import Mathlib.Tactic.NormNum.BigOperators
import Mathlib.Tactic.IntervalCases

/-! # The error of the closed Newton-Cotes formulas with 1, 2, 4 and 6 panels

The functions `γ k` are an odd function `γ 0` and its derivatives; `γ 1` is the symmetrised integrand around the centre. -/

namespace Kv.NC
open Finset

variable {γ : ℕ → ℝ → ℝ} {T : ℝ} {d : ℕ}

theorem nonneg_of_deriv {φ φ' : ℝ → ℝ} (h : ∀ x ∈ Set.Icc 0 T, HasDerivAt φ (φ' x) x) (h' : ∀ x ∈ Set.Icc 0 T, 0 ≤ φ' x) (h0 : 0 ≤ φ 0) :
    ∀ x ∈ Set.Icc 0 T, 0 ≤ φ x := by
  intro x hx
  have hm : MonotoneOn φ (Set.Icc 0 T) := monotoneOn_of_deriv_nonneg (convex_Icc _ _)
    (fun y hy => (h y hy).continuousAt.continuousWithinAt)
    (fun y hy => (h y (interior_subset hy)).differentiableAt.differentiableWithinAt)
    (fun y hy => by rw [(h y (interior_subset hy)).deriv]; exact h' y (interior_subset hy))
  exact h0.trans (hm ⟨le_rfl, hx.1.trans hx.2⟩ hx hx.1)

/-- `u` grows at most as fast as its derivative at the right end -/
theorem le_right {u v : ℝ → ℝ} {a b : ℝ} (hab : a ≤ b) (h : ∀ x ∈ Set.Icc a b, HasDerivAt u (v x) x) (hv : ∀ x ∈ Set.Icc a b, v x ≤ v b) :
    u b - u a ≤ (b - a) * v b := by
  have := (convex_Icc a b).image_sub_le_mul_sub_of_deriv_le (f := u) (C := v b)
    (fun y hy => (h y hy).continuousAt.continuousWithinAt)
    (fun y hy => (h y (interior_subset hy)).differentiableAt.differentiableWithinAt)
    (fun y hy => by rw [(h y (interior_subset hy)).deriv]; exact hv y (interior_subset hy)) a ⟨le_rfl, hab⟩ b ⟨hab, le_rfl⟩ hab
  linarith

structure Jet (γ : ℕ → ℝ → ℝ) (T : ℝ) (d : ℕ) : Prop where
  der : ∀ k ≤ d, ∀ x ∈ Set.Icc 0 T, HasDerivAt (γ k) (γ (k + 1) x) x
  zero : ∀ k ≤ d, Even k → γ k 0 = 0

theorem Jet.nonneg (h : Jet γ T d) (hd : Even d) (hp : ∀ x ∈ Set.Icc 0 T, 0 ≤ γ (d + 1) x) : ∀ x ∈ Set.Icc 0 T, 0 ≤ γ d x :=
  nonneg_of_deriv (h.der d le_rfl) hp (h.zero d le_rfl hd).ge

/-- the rule with the weights `w` minus the integral, and its derivatives by the step -/
def E (γ : ℕ → ℝ → ℝ) (N : ℕ) (w : ℕ → ℝ) (k : ℕ) (s : ℝ) : ℝ :=
  ∑ j ∈ range (N + 1), w j * (s * (j : ℝ) ^ k * γ (k + 1) (j * s) + k * (j : ℝ) ^ (k - 1) * γ k (j * s)) - 2 * (N : ℝ) ^ k * γ k (N * s)

theorem E_deriv {N : ℕ} {w : ℕ → ℝ} {t : ℝ} (h : Jet γ T d) (hT : N * t ≤ T) {k : ℕ} (hk : k + 1 ≤ d) {s : ℝ} (hs : s ∈ Set.Icc 0 t) :
    HasDerivAt (E γ N w k) (E γ N w (k + 1) s) s := by
  have hm : ∀ j ≤ N, (j : ℝ) * s ∈ Set.Icc 0 T := fun j hj => by
    refine ⟨by have := hs.1; positivity, le_trans ?_ hT⟩
    exact mul_le_mul (by exact_mod_cast hj) hs.2 hs.1 (by positivity)
  have hlin : ∀ j : ℕ, HasDerivAt (fun s : ℝ => (j : ℝ) * s) j s := fun j => by simpa using (hasDerivAt_id s).const_mul (j : ℝ)
  have hc : ∀ j ≤ N, ∀ i ≤ d, HasDerivAt (fun s => γ i (j * s)) (γ (i + 1) (j * s) * j) s := fun j hj i hi =>
    (h.der i hi _ (hm j hj)).comp s (hlin j)
  unfold E
  refine HasDerivAt.sub (HasDerivAt.fun_sum fun j hj => ?_) ?_
  · have hj' : j ≤ N := Nat.lt_succ_iff.1 (mem_range.1 hj)
    have h1 := ((((hasDerivAt_id s).mul_const ((j : ℝ) ^ k)).fun_mul (hc j hj' (k + 1) hk)).fun_add
      ((hc j hj' k (by omega)).const_mul (k * (j : ℝ) ^ (k - 1)))).const_mul (w j)
    refine h1.congr_deriv ?_
    have e : (k : ℝ) * (j : ℝ) ^ (k - 1) * j = k * (j : ℝ) ^ k := by
      cases k with
      | zero => simp
      | succ k => simp [pow_succ]; ring
    simp only [id]
    push_cast
    linear_combination (w j * γ (k + 1) (j * s)) * e
  · refine ((hc N le_rfl k (by omega)).const_mul (2 * (N : ℝ) ^ k)).congr_deriv ?_
    rw [pow_succ]; ring

theorem E_zero {N : ℕ} {w : ℕ → ℝ} (h : Jet γ T d) {k : ℕ} (hk : k ≤ d)
    (hw : Odd k → ∑ j ∈ range (N + 1), w j * (k * (j : ℝ) ^ (k - 1)) = 2 * (N : ℝ) ^ k) : E γ N w k 0 = 0 := by
  unfold E
  simp only [mul_zero, zero_mul, zero_add]
  rcases Nat.even_or_odd k with he | ho
  · rw [h.zero k hk he]; simp
  · simp only [← mul_assoc]
    rw [← Finset.sum_mul]
    have := hw ho
    simp only [← mul_assoc] at this
    rw [this]; ring

/-- the chain of derivatives -/
theorem E_nonneg {N : ℕ} {w : ℕ → ℝ} {t : ℝ} (h : Jet γ T d) (hT : N * t ≤ T) {L : ℕ} (hL : L ≤ d)
    (hw : ∀ k < L, Odd k → ∑ j ∈ range (N + 1), w j * (k * (j : ℝ) ^ (k - 1)) = 2 * (N : ℝ) ^ k)
    (hp : ∀ s ∈ Set.Icc 0 t, 0 ≤ E γ N w L s) : ∀ s ∈ Set.Icc 0 t, 0 ≤ E γ N w 0 s := by
  suffices ∀ i ≤ L, ∀ s ∈ Set.Icc 0 t, 0 ≤ E γ N w (L - i) s by simpa using this L le_rfl
  intro i
  induction i with
  | zero => intro _; simpa using hp
  | succ i ih =>
    intro hi
    have := ih (by omega)
    refine nonneg_of_deriv (fun x hx => E_deriv h hT (by omega) hx) (fun x hx => ?_) (E_zero h (by omega) (hw _ (by omega))).ge
    rw [show L - (i + 1) + 1 = L - i by omega]; exact this x hx

/-! ## the four rules -/

/-- weights of the nodes at distance `j` from the centre, both sides together; the step of the first rule is halved -/
noncomputable def w1 : ℕ → ℝ := fun j => if j = 1 then 2 else 0
noncomputable def w2 : ℕ → ℝ := fun j => if j = 0 then 4 / 3 else 2 / 3
noncomputable def w4 : ℕ → ℝ := fun j => if j = 0 then 8 / 15 else if j = 1 then 128 / 45 else 28 / 45
noncomputable def w6 : ℕ → ℝ := fun j => if j = 0 then 68 / 35 else if j = 1 then 27 / 70 else if j = 2 then 108 / 35 else 41 / 70

theorem pos1 {t : ℝ} (h : Jet γ T 2) (hT : (1 : ℕ) * t ≤ T) (hp : ∀ x ∈ Set.Icc 0 T, 0 ≤ γ 3 x) : ∀ s ∈ Set.Icc 0 t, 0 ≤ E γ 1 w1 0 s := by
  have h2 := h.nonneg (by decide) hp
  refine E_nonneg h hT (L := 1) (by norm_num) (fun k hk ho => absurd ho (by interval_cases k; decide)) fun s hs => ?_
  have hm : s ∈ Set.Icc 0 T := ⟨hs.1, hs.2.trans (by simpa using hT)⟩
  have := mul_nonneg hs.1 (h2 s hm)
  simp [E, w1]
  linarith

theorem pos2 {t : ℝ} (h : Jet γ T 4) (hT : (1 : ℕ) * t ≤ T) (hp : ∀ x ∈ Set.Icc 0 T, 0 ≤ γ 5 x) : ∀ s ∈ Set.Icc 0 t, 0 ≤ E γ 1 w2 0 s := by
  have h2 := h.nonneg (by decide) hp
  refine E_nonneg h hT (L := 3) (by norm_num) (fun k hk ho => ?_) fun s hs => ?_
  · interval_cases k
    · exact absurd ho (by decide)
    · simp [w2, Finset.sum_range_succ]; norm_num
    · exact absurd ho (by decide)
  have hm : s ∈ Set.Icc 0 T := ⟨hs.1, hs.2.trans (by simpa using hT)⟩
  have := mul_nonneg hs.1 (h2 s hm)
  simp [E, w2, Finset.sum_range_succ]
  linarith

theorem mono_of {h : Jet γ T d} {k : ℕ} (hk : k ≤ d) (hp : ∀ x ∈ Set.Icc 0 T, 0 ≤ γ (k + 1) x) : MonotoneOn (γ k) (Set.Icc 0 T) :=
  monotoneOn_of_deriv_nonneg (convex_Icc _ _)
    (fun y hy => (h.der k hk y hy).continuousAt.continuousWithinAt)
    (fun y hy => (h.der k hk y (interior_subset hy)).differentiableAt.differentiableWithinAt)
    (fun y hy => by rw [(h.der k hk y (interior_subset hy)).deriv]; exact hp y (interior_subset hy))

theorem pos4 {t : ℝ} (h : Jet γ T 6) (hT : (2 : ℕ) * t ≤ T) (hp : ∀ x ∈ Set.Icc 0 T, 0 ≤ γ 7 x) : ∀ s ∈ Set.Icc 0 t, 0 ≤ E γ 2 w4 0 s := by
  have h6 := h.nonneg (by decide) hp
  have hmono := mono_of (h := h) (k := 6) le_rfl hp
  refine E_nonneg h hT (L := 5) (by norm_num) (fun k hk ho => ?_) fun s hs => ?_
  · interval_cases k <;> first | exact absurd ho (by decide) | (simp [w4, Finset.sum_range_succ]; norm_num)
  push_cast at hT
  have hm : ∀ x, x ∈ Set.Icc 0 (2 * s) → x ∈ Set.Icc 0 T := fun x hx => ⟨hx.1, hx.2.trans (by linarith [hs.2])⟩
  have s0 := hs.1
  have h1 := mul_nonneg s0 (h6 (2 * s) (hm _ ⟨by linarith, le_rfl⟩))
  have h2 := mul_nonneg s0 (h6 s (hm _ ⟨s0, by linarith⟩))
  have h3 := le_right (a := s) (b := 2 * s) (by linarith) (fun x hx => h.der 5 (by norm_num) x (hm x ⟨s0.trans hx.1, hx.2⟩))
    (fun x hx => hmono (hm x ⟨s0.trans hx.1, hx.2⟩) (hm _ ⟨by linarith, le_rfl⟩) hx.2)
  norm_num [E, w4, Finset.sum_range_succ]
  norm_num at h3
  linarith

/-- the trapezoidal rule overestimates the integral of a convex function -/
theorem trapez {a b : ℝ} (h : Jet γ T d) {k : ℕ} (hk : k + 2 ≤ d) (ha : 0 ≤ a) (hab : a ≤ b) (hb : b ≤ T)
    (hp : MonotoneOn (γ (k + 2)) (Set.Icc 0 T)) : γ k b - γ k a ≤ (b - a) / 2 * (γ (k + 1) a + γ (k + 1) b) := by
  have hm : ∀ x ∈ Set.Icc 0 (b - a), a + x ∈ Set.Icc 0 T := fun x hx => ⟨by linarith [hx.1], by linarith [hx.2]⟩
  have hsh : ∀ i ≤ d, ∀ x ∈ Set.Icc 0 (b - a), HasDerivAt (fun x => γ i (a + x)) (γ (i + 1) (a + x)) x := fun i hi x hx => by
    have := (h.der i hi _ (hm x hx)).comp x ((hasDerivAt_id x).const_add a)
    rw [mul_one] at this
    exact this
  have := nonneg_of_deriv (T := b - a) (φ := fun x => x / 2 * (γ (k + 1) a + γ (k + 1) (a + x)) - (γ k (a + x) - γ k a))
    (φ' := fun x => 1 / 2 * (γ (k + 1) a + γ (k + 1) (a + x)) + x / 2 * γ (k + 2) (a + x) - γ (k + 1) (a + x)) (fun x hx => by
      have h1 := (((hasDerivAt_id x).div_const 2).fun_mul ((hsh (k + 1) (by omega) x hx).const_add (γ (k + 1) a))).fun_sub
        ((hsh k (by omega) x hx).sub_const (γ k a))
      simpa using h1) (fun x hx => by
      have := le_right (u := γ (k + 1)) (v := γ (k + 2)) (a := a) (b := a + x) (by linarith [hx.1])
        (fun y hy => h.der (k + 1) (by omega) y ⟨ha.trans hy.1, hy.2.trans (hm x hx).2⟩)
        (fun y hy => hp ⟨ha.trans hy.1, hy.2.trans (hm x hx).2⟩ (hm x hx) hy.2)
      have e : a + x - a = x := by ring
      rw [e] at this
      linarith) (by simp) (b - a) ⟨by linarith, le_rfl⟩
  simp only [add_sub_cancel] at this
  linarith

theorem pos6 {t : ℝ} (h : Jet γ T 8) (hT : (3 : ℕ) * t ≤ T) (hp : ∀ x ∈ Set.Icc 0 T, 0 ≤ γ 9 x) : ∀ s ∈ Set.Icc 0 t, 0 ≤ E γ 3 w6 0 s := by
  have h8 := h.nonneg (by decide) hp
  have hm8 := mono_of (h := h) (k := 8) le_rfl hp
  have hm7 := mono_of (h := h) (k := 7) (by norm_num) h8
  refine E_nonneg h hT (L := 6) (by norm_num) (fun k hk ho => ?_) fun s hs => ?_
  · interval_cases k <;> first | exact absurd ho (by decide) | (simp [w6, Finset.sum_range_succ]; norm_num)
  push_cast at hT
  have s0 := hs.1
  have s3 : 3 * s ≤ T := by linarith [hs.2]
  have t1 := trapez h (k := 6) (by norm_num) le_rfl s0 (by linarith) hm8
  have t2 := trapez h (k := 6) (by norm_num) s0 (by linarith : s ≤ 2 * s) (by linarith) hm8
  have t3 := trapez h (k := 6) (by norm_num) (by linarith) (by linarith : 2 * s ≤ 3 * s) (by linarith) hm8
  have z := h.zero 6 (by norm_num) (by decide)
  have m0 := mul_nonneg s0 (sub_nonneg.2 (hm7 ⟨le_rfl, by linarith⟩ ⟨by linarith, s3⟩ (by linarith : (0 : ℝ) ≤ 3 * s)))
  have m1 := mul_nonneg s0 (sub_nonneg.2 (hm7 ⟨s0, by linarith⟩ ⟨by linarith, s3⟩ (by linarith : s ≤ 3 * s)))
  have m2 := mul_nonneg s0 (sub_nonneg.2 (hm7 ⟨by linarith, by linarith⟩ ⟨by linarith, s3⟩ (by linarith : 2 * s ≤ 3 * s)))
  norm_num [E, w6, Finset.sum_range_succ]
  norm_num at t1 t2 t3 z
  nlinarith

/-! ## bounds -/

/-- the derivatives of `x ^ (d + 1) / (d + 1)!` -/
noncomputable def mono (d k : ℕ) (x : ℝ) : ℝ := x ^ (d + 1 - k) / (d + 1 - k).factorial

theorem mono_jet (_ : Even d) : Jet (mono d) T d where
  der k hk x _ := by
    unfold mono
    obtain ⟨m, hm⟩ : ∃ m, d + 1 - k = m + 1 := ⟨d - k, by omega⟩
    rw [show d + 1 - (k + 1) = m by omega, hm]
    have := (hasDerivAt_pow (m + 1) x).div_const ((m + 1).factorial : ℝ)
    refine this.congr_deriv ?_
    have h1 : ((m : ℝ) + 1) ≠ 0 := by positivity
    have h2 : (m.factorial : ℝ) ≠ 0 := by positivity
    rw [Nat.factorial_succ]; push_cast; field_simp
  zero k hk he := by
    unfold mono
    rw [zero_pow (by omega)]; simp

theorem Jet.lin {δ : ℕ → ℝ → ℝ} (h : Jet γ T d) (h' : Jet δ T d) (a b : ℝ) : Jet (fun k x => a * γ k x + b * δ k x) T d where
  der k hk x hx := ((h.der k hk x hx).const_mul a).fun_add ((h'.der k hk x hx).const_mul b)
  zero k hk he := by simp [h.zero k hk he, h'.zero k hk he]

theorem E_lin {δ : ℕ → ℝ → ℝ} (a b : ℝ) (N : ℕ) (w : ℕ → ℝ) (k : ℕ) (s : ℝ) :
    E (fun k x => a * γ k x + b * δ k x) N w k s = a * E γ N w k s + b * E δ N w k s := by
  unfold E
  rw [mul_sub, mul_sub, Finset.mul_sum, Finset.mul_sum, sub_add_sub_comm, ← Finset.sum_add_distrib]
  congr 1
  · exact Finset.sum_congr rfl fun j _ => by ring
  · ring

/-- a rule that is nonnegative for nonnegative derivatives has an error of the form of the mean value theorem -/
theorem bounds {N : ℕ} {w : ℕ → ℝ} {t m M : ℝ} (hd : Even d) (h : Jet γ T d) (ht : 0 ≤ t)
    (hpos : ∀ {δ : ℕ → ℝ → ℝ}, Jet δ T d → (∀ x ∈ Set.Icc 0 T, 0 ≤ δ (d + 1) x) → ∀ s ∈ Set.Icc 0 t, 0 ≤ E δ N w 0 s)
    (hm : ∀ x ∈ Set.Icc 0 T, m ≤ γ (d + 1) x) (hM : ∀ x ∈ Set.Icc 0 T, γ (d + 1) x ≤ M) :
    m * E (mono d) N w 0 t ≤ E γ N w 0 t ∧ E γ N w 0 t ≤ M * E (mono d) N w 0 t := by
  have e : ∀ x, mono d (d + 1) x = 1 := fun x => by simp [mono]
  have h1 := hpos (h.lin (mono_jet hd) 1 (-m)) (fun x hx => by rw [e]; linarith [hm x hx]) t ⟨ht, le_rfl⟩
  have h2 := hpos (h.lin (mono_jet hd) (-1) M) (fun x hx => by rw [e]; linarith [hM x hx]) t ⟨ht, le_rfl⟩
  rw [E_lin] at h1 h2
  constructor <;> linarith

theorem E_mono1 (t : ℝ) : E (mono 2) 1 w1 0 t = 2 / 3 * t ^ 3 := by
  norm_num [E, w1, mono, Finset.sum_range_succ, Nat.factorial]; ring
theorem E_mono2 (t : ℝ) : E (mono 4) 1 w2 0 t = 1 / 90 * t ^ 5 := by
  norm_num [E, w2, mono, Finset.sum_range_succ, Nat.factorial]; ring
theorem E_mono4 (t : ℝ) : E (mono 6) 2 w4 0 t = 8 / 945 * t ^ 7 := by
  norm_num [E, w4, mono, Finset.sum_range_succ, Nat.factorial]; ring
theorem E_mono6 (t : ℝ) : E (mono 8) 3 w6 0 t = 9 / 1400 * t ^ 9 := by
  norm_num [E, w6, mono, Finset.sum_range_succ, Nat.factorial]; ring

/-! ## the rules for a function -/

/-- the symmetrised function around `c` and its derivatives, with half of the integral from `c - x` to `c + x` at index 0 -/
noncomputable def sym (f : ℝ → ℝ) (c : ℝ) : ℕ → ℝ → ℝ
  | 0, x => (∫ y in c - x..c + x, f y) / 2
  | k + 1, x => (iteratedDeriv k f (c + x) + (-1) ^ k * iteratedDeriv k f (c - x)) / 2

theorem sym_jet {f : ℝ → ℝ} {c : ℝ} (hf : ∀ y ∈ Set.Icc (c - T) (c + T), ContDiffAt ℝ (⊤ : ℕ∞) f y) : Jet (sym f c) T d where
  der k _ x hx := by
    have hp : HasDerivAt (fun x => c + x) 1 x := (hasDerivAt_id x).const_add c
    have hn : HasDerivAt (fun x => c - x) (-1) x := (hasDerivAt_id x).const_sub c
    have m1 : c + x ∈ Set.Icc (c - T) (c + T) := ⟨by linarith [hx.1, hx.2], by linarith [hx.2]⟩
    have m2 : c - x ∈ Set.Icc (c - T) (c + T) := ⟨by linarith [hx.2], by linarith [hx.1, hx.2]⟩
    cases k with
    | zero =>
      have hc : ContinuousOn f (Set.uIcc (c - x) (c + x)) := fun y hy => by
        rw [Set.uIcc_of_le (by linarith [hx.1])] at hy
        exact (hf y ⟨by linarith [hy.1, hx.2], by linarith [hy.2, hx.2]⟩).continuousAt.continuousWithinAt
      have hi : IntervalIntegrable f MeasureTheory.volume (c - x) (c + x) := hc.intervalIntegrable
      have hcont : ∀ y ∈ Set.Icc (c - T) (c + T), StronglyMeasurableAtFilter f (nhds y) ∧ ContinuousAt f y := fun y hy => by
        obtain ⟨u, hu, ho, hy'⟩ := eventually_nhds_iff.1 (((hf y hy).of_le (m := 1) (by exact_mod_cast le_top)).eventually (by simp))
        exact ⟨ContinuousAt.stronglyMeasurableAtFilter ho (fun z hz => (hu z hz).continuousAt) y hy', (hf y hy).continuousAt⟩
      have hF := intervalIntegral.integral_hasFDerivAt hi (hcont _ m2).1 (hcont _ m1).1 (hcont _ m2).2 (hcont _ m1).2
      have := (hF.comp_hasDerivAt x (HasDerivAt.prodMk hn hp)).div_const 2
      refine this.congr_deriv ?_
      simp [sym]
    | succ k =>
      have hd : ∀ y ∈ Set.Icc (c - T) (c + T), HasDerivAt (iteratedDeriv k f) (iteratedDeriv (k + 1) f y) y := fun y hy => by
        have h1 : DifferentiableAt ℝ (iteratedDeriv k f) y := by
          have := ContDiffWithinAt.differentiableWithinAt_iteratedDerivWithin (m := k) (hf y hy).contDiffWithinAt
            (by exact_mod_cast (WithTop.coe_lt_top (k : ℕ))) (s := Set.univ) (by simp)
          rw [iteratedDerivWithin_univ] at this
          exact this.differentiableAt Filter.univ_mem
        rw [iteratedDeriv_succ]; exact h1.hasDerivAt
      have h1 := (hd _ m1).comp x hp
      have h2 := (hd _ m2).comp x hn
      refine ((h1.fun_add (h2.const_mul ((-1) ^ k))).div_const 2).congr_deriv ?_
      simp only [sym]
      rw [pow_succ]; ring
  zero k _ he := by
    cases k with
    | zero => simp [sym]
    | succ k =>
      have ho : Odd k := by
        rcases Nat.even_or_odd k with h | h
        · exact absurd he (Nat.not_even_iff_odd.2 h.add_one)
        · exact h
      simp [sym, ho.neg_one_pow]

/-- The closed rule with `n` panels and the weights `q` has the error `κ n h ^ (d + 1) f^(d)(ξ)`: the statement with bounds of the derivative. -/
def PanelOK (n d : ℕ) (κ : ℝ) (q : ℕ → ℝ) : Prop :=
  ∀ (f : ℝ → ℝ) (x h m M : ℝ), 0 ≤ h → (∀ y ∈ Set.Icc x (x + n * h), ContDiffAt ℝ (⊤ : ℕ∞) f y) →
    (∀ y ∈ Set.Icc x (x + n * h), m ≤ iteratedDeriv d f y ∧ iteratedDeriv d f y ≤ M) →
    m * (κ * n * h ^ (d + 1)) ≤ h * ∑ j ∈ range (n + 1), q j * f (x + j * h) - ∫ y in x..x + n * h, f y ∧
      h * ∑ j ∈ range (n + 1), q j * f (x + j * h) - (∫ y in x..x + n * h, f y) ≤ M * (κ * n * h ^ (d + 1))

theorem panel_of {n d N : ℕ} {κ σ : ℝ} {q w : ℕ → ℝ} (hd : Even d) (hσ : 0 ≤ σ) (hn : (n : ℝ) = 2 * N * σ)
    (hpos : ∀ {T t : ℝ} {γ : ℕ → ℝ → ℝ}, (N : ℝ) * t ≤ T → Jet γ T d → (∀ x ∈ Set.Icc 0 T, 0 ≤ γ (d + 1) x) → ∀ s ∈ Set.Icc 0 t, 0 ≤ E γ N w 0 s)
    (hmono : ∀ h : ℝ, E (mono d) N w 0 (σ * h) = κ * n * h ^ (d + 1))
    (hsum : ∀ (f : ℝ → ℝ) (x h : ℝ), ∑ j ∈ range (N + 1), w j * (σ * h * sym f (x + N * (σ * h)) 1 (j * (σ * h))) =
      h * ∑ j ∈ range (n + 1), q j * f (x + j * h)) : PanelOK n d κ q := by
  intro f x h m M hh hf hb
  have hx : x + N * (σ * h) - N * (σ * h) = x := by ring
  have hx' : x + N * (σ * h) + N * (σ * h) = x + n * h := by rw [hn]; ring
  have hJ : Jet (sym f (x + N * (σ * h))) (N * (σ * h)) d := sym_jet (by rw [hx, hx']; exact hf)
  have hbd : ∀ y ∈ Set.Icc 0 (N * (σ * h)), m ≤ sym f (x + N * (σ * h)) (d + 1) y ∧ sym f (x + N * (σ * h)) (d + 1) y ≤ M := fun y hy => by
    have h1 := hb (x + N * (σ * h) + y) ⟨by linarith [hy.1, (by positivity : (0 : ℝ) ≤ N * (σ * h))], by rw [← hx']; linarith [hy.2]⟩
    have h2 := hb (x + N * (σ * h) - y) ⟨by linarith [hy.2], by rw [← hx']; linarith [hy.1, (by positivity : (0 : ℝ) ≤ N * (σ * h))]⟩
    simp only [sym, hd.neg_one_pow, one_mul]
    constructor <;> linarith [h1.1, h1.2, h2.1, h2.2]
  have := bounds hd hJ (t := σ * h) (by positivity) (fun hδ hp => hpos le_rfl hδ hp) (fun y hy => (hbd y hy).1) (fun y hy => (hbd y hy).2)
  rw [hmono] at this
  have e : E (sym f (x + N * (σ * h))) N w 0 (σ * h) = h * ∑ j ∈ range (n + 1), q j * f (x + j * h) - ∫ y in x..x + n * h, f y := by
    rw [← hsum]
    unfold E
    simp only [pow_zero, mul_one, Nat.cast_zero, zero_mul, add_zero, zero_add]
    congr 1
    simp only [sym]
    rw [hx, hx']; ring
  rw [e] at this
  exact this

/-! the weights of the four rules -/

noncomputable def q1 : ℕ → ℝ := fun _ => 1 / 2
noncomputable def q2 : ℕ → ℝ := fun j => if j = 1 then 4 / 3 else 1 / 3
noncomputable def q4 : ℕ → ℝ := fun j => if j = 2 then 8 / 15 else if j = 1 ∨ j = 3 then 64 / 45 else 14 / 45
noncomputable def q6 : ℕ → ℝ := fun j => if j = 3 then 68 / 35 else if j = 2 ∨ j = 4 then 27 / 140 else if j = 1 ∨ j = 5 then 54 / 35 else 41 / 140

theorem panel1 : PanelOK 1 2 (1 / 12) q1 := by
  refine panel_of (N := 1) (σ := 1 / 2) (w := w1) (by decide) (by norm_num) (by norm_num) (fun hT hJ hp => pos1 hJ hT hp) (fun h => ?_) fun f x h => ?_
  · rw [E_mono1]; ring
  · simp [Finset.sum_range_succ, w1, q1, sym]
    ring_nf

theorem panel2 : PanelOK 2 4 (1 / 180) q2 := by
  refine panel_of (N := 1) (σ := 1) (w := w2) (by decide) (by norm_num) (by norm_num) (fun hT hJ hp => pos2 hJ hT hp) (fun h => ?_) fun f x h => ?_
  · rw [E_mono2]; push_cast; ring
  · simp [Finset.sum_range_succ, w2, q2, sym]
    ring_nf

theorem panel4 : PanelOK 4 6 (2 / 945) q4 := by
  refine panel_of (N := 2) (σ := 1) (w := w4) (by decide) (by norm_num) (by norm_num) (fun hT hJ hp => pos4 hJ hT hp) (fun h => ?_) fun f x h => ?_
  · rw [E_mono4]; push_cast; ring
  · simp [Finset.sum_range_succ, w4, q4, sym]
    ring_nf

theorem panel6 : PanelOK 6 8 (3 / 2800) q6 := by
  refine panel_of (N := 3) (σ := 1) (w := w6) (by decide) (by norm_num) (by norm_num) (fun hT hJ hp => pos6 hJ hT hp) (fun h => ?_) fun f x h => ?_
  · rw [E_mono6]; push_cast; ring
  · simp [Finset.sum_range_succ, w6, q6, sym]
    ring_nf

/-! ## steps of any sign, composite rules -/

theorem exists_between {m M A B : ℝ} (hm : m ≤ M) (hA : 0 ≤ A) (h1 : m * A ≤ B) (h2 : B ≤ M * A) : ∃ K, m ≤ K ∧ K ≤ M ∧ B = K * A := by
  rcases hA.eq_or_lt with rfl | hA
  · exact ⟨m, le_rfl, hm, by linarith⟩
  · exact ⟨B / A, (le_div_iff₀ hA).2 h1, (div_le_iff₀ hA).2 h2, by field_simp⟩

theorem PanelOK.signed {n d : ℕ} {κ : ℝ} {q : ℕ → ℝ} (H : PanelOK n d κ q) (hd : Even d) (hκ : 0 ≤ κ) (hq : ∀ j ≤ n, q (n - j) = q j)
    {f : ℝ → ℝ} {x h m M : ℝ} (hf : ∀ y ∈ Set.uIcc x (x + n * h), ContDiffAt ℝ (⊤ : ℕ∞) f y)
    (hb : ∀ y ∈ Set.uIcc x (x + n * h), m ≤ iteratedDeriv d f y ∧ iteratedDeriv d f y ≤ M) :
    ∃ K, m ≤ K ∧ K ≤ M ∧ h * ∑ j ∈ range (n + 1), q j * f (x + j * h) - (∫ y in x..x + n * h, f y) = K * (κ * n * h ^ (d + 1)) := by
  have hmM : m ≤ M := (hb x Set.left_mem_uIcc).1.trans (hb x Set.left_mem_uIcc).2
  rcases le_total 0 h with h0 | h0
  · have hl : x ≤ x + n * h := by linarith [(by positivity : (0 : ℝ) ≤ n * h)]
    rw [Set.uIcc_of_le hl] at hf hb
    obtain ⟨h1, h2⟩ := H f x h m M h0 hf hb
    exact exists_between hmM (by positivity) h1 h2
  · have hneg : 0 ≤ -h := by linarith
    have hl : x + n * h ≤ x := by linarith [mul_nonneg (Nat.cast_nonneg (α := ℝ) n) hneg]
    have e : x + n * h + n * (-h) = x := by ring
    rw [Set.uIcc_of_ge hl] at hf hb
    obtain ⟨h1, h2⟩ := H f (x + n * h) (-h) m M hneg (by rw [e]; exact hf) (by rw [e]; exact hb)
    have es : ∑ j ∈ range (n + 1), q j * f (x + n * h + j * (-h)) = ∑ j ∈ range (n + 1), q j * f (x + j * h) := by
      rw [← Finset.sum_range_reflect]
      refine Finset.sum_congr rfl fun j hj => ?_
      have hj' : j ≤ n := Nat.lt_succ_iff.1 (mem_range.1 hj)
      rw [show n + 1 - 1 - j = n - j by omega, hq j hj', Nat.cast_sub hj']
      congr 2; ring
    rw [es, e, intervalIntegral.integral_symm] at h1 h2
    have ho : (-h) ^ (d + 1) = -(h ^ (d + 1)) := hd.add_one.neg_pow h
    have hp : 0 ≤ κ * n * (-h) ^ (d + 1) := by positivity
    obtain ⟨K, k1, k2, k3⟩ := exists_between hmM hp h1 h2
    refine ⟨K, k1, k2, ?_⟩
    rw [ho] at k3
    linear_combination -k3

/-- the weights of the composite rule before the two ends are corrected -/
def comp (n : ℕ) (q : ℕ → ℝ) (i : ℕ) : ℝ := if i % n = 0 then 2 * q 0 else q (i % n)

theorem comp_sum {n : ℕ} (hn : 0 < n) {q : ℕ → ℝ} (hq : q n = q 0) (v : ℕ → ℝ) (P : ℕ) :
    ∑ i ∈ range (n * P + 1), comp n q i * v i - q 0 * v 0 - q 0 * v (n * P) = ∑ p ∈ range P, ∑ j ∈ range (n + 1), q j * v (n * p + j) := by
  induction P with
  | zero => simp [comp]; ring
  | succ P ih =>
    rw [Finset.sum_range_succ (n := P), ← ih, show n * (P + 1) + 1 = (n * P + 1) + n by ring, Finset.sum_range_add]
    obtain ⟨k, rfl⟩ : ∃ k, n = k + 1 := ⟨n - 1, by omega⟩
    rw [Finset.sum_range_succ (fun j => q j * v ((k + 1) * P + j)) (k + 1), Finset.sum_range_succ' (fun j => q j * v ((k + 1) * P + j)) k,
      Finset.sum_range_succ (fun j => comp (k + 1) q ((k + 1) * P + 1 + j) * v ((k + 1) * P + 1 + j)) k]
    have h1 : ∀ j ∈ range k, comp (k + 1) q ((k + 1) * P + 1 + j) * v ((k + 1) * P + 1 + j) = q (j + 1) * v ((k + 1) * P + (j + 1)) := fun j hj => by
      have hj := mem_range.1 hj
      have : ((k + 1) * P + 1 + j) % (k + 1) = j + 1 := by
        rw [add_assoc, Nat.mul_add_mod, add_comm 1 j, Nat.mod_eq_of_lt (by omega)]
      unfold comp
      rw [this, if_neg (by omega)]
      congr 2; ring
    have h2 : comp (k + 1) q ((k + 1) * P + 1 + k) = 2 * q 0 := by
      unfold comp
      rw [if_pos (by rw [add_assoc, Nat.mul_add_mod, add_comm 1 k, Nat.mod_self])]
    rw [Finset.sum_congr rfl h1, h2, hq, show (k + 1) * P + 1 + k = (k + 1) * (P + 1) by ring, show (k + 1) * P + (k + 1) = (k + 1) * (P + 1) by ring]
    simp only [add_zero]
    ring

/-- The error of the composite rule. -/
theorem PanelOK.composite {n d : ℕ} {κ : ℝ} {q : ℕ → ℝ} (H : PanelOK n d κ q) (hd : Even d) (hκ : 0 ≤ κ) (hq : ∀ j ≤ n, q (n - j) = q j)
    (hn : 0 < n) {f : ℝ → ℝ} {a h m M : ℝ} (P : ℕ) (hP : 0 < P) (hf : ∀ y ∈ Set.uIcc a (a + (n * P : ℕ) * h), ContDiffAt ℝ (⊤ : ℕ∞) f y)
    (hb : ∀ y ∈ Set.uIcc a (a + (n * P : ℕ) * h), m ≤ iteratedDeriv d f y ∧ iteratedDeriv d f y ≤ M) :
    ∃ K, m ≤ K ∧ K ≤ M ∧ h * (∑ i ∈ range (n * P + 1), comp n q i * f (a + i * h) - q 0 * f a - q 0 * f (a + (n * P : ℕ) * h)) -
      (∫ y in a..a + (n * P : ℕ) * h, f y) = K * (κ * ((n * P : ℕ) * h) * h ^ d) := by
  have hs := comp_sum hn (q := q) (by have := hq 0 (by omega); simpa using this) (fun i => f (a + i * h)) P
  simp only [Nat.cast_zero, zero_mul, add_zero] at hs
  rw [hs]
  have hsub : ∀ p < P, Set.uIcc (a + (n * p : ℕ) * h) (a + (n * p : ℕ) * h + n * h) ⊆ Set.uIcc a (a + (n * P : ℕ) * h) := fun p hp => by
    have hin : ∀ k ≤ P, a + (n * k : ℕ) * h ∈ Set.uIcc a (a + (n * P : ℕ) * h) := fun k hk => by
      have h1 : ((n * k : ℕ) : ℝ) ≤ (n * P : ℕ) := by exact_mod_cast Nat.mul_le_mul_left n hk
      have h2 : (0 : ℝ) ≤ (n * k : ℕ) := by positivity
      rw [Set.mem_uIcc]
      rcases le_total 0 h with h0 | h0
      · exact .inl ⟨by nlinarith, by nlinarith⟩
      · exact .inr ⟨by nlinarith, by nlinarith⟩
    have := Set.uIcc_subset_uIcc (hin p hp.le) (hin (p + 1) hp)
    convert this using 2
    push_cast; ring
  have hK : ∀ p : ℕ, ∃ K, p < P → m ≤ K ∧ K ≤ M ∧ h * ∑ j ∈ range (n + 1), q j * f (a + (n * p : ℕ) * h + j * h) -
      (∫ y in a + (n * p : ℕ) * h..a + (n * p : ℕ) * h + n * h, f y) = K * (κ * n * h ^ (d + 1)) := fun p => by
    by_cases hp : p < P
    · obtain ⟨K, hK⟩ := H.signed hd hκ hq (x := a + (n * p : ℕ) * h) (fun y hy => hf y (hsub p hp hy)) (fun y hy => hb y (hsub p hp hy))
      exact ⟨K, fun _ => hK⟩
    · exact ⟨0, fun h => absurd h hp⟩
  choose K hK using hK
  have hint : ∫ y in a..a + (n * P : ℕ) * h, f y = ∑ p ∈ range P, ∫ y in a + (n * p : ℕ) * h..a + (n * p : ℕ) * h + n * h, f y := by
    have := intervalIntegral.sum_integral_adjacent_intervals (f := f) (μ := MeasureTheory.volume) (a := fun p : ℕ => a + (n * p : ℕ) * h) (n := P)
      (fun p hp => by
        refine ContinuousOn.intervalIntegrable fun y hy => ?_
        refine (hf y (hsub p hp ?_)).continuousAt.continuousWithinAt
        convert hy using 2
        push_cast; ring)
    simp only [mul_zero, Nat.cast_zero, zero_mul, add_zero] at this
    rw [← this]
    refine Finset.sum_congr rfl fun p _ => ?_
    congr 1; push_cast; ring
  have hP' : (0 : ℝ) < P := by exact_mod_cast hP
  refine ⟨(∑ p ∈ range P, K p) / P, ?_, ?_, ?_⟩
  · rw [le_div_iff₀ hP']
    have : ∑ _p ∈ range P, m ≤ ∑ p ∈ range P, K p := Finset.sum_le_sum fun p hp => (hK p (mem_range.1 hp)).1
    simpa [mul_comm] using this
  · rw [div_le_iff₀ hP']
    have : ∑ p ∈ range P, K p ≤ ∑ _p ∈ range P, M := Finset.sum_le_sum fun p hp => (hK p (mem_range.1 hp)).2.1
    simpa [mul_comm] using this
  · rw [hint, Finset.mul_sum, ← Finset.sum_sub_distrib]
    have e : ∀ p ∈ range P, (h * ∑ j ∈ range (n + 1), q j * f (a + ((n * p + j : ℕ) : ℝ) * h)) -
        (∫ y in a + (n * p : ℕ) * h..a + (n * p : ℕ) * h + n * h, f y) = K p * (κ * n * h ^ (d + 1)) := fun p hp => by
      rw [← (hK p (mem_range.1 hp)).2.2]
      congr 2
      refine Finset.sum_congr rfl fun j _ => ?_
      congr 2; push_cast; ring
    rw [Finset.sum_congr rfl e, ← Finset.sum_mul]
    push_cast
    field_simp
    ring

end Kv.NC
