import Verif.Analysis.Lin
import Mathlib.Analysis.Calculus.Deriv.MeanValue
import Mathlib.Analysis.Calculus.FDeriv.Pi
import Mathlib.Analysis.Calculus.FDeriv.Add
import Mathlib.Topology.MetricSpace.Contracting
import Mathlib.LinearAlgebra.Matrix.ToLinearEquiv

/-!
# The Krawczyk test over the reals

Helper lemmas for C28-C33: if the Krawczyk operator maps a box strictly into itself, the function has
exactly one zero in the box.
-/

namespace Kv
open Finset

variable {n : ℕ}

/-- entry of `E - R A` -/
def kG (R A : Fin n → Fin n → ℝ) (i j : Fin n) : ℝ := (if i = j then 1 else 0) - ∑ k, R i k * A k j

/-- a vector that is not larger than its image under a contraction is zero -/
theorem weighted_zero {G : Fin n → Fin n → ℝ} {κ ω v : Fin n → ℝ} (h1 : ∀ i, ∑ j, |G i j| * ω j ≤ κ i) (h2 : ∀ i, κ i < ω i)
    (h0 : ∀ i, 0 < ω i) (hv : ∀ i, |v i| ≤ |∑ j, G i j * v j|) : v = 0 := by
  rcases isEmpty_or_nonempty (Fin n) with h | h
  · exact Subsingleton.elim _ _
  obtain ⟨i0, hi0⟩ := Finite.exists_max fun i => |v i| / ω i
  set m := |v i0| / ω i0
  have hm : ∀ j, |v j| ≤ m * ω j := fun j => by
    have := hi0 j
    rwa [div_le_iff₀ (h0 j)] at this
  have hm0 : 0 ≤ m := div_nonneg (abs_nonneg _) (h0 i0).le
  have h3 : |v i0| ≤ m * κ i0 := by
    calc |v i0| ≤ |∑ j, G i0 j * v j| := hv i0
      _ ≤ ∑ j, |G i0 j * v j| := abs_sum_le_sum_abs _ _
      _ ≤ ∑ j, m * (|G i0 j| * ω j) := by
        refine sum_le_sum fun j _ => ?_
        rw [abs_mul]
        calc |G i0 j| * |v j| ≤ |G i0 j| * (m * ω j) := mul_le_mul_of_nonneg_left (hm j) (abs_nonneg _)
          _ = m * (|G i0 j| * ω j) := by ring
      _ = m * ∑ j, |G i0 j| * ω j := by rw [mul_sum]
      _ ≤ m * κ i0 := mul_le_mul_of_nonneg_left (h1 i0) hm0
  have h4 : |v i0| = m * ω i0 := by
    show _ = |v i0| / ω i0 * ω i0
    rw [div_mul_cancel₀ _ (h0 i0).ne']
  have hm1 : m = 0 := by
    by_contra hne
    have : 0 < m := lt_of_le_of_ne hm0 (Ne.symm hne)
    have := mul_lt_mul_of_pos_left (h2 i0) this
    linarith
  funext j
  have := hm j
  rw [hm1, zero_mul] at this
  exact abs_eq_zero.1 (le_antisymm this (abs_nonneg _))

/-- if `E - R A` is a contraction both `R` and `A` are nonsingular -/
theorem det_ne_zero_of_contr {R A : Fin n → Fin n → ℝ} {κ ω : Fin n → ℝ} (h1 : ∀ i, ∑ j, |kG R A i j| * ω j ≤ κ i)
    (h2 : ∀ i, κ i < ω i) (h0 : ∀ i, 0 < ω i) : (Matrix.of R).det ≠ 0 ∧ (Matrix.of A).det ≠ 0 := by
  have h : (Matrix.of R * Matrix.of A).det ≠ 0 := by
    intro h
    obtain ⟨v, hv, h3⟩ := Matrix.exists_mulVec_eq_zero_iff.2 h
    refine hv (weighted_zero h1 h2 h0 fun i => ?_)
    have h4 : ∑ j, kG R A i j * v j = v i := by
      have h5 := congrFun h3 i
      simp only [Matrix.mulVec, dotProduct, Matrix.mul_apply, Matrix.of_apply, Pi.zero_apply] at h5
      simp only [kG, sub_mul, sum_sub_distrib, h5]
      simp
    rw [h4]
  rw [Matrix.det_mul] at h
  exact ⟨left_ne_zero_of_mul h, right_ne_zero_of_mul h⟩

theorem mulVec_zero_of_det {R : Fin n → Fin n → ℝ} (h : (Matrix.of R).det ≠ 0) {v : Fin n → ℝ} (hv : ∀ i, ∑ k, R i k * v k = 0) :
    v = 0 := Matrix.eq_zero_of_mulVec_eq_zero h (funext fun i => by simpa [Matrix.mulVec, dotProduct] using hv i)

section
variable {S : Fin n → Set ℝ} {c : Fin n → ℝ} {f : (Fin n → ℝ) → Fin n → ℝ} {R : Fin n → Fin n → ℝ} {lo hi ω : Fin n → ℝ}
  {P : (Fin n → Fin n → ℝ) → Prop}

/-- mean value form of `x - R f(x)` -/
theorem kraw_mvt (hS : ∀ i, (S i).OrdConnected)
    (hder : ∀ x, (∀ i, x i ∈ S i) → ∃ A, P A ∧ ∀ i, HasFDerivAt (fun y => f y i) (lin (A i)) x) {x y : Fin n → ℝ}
    (hx : ∀ i, x i ∈ S i) (hy : ∀ i, y i ∈ S i) (R : Fin n → Fin n → ℝ) (i : Fin n) :
    ∃ A, P A ∧ (x i - ∑ k, R i k * f x k) - (y i - ∑ k, R i k * f y k) = ∑ j, kG R A i j * (x j - y j) := by
  classical
  let s : Set (Fin n → ℝ) := Set.pi Set.univ S
  have hs : Convex ℝ s := convex_pi fun i _ => (hS i).convex
  have hms : ∀ {z}, z ∈ s ↔ ∀ i, z i ∈ S i := by simp [s]
  choose! A hA1 hA2 using hder
  have hd : ∀ z ∈ s, HasFDerivWithinAt (fun z => z i - ∑ k, R i k * f z k) (lin (kG R (A z) i)) s z := by
    intro z hz
    refine HasFDerivAt.hasFDerivWithinAt ?_
    have e : lin (kG R (A z) i) = ContinuousLinearMap.proj i - ∑ k, R i k • lin (A z k) := by
      ext w
      simp only [lin_apply, sub_apply, ContinuousLinearMap.proj_apply, _root_.sum_apply,
        smul_apply, smul_eq_mul, kG, sub_mul, sum_sub_distrib, mul_sum, sum_mul]
      rw [sum_comm]
      simp [mul_assoc]
    rw [e]
    refine HasFDerivAt.sub ?_ ?_
    · exact (ContinuousLinearMap.proj (R := ℝ) (φ := fun _ : Fin n => ℝ) i).hasFDerivAt
    · exact HasFDerivAt.fun_sum fun k _ => (hA2 z (hms.1 hz) k).const_mul (R i k)
  obtain ⟨z, hz, h⟩ := domain_mvt hd hs (hms.2 hy) (hms.2 hx)
  have hz' := hs.segment_subset (hms.2 hy) (hms.2 hx) hz
  refine ⟨A z, hA1 z (hms.1 hz'), ?_⟩
  rw [h, lin_apply]
  rfl

/-- the weighted row sums are bounded by the width of the image -/
theorem kraw_rows {G : Fin n → Fin n → ℝ} {b : Fin n → ℝ}
    (hK : ∀ x : Fin n → ℝ, (∀ i, x i ∈ S i) → ∀ i, lo i ≤ b i + ∑ j, G i j * (x j - c j) ∧ b i + ∑ j, G i j * (x j - c j) ≤ hi i)
    (hω : ∀ i, ∃ a, a ∈ S i ∧ a + ω i ∈ S i) (i : Fin n) : ∑ j, |G i j| * ω j ≤ hi i - lo i := by
  choose a ha1 ha2 using hω
  have h1 := (hK (fun j => if 0 ≤ G i j then a j + ω j else a j) (fun j => by split_ifs <;> simp [ha1, ha2]) i).2
  have h2 := (hK (fun j => if 0 ≤ G i j then a j else a j + ω j) (fun j => by split_ifs <;> simp [ha1, ha2]) i).1
  have h3 : ∑ j, |G i j| * ω j = (∑ j, G i j * ((if 0 ≤ G i j then a j + ω j else a j) - c j))
      - ∑ j, G i j * ((if 0 ≤ G i j then a j else a j + ω j) - c j) := by
    rw [← sum_sub_distrib]
    refine sum_congr rfl fun j _ => ?_
    split_ifs with h
    · rw [abs_of_nonneg h]; ring
    · rw [abs_of_neg (not_le.1 h)]; ring
  linarith

/-- The Krawczyk test.  `S` is the box, `P` the set of matrices enclosing the derivative, `[lo, hi]` the
image of the box under the Krawczyk operator, `ω` a lower bound of the width of the box. -/
theorem kraw_real (hS : ∀ i, (S i).OrdConnected) (hc : ∀ i, c i ∈ S i)
    (hder : ∀ x, (∀ i, x i ∈ S i) → ∃ A, P A ∧ ∀ i, HasFDerivAt (fun y => f y i) (lin (A i)) x)
    (hK : ∀ A, P A → ∀ x : Fin n → ℝ, (∀ i, x i ∈ S i) → ∀ i, lo i ≤ (c i - ∑ k, R i k * f c k) + ∑ j, kG R A i j * (x j - c j) ∧
      (c i - ∑ k, R i k * f c k) + ∑ j, kG R A i j * (x j - c j) ≤ hi i)
    (hlo : ∀ i, lo i ∈ S i) (hhi : ∀ i, hi i ∈ S i) (hω : ∀ i, ∃ a, a ∈ S i ∧ a + ω i ∈ S i) (hlt : ∀ i, hi i - lo i < ω i) :
    (∀ A, P A → (Matrix.of A).det ≠ 0) ∧ (Matrix.of R).det ≠ 0 ∧
    ∃ z, (∀ i, lo i ≤ z i ∧ z i ≤ hi i) ∧ f z = 0 ∧ ∀ y, (∀ i, y i ∈ S i) → f y = 0 → y = z := by
  obtain ⟨A0, hA0, -⟩ := hder c hc
  have hle : ∀ i, lo i ≤ hi i := fun i => le_trans (hK A0 hA0 c hc i).1 (hK A0 hA0 c hc i).2
  have h0 : ∀ i, 0 < ω i := fun i => by have := hle i; have := hlt i; linarith
  have hrows : ∀ A, P A → ∀ i, ∑ j, |kG R A i j| * ω j ≤ hi i - lo i := fun A hA => kraw_rows (hK A hA) hω
  have hdet : ∀ A, P A → (Matrix.of R).det ≠ 0 ∧ (Matrix.of A).det ≠ 0 := fun A hA =>
    det_ne_zero_of_contr (hrows A hA) hlt h0
  refine ⟨fun A hA => (hdet A hA).2, (hdet A0 hA0).1, ?_⟩
  let g : (Fin n → ℝ) → Fin n → ℝ := fun x i => x i - ∑ k, R i k * f x k
  have hg : ∀ x, (∀ i, x i ∈ S i) → ∀ y, (∀ i, y i ∈ S i) → ∀ i, ∃ A, P A ∧ g x i - g y i = ∑ j, kG R A i j * (x j - y j) :=
    fun x hx y hy i => kraw_mvt hS hder hx hy R i
  have hmap : ∀ x, (∀ i, x i ∈ S i) → ∀ i, lo i ≤ g x i ∧ g x i ≤ hi i := by
    intro x hx i
    obtain ⟨A, hA, h⟩ := hg x hx c hc i
    have := hK A hA x hx i
    have e : (c i - ∑ k, R i k * f c k) + ∑ j, kG R A i j * (x j - c j) = g x i := by
      rw [← h]; show g c i + (g x i - g c i) = g x i; ring
    rwa [e] at this
  have hbox : ∀ x : Fin n → ℝ, (∀ i, lo i ≤ x i ∧ x i ≤ hi i) → ∀ i, x i ∈ S i := fun x hx i =>
    (hS i).out (hlo i) (hhi i) (hx i)
  obtain ⟨q, hq0, hq1, hq⟩ : ∃ q : ℝ, 0 ≤ q ∧ q < 1 ∧ ∀ i, hi i - lo i ≤ q * ω i := by
    rcases isEmpty_or_nonempty (Fin n) with h | h
    · exact ⟨0, le_refl _, one_pos, fun i => (IsEmpty.false i).elim⟩
    · obtain ⟨i0, hi0⟩ := Finite.exists_max fun i => (hi i - lo i) / ω i
      refine ⟨(hi i0 - lo i0) / ω i0, div_nonneg (by linarith [hle i0]) (h0 i0).le, ?_, fun i => ?_⟩
      · rw [div_lt_one (h0 i0)]; exact hlt i0
      · rw [← div_le_iff₀ (h0 i)]; exact hi0 i
  -- the scaled map
  let sc : (Fin n → ℝ) → Fin n → ℝ := fun y i => ω i * y i
  let T : (Fin n → ℝ) → Fin n → ℝ := fun y i => g (sc y) i / ω i
  let s : Set (Fin n → ℝ) := {y | ∀ i, lo i ≤ ω i * y i ∧ ω i * y i ≤ hi i}
  have hcl : IsClosed s := by
    simp only [s, Set.ofPred_forall]
    refine isClosed_iInter fun i => IsClosed.inter ?_ ?_
    · exact isClosed_le continuous_const (continuous_const.mul (continuous_apply i))
    · exact isClosed_le (continuous_const.mul (continuous_apply i)) continuous_const
  have hmaps : Set.MapsTo T s s := by
    intro y hy i
    have e : ω i * T y i = g (sc y) i := by
      show ω i * (g (sc y) i / ω i) = _
      field_simp [(h0 i).ne']
    rw [e]
    exact hmap _ (hbox _ hy) i
  have hcontr : ContractingWith ⟨q, hq0⟩ (hmaps.restrict T s s) := by
    refine ⟨by exact_mod_cast hq1, LipschitzWith.of_dist_le_mul fun y y' => ?_⟩
    show dist (T y.1) (T y'.1) ≤ q * dist y.1 y'.1
    rw [dist_pi_le_iff (mul_nonneg hq0 dist_nonneg)]
    intro i
    obtain ⟨A, hA, h⟩ := hg (sc y.1) (hbox _ y.2) (sc y'.1) (hbox _ y'.2) i
    have hd : ∀ j, |y.1 j - y'.1 j| ≤ dist y.1 y'.1 := fun j => by
      rw [← Real.dist_eq]; exact dist_le_pi_dist y.1 y'.1 j
    rw [Real.dist_eq, show T y.1 i - T y'.1 i = (g (sc y.1) i - g (sc y'.1) i) / ω i by show _ / _ - _ / _ = _; ring, h,
      abs_div, abs_of_pos (h0 i), div_le_iff₀ (h0 i)]
    calc |∑ j, kG R A i j * (sc y.1 j - sc y'.1 j)| ≤ ∑ j, |kG R A i j * (sc y.1 j - sc y'.1 j)| := abs_sum_le_sum_abs _ _
      _ ≤ ∑ j, dist y.1 y'.1 * (|kG R A i j| * ω j) := by
        refine sum_le_sum fun j _ => ?_
        rw [show sc y.1 j - sc y'.1 j = ω j * (y.1 j - y'.1 j) by show _ * _ - _ * _ = _; ring, abs_mul, abs_mul, abs_of_pos (h0 j)]
        calc |kG R A i j| * (ω j * |y.1 j - y'.1 j|) = (|kG R A i j| * ω j) * |y.1 j - y'.1 j| := by ring
          _ ≤ (|kG R A i j| * ω j) * dist y.1 y'.1 :=
            mul_le_mul_of_nonneg_left (hd j) (mul_nonneg (abs_nonneg _) (h0 j).le)
          _ = _ := by ring
      _ = dist y.1 y'.1 * ∑ j, |kG R A i j| * ω j := by rw [mul_sum]
      _ ≤ dist y.1 y'.1 * (q * ω i) := mul_le_mul_of_nonneg_left (le_trans (hrows A hA i) (hq i)) dist_nonneg
      _ = q * dist y.1 y'.1 * ω i := by ring
  have hne : (fun i => lo i / ω i) ∈ s := fun i => by
    dsimp only
    rw [mul_div_cancel₀ _ (h0 i).ne']
    exact ⟨le_refl _, hle i⟩
  obtain ⟨y, hys, hy, -, -⟩ := hcontr.exists_fixedPoint' hcl.isComplete hmaps hne (edist_ne_top _ _)
  have hz : g (sc y) = sc y := by
    funext i
    have := congrFun hy i
    have e : g (sc y) i / ω i = y i := this
    rw [div_eq_iff (h0 i).ne'] at e
    rw [e]; show _ = ω i * y i; ring
  have hfz : ∀ x, (∀ i, ∑ k, R i k * f x k = 0) → f x = 0 := fun x hx => mulVec_zero_of_det (hdet A0 hA0).1 hx
  refine ⟨sc y, hys, hfz _ fun i => ?_, fun x hx hfx => ?_⟩
  · have := congrFun hz i
    have : sc y i - ∑ k, R i k * f (sc y) k = sc y i := this
    linarith
  · have hgx : g x = x := by
      funext i; show x i - ∑ k, R i k * f x k = x i; simp [hfx]
    choose A hA h using hg x hx (sc y) (hbox _ hys)
    have : (fun i => x i - sc y i) = 0 := by
      refine weighted_zero (G := fun i => kG R (A i) i) (κ := fun i => hi i - lo i) (ω := ω) (fun i => hrows _ (hA i) i) hlt h0 fun i => ?_
      have := h i
      rw [hgx, hz] at this
      rw [← this]
    funext i
    have := congrFun this i
    exact sub_eq_zero.1 this

end

end Kv
