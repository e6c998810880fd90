import Mathlib.Analysis.Calculus.MeanValue
import Mathlib.Analysis.Calculus.Deriv.Pow
import Mathlib.Analysis.Calculus.Deriv.MeanValue
import Mathlib.Analysis.SpecialFunctions.ExpDeriv
import Mathlib.Analysis.SpecialFunctions.Log.Deriv
import Mathlib.Analysis.SpecialFunctions.Trigonometric.Deriv
import Mathlib.Analysis.SpecialFunctions.Trigonometric.ArctanDeriv
import Mathlib.Analysis.SpecialFunctions.Trigonometric.DerivHyp
import Mathlib.Algebra.BigOperators.Intervals
import Mathlib.Data.Nat.Factorial.Basic

/-! # Helper lemmas: Taylor formula with Lagrange remainder for the functions of interval.hpp -/

namespace Kv
open Finset

/-- the partial sum, as a function of the centre, has a telescoping derivative -/
theorem taylor_deriv {F : ℕ → ℝ → ℝ} {x t : ℝ} (h : ∀ k, HasDerivAt (F k) (F (k + 1) t) t) (n : ℕ) :
    HasDerivAt (fun s => ∑ k ∈ range (n + 1), F k s * (x - s) ^ k / (k.factorial : ℝ))
      (F (n + 1) t * (x - t) ^ n / (n.factorial : ℝ)) t := by
  induction n with
  | zero => simpa using h 0
  | succ n ih =>
    simp_rw [sum_range_succ _ (n + 1)]
    have h1 : HasDerivAt (fun s => (x - s) ^ (n + 1)) (-((n + 1 : ℝ) * (x - t) ^ n)) t := by
      have := ((hasDerivAt_id t).const_sub x).fun_pow (n + 1)
      simpa using this
    have h2 := ((h (n + 1)).mul h1).div_const ((n + 1).factorial : ℝ)
    convert! ih.add h2 using 1
    have : ((n + 1).factorial : ℝ) = (n + 1) * n.factorial := by
      rw [Nat.factorial_succ]; push_cast; ring
    have hf : (n.factorial : ℝ) ≠ 0 := by positivity
    have hn : (n + 1 : ℝ) ≠ 0 := by positivity
    rw [this]
    field_simp
    ring

/-- Taylor's formula with Lagrange remainder, expansion point `c`. -/
theorem lagrange {F : ℕ → ℝ → ℝ} {c x : ℝ}
    (h : ∀ k, ∀ t ∈ Set.uIcc c x, HasDerivAt (F k) (F (k + 1) t) t) (n : ℕ) :
    ∃ ξ ∈ Set.uIcc c x, F 0 x = ∑ k ∈ range n, F k c * (x - c) ^ k / (k.factorial : ℝ) +
      F n ξ * (x - c) ^ n / (n.factorial : ℝ) := by
  cases n with
  | zero => exact ⟨x, Set.right_mem_uIcc, by simp⟩
  | succ n =>
    rcases eq_or_ne c x with rfl | hne
    · refine ⟨c, Set.left_mem_uIcc, ?_⟩
      rw [sum_range_succ']
      simp
    · set S := fun s => ∑ k ∈ range (n + 1), F k s * (x - s) ^ k / (k.factorial : ℝ) with hS
      set C := (F 0 x - S c) / (x - c) ^ (n + 1) with hC
      have hxc : x - c ≠ 0 := sub_ne_zero.2 hne.symm
      set G := fun s => S s + C * (x - s) ^ (n + 1) with hG
      have hGc : G c = F 0 x := by
        simp only [hG, hC]
        field_simp
        ring
      have hGx : G x = F 0 x := by
        simp only [hG, hS]
        rw [sum_range_succ']
        simp
      have hd : ∀ t ∈ Set.uIcc c x, HasDerivAt G
          (F (n + 1) t * (x - t) ^ n / (n.factorial : ℝ) - C * ((n + 1 : ℝ) * (x - t) ^ n)) t := by
        intro t ht
        have h1 : HasDerivAt (fun s => (x - s) ^ (n + 1)) (-((n + 1 : ℝ) * (x - t) ^ n)) t := by
          have := ((hasDerivAt_id t).const_sub x).fun_pow (n + 1)
          simpa using this
        have h2 := (taylor_deriv (x := x) (fun k => h k t ht) n).add (h1.const_mul C)
        convert! h2 using 1
        ring
      have key : ∃ ξ ∈ Set.Ioo (min c x) (max c x),
          F (n + 1) ξ * (x - ξ) ^ n / (n.factorial : ℝ) - C * ((n + 1 : ℝ) * (x - ξ) ^ n) = 0 := by
        apply exists_hasDerivAt_eq_zero (f := G)
        · exact min_lt_max.2 hne
        · intro t ht
          exact (hd t ht).continuousAt.continuousWithinAt
        · rcases le_total c x with hcx | hcx
          · rw [min_eq_left hcx, max_eq_right hcx, hGc, hGx]
          · rw [min_eq_right hcx, max_eq_left hcx, hGc, hGx]
        · intro t ht
          exact hd t ⟨ht.1.le, ht.2.le⟩
      obtain ⟨ξ, hξ, e⟩ := key
      refine ⟨ξ, ⟨hξ.1.le, hξ.2.le⟩, ?_⟩
      have hxξ : x - ξ ≠ 0 := by
        rcases le_total c x with hcx | hcx
        · rw [max_eq_right hcx] at hξ; have := hξ.2; intro h0; linarith
        · rw [min_eq_right hcx] at hξ; have := hξ.1; intro h0; linarith
      have hf : (n.factorial : ℝ) ≠ 0 := by positivity
      have hn : (n + 1 : ℝ) ≠ 0 := by positivity
      have e2 : C = F (n + 1) ξ / ((n + 1) * n.factorial) := by
        have hp : (x - ξ) ^ n ≠ 0 := pow_ne_zero _ hxξ
        have : (F (n + 1) ξ / n.factorial - C * (n + 1)) * (x - ξ) ^ n = 0 := by
          rw [← e]; ring
        have := (mul_eq_zero.1 this).resolve_right hp
        field_simp
        field_simp at this
        linarith
      have e3 : ((n + 1).factorial : ℝ) = (n + 1) * n.factorial := by
        rw [Nat.factorial_succ]; push_cast; ring
      rw [e3]
      calc F 0 x = G c := hGc.symm
        _ = S c + C * (x - c) ^ (n + 1) := rfl
        _ = _ := by rw [e2]; ring

/-- `exp` with remainder factor between `e^{-1/2}` and `e^{1/2}` -/
theorem exp_taylor {x : ℝ} (hx : |x| ≤ 1 / 2) (n : ℕ) :
    ∃ r : ℝ, Real.exp (-(1 / 2)) ≤ r ∧ r ≤ Real.exp (1 / 2) ∧
      Real.exp x = ∑ k ∈ range n, x ^ k / (k.factorial : ℝ) + x ^ n / (n.factorial : ℝ) * r := by
  obtain ⟨ξ, hξ, e⟩ := lagrange (F := fun _ => Real.exp) (c := 0) (x := x)
    (fun _ t _ => Real.hasDerivAt_exp t) n
  rw [abs_le] at hx
  have h1 : -(1 / 2) ≤ ξ ∧ ξ ≤ 1 / 2 := by
    rcases Set.mem_uIcc.1 hξ with h | h <;> constructor <;> linarith [h.1, h.2]
  refine ⟨Real.exp ξ, Real.exp_le_exp.2 h1.1, Real.exp_le_exp.2 h1.2, ?_⟩
  rw [e]; simp; ring

/-- general version with arbitrary argument: remainder factor between `min 1 e^x` and `max` -/
theorem exp_taylor_one (n : ℕ) :
    ∃ r : ℝ, 1 ≤ r ∧ r ≤ Real.exp 1 ∧
      Real.exp 1 = ∑ k ∈ range n, 1 / (k.factorial : ℝ) + 1 / (n.factorial : ℝ) * r := by
  obtain ⟨ξ, hξ, e⟩ := lagrange (F := fun _ => Real.exp) (c := 0) (x := 1)
    (fun _ t _ => Real.hasDerivAt_exp t) n
  rw [Set.uIcc_of_le zero_le_one] at hξ
  refine ⟨Real.exp ξ, Real.one_le_exp hξ.1, Real.exp_le_exp.2 hξ.2, ?_⟩
  rw [e]; simp; ring

/-- the `k`-th derivative of `sin` -/
noncomputable def sinD (k : ℕ) (t : ℝ) : ℝ :=
  match k % 4 with
  | 0 => Real.sin t
  | 1 => Real.cos t
  | 2 => -Real.sin t
  | _ => -Real.cos t

theorem sinD_hasDeriv (k : ℕ) (t : ℝ) : HasDerivAt (sinD k) (sinD (k + 1) t) t := by
  have h4 : k % 4 = 0 ∨ k % 4 = 1 ∨ k % 4 = 2 ∨ k % 4 = 3 := by omega
  rcases h4 with h | h | h | h
  · have h' : (k + 1) % 4 = 1 := by omega
    have e : sinD k = fun s => Real.sin s := by funext s; simp [sinD, h]
    rw [e]; simpa [sinD, h'] using Real.hasDerivAt_sin t
  · have h' : (k + 1) % 4 = 2 := by omega
    have e : sinD k = fun s => Real.cos s := by funext s; simp [sinD, h]
    rw [e]; simpa [sinD, h'] using Real.hasDerivAt_cos t
  · have h' : (k + 1) % 4 = 3 := by omega
    have e : sinD k = fun s => -Real.sin s := by funext s; simp [sinD, h]
    rw [e]; simpa [sinD, h'] using (Real.hasDerivAt_sin t).fun_neg
  · have h' : (k + 1) % 4 = 0 := by omega
    have e : sinD k = fun s => -Real.cos s := by funext s; simp [sinD, h]
    rw [e]; simpa [sinD, h'] using (Real.hasDerivAt_cos t).fun_neg

theorem abs_sinD_le (k : ℕ) (t : ℝ) : |sinD k t| ≤ 1 := by
  unfold sinD
  split <;> simp [abs_neg, Real.abs_sin_le_one, Real.abs_cos_le_one]

/-- sign of the `k`-th Taylor coefficient of `sin` -/
def sinC (k : ℕ) : ℝ := if k % 2 = 0 then 0 else if k % 4 = 1 then 1 else -1
/-- sign of the `k`-th Taylor coefficient of `cos` -/
def cosC (k : ℕ) : ℝ := if k % 2 = 0 then (if k % 4 = 0 then 1 else -1) else 0

theorem sinD_zero (k : ℕ) : sinD k 0 = sinC k := by
  have h4 : k % 4 = 0 ∨ k % 4 = 1 ∨ k % 4 = 2 ∨ k % 4 = 3 := by omega
  rcases h4 with h | h | h | h
  · simp [sinD, sinC, h, show k % 2 = 0 by omega]
  · simp [sinD, sinC, h, show k % 2 = 1 by omega]
  · simp [sinD, sinC, h, show k % 2 = 0 by omega]
  · simp [sinD, sinC, h, show k % 2 = 1 by omega]

theorem cosD_zero (k : ℕ) : sinD (k + 1) 0 = cosC k := by
  rw [sinD_zero]
  have h4 : k % 4 = 0 ∨ k % 4 = 1 ∨ k % 4 = 2 ∨ k % 4 = 3 := by omega
  rcases h4 with h | h | h | h
  · simp [cosC, sinC, h, show k % 2 = 0 by omega, show (k + 1) % 2 = 1 by omega, show (k + 1) % 4 = 1 by omega]
  · simp [cosC, sinC, show k % 2 = 1 by omega, show (k + 1) % 2 = 0 by omega]
  · simp [cosC, sinC, h, show k % 2 = 0 by omega, show (k + 1) % 2 = 1 by omega, show (k + 1) % 4 = 3 by omega]
  · simp [cosC, sinC, show k % 2 = 1 by omega, show (k + 1) % 2 = 0 by omega]

theorem sin_taylor (x : ℝ) (n : ℕ) : ∃ r : ℝ, -1 ≤ r ∧ r ≤ 1 ∧
    Real.sin x = ∑ k ∈ range n, sinC k * (x ^ k / (k.factorial : ℝ)) + x ^ n / (n.factorial : ℝ) * r := by
  obtain ⟨ξ, -, e⟩ := lagrange (F := sinD) (c := 0) (x := x) (fun k t _ => sinD_hasDeriv k t) n
  have hb := abs_le.1 (abs_sinD_le n ξ)
  refine ⟨sinD n ξ, hb.1, hb.2, ?_⟩
  have e0 : sinD 0 x = Real.sin x := rfl
  rw [← e0, e]
  simp only [sinD_zero, sub_zero]
  congr 1
  · exact sum_congr rfl fun k _ => by ring
  · ring

theorem cos_taylor (x : ℝ) (n : ℕ) : ∃ r : ℝ, -1 ≤ r ∧ r ≤ 1 ∧
    Real.cos x = ∑ k ∈ range n, cosC k * (x ^ k / (k.factorial : ℝ)) + x ^ n / (n.factorial : ℝ) * r := by
  obtain ⟨ξ, -, e⟩ := lagrange (F := fun k => sinD (k + 1)) (c := 0) (x := x)
    (fun k t _ => sinD_hasDeriv (k + 1) t) n
  have hb := abs_le.1 (abs_sinD_le (n + 1) ξ)
  refine ⟨sinD (n + 1) ξ, hb.1, hb.2, ?_⟩
  have e0 : sinD (0 + 1) x = Real.cos x := rfl
  rw [← e0, e]
  simp only [cosD_zero, sub_zero]
  congr 1
  · exact sum_congr rfl fun k _ => by ring
  · ring

/-- `k`-th derivative of `sinh` -/
noncomputable def sinhD (k : ℕ) (t : ℝ) : ℝ := if k % 2 = 0 then Real.sinh t else Real.cosh t

theorem sinhD_hasDeriv (k : ℕ) (t : ℝ) : HasDerivAt (sinhD k) (sinhD (k + 1) t) t := by
  have h4 : k % 2 = 0 ∨ k % 2 = 1 := by omega
  rcases h4 with h | h
  · have h' : (k + 1) % 2 = 1 := by omega
    have e : sinhD k = Real.sinh := by funext s; simp [sinhD, h]
    rw [e]; simpa [sinhD, h'] using Real.hasDerivAt_sinh t
  · have h' : (k + 1) % 2 = 0 := by omega
    have e : sinhD k = Real.cosh := by funext s; simp [sinhD, h]
    rw [e]; simpa [sinhD, h'] using Real.hasDerivAt_cosh t

theorem sinh_taylor {x : ℝ} (hx : |x| ≤ 1 / 2) (n : ℕ) :
    ∃ r : ℝ, -Real.cosh (1 / 2) ≤ r ∧ r ≤ Real.cosh (1 / 2) ∧
    Real.sinh x = ∑ k ∈ range n, (if k % 2 = 0 then 0 else 1) * (x ^ k / (k.factorial : ℝ)) +
      x ^ n / (n.factorial : ℝ) * r := by
  obtain ⟨ξ, hξ, e⟩ := lagrange (F := sinhD) (c := 0) (x := x) (fun k t _ => sinhD_hasDeriv k t) n
  rw [abs_le] at hx
  have h1 : |ξ| ≤ 1 / 2 := by
    rw [abs_le]
    rcases Set.mem_uIcc.1 hξ with h | h <;> constructor <;> linarith [h.1, h.2]
  have hc : Real.cosh ξ ≤ Real.cosh (1 / 2) := by
    rw [Real.cosh_le_cosh]; rwa [abs_of_pos (by norm_num : (0 : ℝ) < 1 / 2)]
  have hb : |sinhD n ξ| ≤ Real.cosh (1 / 2) := by
    unfold sinhD
    split_ifs
    · refine le_trans ?_ hc
      rw [abs_le]
      have := Real.sinh_lt_cosh ξ
      have h2 := Real.sinh_lt_cosh (-ξ)
      rw [Real.sinh_neg, Real.cosh_neg] at h2
      constructor <;> linarith
    · rw [abs_of_pos (Real.cosh_pos ξ)]; exact hc
  have hb := abs_le.1 hb
  refine ⟨sinhD n ξ, hb.1, hb.2, ?_⟩
  have e0 : sinhD 0 x = Real.sinh x := rfl
  rw [← e0, e]
  simp only [sub_zero]
  congr 1
  · refine sum_congr rfl fun k _ => ?_
    unfold sinhD
    split_ifs
    · simp
    · simp
  · ring

/-- Taylor formula of `log` about 1; the remainder is `-(-h/c)^n / n` with `c` between 1 and `x`. -/
theorem log_taylor {x : ℝ} (hx : 0 < x) (n : ℕ) (hn : 0 < n) :
    ∃ c ∈ Set.uIcc 1 x, 0 < c ∧ Real.log x =
      ∑ k ∈ range n, (if k = 0 then 0 else -(-(x - 1)) ^ k / (k : ℝ)) +
        -(-(x - 1) / c) ^ n / (n : ℝ) := by
  set F : ℕ → ℝ → ℝ := fun k t =>
    if k = 0 then Real.log t else -(-1) ^ k * ((k - 1).factorial : ℝ) * t ^ (-(k : ℤ)) with hF
  have hpos : ∀ t ∈ Set.uIcc 1 x, 0 < t := fun t ht => by
    rcases Set.mem_uIcc.1 ht with h | h <;> linarith [h.1, h.2]
  have hder : ∀ k, ∀ t ∈ Set.uIcc 1 x, HasDerivAt (F k) (F (k + 1) t) t := by
    intro k t ht
    have ht0 := hpos t ht
    rcases Nat.eq_zero_or_pos k with rfl | hk
    · have : F 0 = Real.log := by funext s; simp [hF]
      rw [this]
      have := Real.hasDerivAt_log ht0.ne'
      convert! this using 1
      simp [hF]
    · have : F k = fun t => -(-1) ^ k * ((k - 1).factorial : ℝ) * t ^ (-(k : ℤ)) := by
        funext s; simp [hF, hk.ne']
      rw [this]
      have := (hasDerivAt_zpow (-(k : ℤ)) t (Or.inl ht0.ne')).const_mul
        (-(-1) ^ k * ((k - 1).factorial : ℝ))
      convert! this using 1
      obtain ⟨j, rfl⟩ : ∃ j, k = j + 1 := ⟨k - 1, by omega⟩
      simp only [hF, Nat.add_sub_cancel, Nat.succ_ne_zero, if_false]
      rw [Nat.factorial_succ, pow_succ (-1 : ℝ) (j + 1),
        show (-((j + 1 + 1 : ℕ) : ℤ)) = -((j + 1 : ℕ) : ℤ) - 1 by push_cast; ring]
      push_cast
      ring
  obtain ⟨c, hc, e⟩ := lagrange (F := F) (c := 1) (x := x) hder n
  have hc0 := hpos c hc
  refine ⟨c, hc, hc0, ?_⟩
  have fac : ∀ k : ℕ, 0 < k → ((k - 1).factorial : ℝ) / (k.factorial : ℝ) = 1 / k := by
    intro k hk
    obtain ⟨j, rfl⟩ : ∃ j, k = j + 1 := ⟨k - 1, by omega⟩
    rw [Nat.factorial_succ, Nat.add_sub_cancel]
    have : (j.factorial : ℝ) ≠ 0 := by positivity
    push_cast
    field_simp
  have e0 : F 0 x = Real.log x := by simp [hF]
  rw [← e0, e]
  congr 1
  · refine sum_congr rfl fun k _ => ?_
    rcases Nat.eq_zero_or_pos k with rfl | hk
    · simp [hF]
    · simp only [hF, hk.ne', if_false, one_zpow, mul_one]
      calc -(-1 : ℝ) ^ k * ((k - 1).factorial : ℝ) * (x - 1) ^ k / (k.factorial : ℝ)
          = -((-1) ^ k * (x - 1) ^ k) * (((k - 1).factorial : ℝ) / (k.factorial : ℝ)) := by ring
        _ = _ := by rw [fac k hk, ← mul_pow]; ring
  · simp only [hF, hn.ne', if_false]
    calc -(-1 : ℝ) ^ n * ((n - 1).factorial : ℝ) * c ^ (-(n : ℤ)) * (x - 1) ^ n / (n.factorial : ℝ)
        = -((-1) ^ n * (x - 1) ^ n * c ^ (-(n : ℤ))) * (((n - 1).factorial : ℝ) / (n.factorial : ℝ)) := by
          ring
      _ = _ := by
        rw [fac n hn, ← mul_pow, zpow_neg, zpow_natCast, div_pow]
        ring

/-- coefficients of `arctan` -/
noncomputable def atanC (k : ℕ) : ℝ := if k % 2 = 0 then 0 else (if k % 4 = 1 then 1 else -1)

/-- partial sums of the arctan series -/
noncomputable def atanS (n : ℕ) (x : ℝ) : ℝ := ∑ k ∈ range n, atanC k * (x ^ k / (k : ℝ))

/-- derivative of the partial sum: geometric series with exact remainder -/
theorem atanS_deriv (n : ℕ) (t : ℝ) :
    ∃ d, HasDerivAt (atanS n) d t ∧
      |1 / (1 + t ^ 2) - d| ≤ |t| ^ (n - 1) := by
  -- `d = Σ_{k<n} atanC k t^{k-1}`; the remainder is `± t^{2m} / (1+t²)`, `2m ∈ {n-1, n}`
  have hd : ∀ n, HasDerivAt (atanS n) (∑ k ∈ range n, atanC k * t ^ (k - 1)) t := by
    intro n
    have : atanS n = fun x => ∑ k ∈ range n, atanC k * (x ^ k / (k : ℝ)) := rfl
    rw [this]
    refine HasDerivAt.fun_sum fun k _ => ?_
    rcases Nat.eq_zero_or_pos k with rfl | hk
    · simpa [atanC] using hasDerivAt_const t (0 : ℝ)
    · have := ((hasDerivAt_pow k t).div_const (k : ℝ)).const_mul (atanC k)
      convert! this using 1
      field_simp
  have hrem : ∀ m : ℕ, (1 + t ^ 2) * (∑ k ∈ range (2 * m), atanC k * t ^ (k - 1)) =
      1 - (-1) ^ m * t ^ (2 * m) := by
    intro m
    induction m with
    | zero => simp
    | succ m ih =>
      rw [show 2 * (m + 1) = 2 * m + 1 + 1 by ring, sum_range_succ, sum_range_succ, mul_add, mul_add,
        ih]
      have e1 : atanC (2 * m) = 0 := by simp [atanC]
      have e2 : atanC (2 * m + 1) = (-1) ^ m := by
        unfold atanC
        rw [if_neg (by omega)]
        rcases Nat.even_or_odd m with ⟨j, rfl⟩ | ⟨j, rfl⟩
        · rw [if_pos (by omega)]; simp
        · rw [if_neg (by omega)]; simp [pow_succ, pow_mul]
      rw [e1, e2, Nat.add_sub_cancel]
      ring
  refine ⟨_, hd n, ?_⟩
  have hp : (0 : ℝ) < 1 + t ^ 2 := by positivity
  rcases Nat.even_or_odd n with ⟨m, hm⟩ | ⟨m, hm⟩
  · have hm' : n = 2 * m := by omega
    subst hm'
    rcases Nat.eq_zero_or_pos m with rfl | hm0
    · simp only [mul_zero, range_zero, sum_empty, sub_zero, zero_le, Nat.sub_eq_zero_of_le, pow_zero]
      rw [abs_of_pos (by positivity), div_le_one hp]
      nlinarith [sq_nonneg t]
    · have e : 1 / (1 + t ^ 2) - ∑ k ∈ range (2 * m), atanC k * t ^ (k - 1) =
          (-1) ^ m * t ^ (2 * m) / (1 + t ^ 2) := by
        have := hrem m
        field_simp
        linarith
      rw [e, abs_div, abs_mul, abs_pow, abs_neg, abs_one, one_pow, one_mul, abs_pow, abs_of_pos hp,
        div_le_iff₀ hp]
      have h2 : |t| ^ (2 * m) = |t| ^ (2 * m - 1) * |t| := by
        rw [← pow_succ]; congr 1; omega
      rw [h2]
      apply mul_le_mul_of_nonneg_left _ (by positivity)
      nlinarith [sq_nonneg (|t| - 1), sq_abs t, abs_nonneg t]
  · subst hm
    have e : 1 / (1 + t ^ 2) - ∑ k ∈ range (2 * m + 1), atanC k * t ^ (k - 1) =
        (-1) ^ m * t ^ (2 * m) / (1 + t ^ 2) := by
      have := hrem m
      rw [sum_range_succ, show atanC (2 * m) = 0 by simp [atanC]]
      field_simp
      linarith
    rw [e, abs_div, abs_mul, abs_pow, abs_neg, abs_one, one_pow, one_mul, abs_pow, abs_of_pos hp,
      div_le_iff₀ hp, Nat.add_sub_cancel]
    nlinarith [pow_nonneg (abs_nonneg t) (2 * m), sq_nonneg t]

theorem atanS_neg (n : ℕ) (x : ℝ) : atanS n (-x) = -atanS n x := by
  unfold atanS
  rw [← sum_neg_distrib]
  refine sum_congr rfl fun k _ => ?_
  unfold atanC
  split_ifs with h h2
  · simp
  · rw [Odd.neg_pow (Nat.odd_iff.2 (by omega))]; ring
  · rw [Odd.neg_pow (Nat.odd_iff.2 (by omega))]; ring

theorem atan_taylor_nonneg {x : ℝ} (hx : 0 ≤ x) (n : ℕ) (hn : 0 < n) :
    |Real.arctan x - atanS n x| ≤ x ^ n / n := by
  have hb : ∀ σ : ℝ, (σ = 1 ∨ σ = -1) → 0 ≤ x ^ n / n - σ * (Real.arctan x - atanS n x) := by
    intro σ hσ
    choose d hd hdb using atanS_deriv n
    have hmono : MonotoneOn (fun t => t ^ n / n - σ * (Real.arctan t - atanS n t)) (Set.Ici 0) := by
      have hD : ∀ t, HasDerivAt (fun t => t ^ n / n - σ * (Real.arctan t - atanS n t))
          (t ^ (n - 1) - σ * (1 / (1 + t ^ 2) - d t)) t := by
        intro t
        have h1 : HasDerivAt (fun t : ℝ => t ^ n / n) (t ^ (n - 1)) t := by
          have := (hasDerivAt_pow n t).div_const (n : ℝ)
          convert! this using 1
          field_simp
        exact h1.sub (((Real.hasDerivAt_arctan t).sub (hd t)).const_mul σ)
      apply monotoneOn_of_deriv_nonneg (convex_Ici 0)
      · exact fun t _ => (hD t).continuousAt.continuousWithinAt
      · exact fun t _ => (hD t).differentiableAt.differentiableWithinAt
      · intro t ht
        rw [interior_Ici] at ht
        rw [(hD t).deriv]
        have hb := hdb t
        rw [abs_of_pos (show 0 < t from ht), abs_le] at hb
        rcases hσ with rfl | rfl <;> linarith [hb.1, hb.2]
    have := hmono (Set.mem_Ici.2 le_rfl) (Set.mem_Ici.2 hx) hx
    have hS0 : atanS n 0 = 0 := by
      unfold atanS
      refine sum_eq_zero fun k _ => ?_
      rcases Nat.eq_zero_or_pos k with rfl | hk
      · simp [atanC]
      · simp [hk.ne']
    simpa [hS0, hn.ne'] using this
  rw [abs_le]
  constructor
  · have := hb (-1) (Or.inr rfl); linarith
  · have := hb 1 (Or.inl rfl); linarith

theorem atan_taylor (x : ℝ) (n : ℕ) (hn : 0 < n) :
    |Real.arctan x - atanS n x| ≤ |x| ^ n / n := by
  rcases le_total 0 x with h | h
  · rw [abs_of_nonneg h]; exact atan_taylor_nonneg h n hn
  · have := atan_taylor_nonneg (neg_nonneg.2 h) n hn
    rw [Real.arctan_neg, atanS_neg] at this
    rw [abs_of_nonpos h]
    rwa [← neg_sub', abs_neg] at this

end Kv
