import Verif.Special.Beta
import Verif.Special.GammaLemmas
import Mathlib.Analysis.SpecialFunctions.Gamma.Beta

/-!
# Helper lemmas: `beta`
-/

namespace Kv
open PM RopSem MeasureTheory
open Rop (lit)
set_option linter.unusedVariables false

namespace BetaFn
open GammaFn (is_fin is_of_fin is_floor is_lit_int gamma_mul gamma_div toInt point_is)

/-- the beta integral over the real numbers -/
theorem beta_real {x y : ℝ} (hx : 0 < x) (hy : 0 < y) :
    ∫ t in (0 : ℝ)..1, t ^ (x - 1) * (1 - t) ^ (y - 1) = Real.Gamma x * Real.Gamma y / Real.Gamma (x + y) := by
  have h := Complex.betaIntegral_eq_Gamma_mul_div x y (by simpa using hx) (by simpa using hy)
  rw [← Complex.ofReal_add, Complex.Gamma_ofReal, Complex.Gamma_ofReal, Complex.Gamma_ofReal] at h
  have e : Complex.betaIntegral x y = ((∫ t in (0 : ℝ)..1, t ^ (x - 1) * (1 - t) ^ (y - 1) : ℝ) : ℂ) := by
    unfold Complex.betaIntegral
    rw [← intervalIntegral.integral_ofReal]
    refine intervalIntegral.integral_congr fun t ht => ?_
    rw [Set.uIcc_of_le zero_le_one] at ht
    have h1 : ((t : ℂ)) ^ ((x : ℂ) - 1) = ((t ^ (x - 1) : ℝ) : ℂ) := by
      rw [Complex.ofReal_cpow ht.1]; push_cast; rfl
    have h2 : (1 - (t : ℂ)) ^ ((y : ℂ) - 1) = (((1 - t) ^ (y - 1) : ℝ) : ℂ) := by
      rw [Complex.ofReal_cpow (by linarith [ht.2])]; push_cast; rfl
    show (t : ℂ) ^ ((x : ℂ) - 1) * (1 - (t : ℂ)) ^ ((y : ℂ) - 1) = _
    rw [h1, h2]; push_cast; rfl
  rw [e] at h
  exact_mod_cast h

/-! ## integral numbers -/

theorem is_add_int {a b : D} {m n : ℤ} (ha : Is a m) (hb : Is b n) (h : |m + n| ≤ 2 ^ 52) : Is (Rop.add a b) ((m + n : ℤ) : ℝ) := by
  obtain ⟨q, hq, rfl, e⟩ := is_fin ha
  obtain ⟨q', hq', rfl, e'⟩ := is_fin hb
  obtain rfl : q = m := by exact_mod_cast e
  obtain rfl : q' = n := by exact_mod_cast e'
  have hr : binary64.Rep ((m + n : ℤ) : ℚ) := rep_int (h.trans (by decide))
  have e2 : Rop.add (T := D) (Fl.fin (m : ℚ) hq) (Fl.fin (n : ℚ) hq') = Fl.fin ((m + n : ℤ) : ℚ) hr := by
    rw [← Fl.round_of_rep .near hr]
    show Fl.round .near ((m : ℚ) + n) = _
    push_cast; rfl
  rw [e2]
  exact_mod_cast is_of_fin hr

theorem is_sub_one' {y : D} {z : ℤ} (h : Is y z) (hz : |z| ≤ 2 ^ 51) : Is (Rop.sub y (lit 1)) ((z - 1 : ℤ) : ℝ) := by
  obtain ⟨q, hq, rfl, e⟩ := is_fin h
  obtain rfl : q = z := by exact_mod_cast e
  have hr : binary64.Rep ((z - 1 : ℤ) : ℚ) := rep_int (by
    rw [abs_le] at hz ⊢
    have : (2 : ℤ) ^ 51 + 1 ≤ 2 ^ binary64.p := by decide
    omega)
  rw [GammaFn.sub_one_eq hq, Fl.round_of_rep .near hr]
  exact_mod_cast is_of_fin hr

/-- a rounded number which is not large comes from a number which is not large -/
theorem round_bound {q m : ℚ} {hm : binary64.Rep m} {j : ℕ} (hj : j ≤ 50) (h : (Fl.round .near q : Fl binary64) = Fl.fin m hm) (hb : |m| < 2 ^ j) :
    |q| < 2 ^ j := by
  have hp : (2 : ℤ) ^ j ≤ 2 ^ binary64.p := pow_le_pow_right₀ (by norm_num) (hj.trans (by decide))
  have hr : binary64.Rep ((2 ^ j : ℤ) : ℚ) := rep_int (by rwa [abs_of_nonneg (by positivity)])
  have hr' : binary64.Rep ((-2 ^ j : ℤ) : ℚ) := rep_int (by rwa [abs_neg, abs_of_nonneg (by positivity)])
  unfold Fl.round Fl.pack at h
  split_ifs at h with h3
  · have e : binary64.roundQ .near q = m := by injection h
    by_contra hc
    rw [not_lt, le_abs] at hc
    rw [abs_lt] at hb
    rcases hc with hc | hc
    · have := Format.le_roundQ_of_le .near hr.repU (q := q) (by push_cast; exact hc)
      rw [e] at this
      push_cast at this
      linarith [hb.2]
    · have := Format.roundQ_le_of_le .near hr'.repU (q := q) (by push_cast; linarith)
      rw [e] at this
      push_cast at this
      linarith [hb.1]
  · exfalso
    unfold Fl.overflow at h
    cases hd : decide (0 < binary64.roundQ .near q) <;> rw [hd] at h <;> cases h

theorem toInt_ok {a : D} {i : ℤ} (h : toInt a = .ok i) : ∃ q hq, a = Fl.fin q hq ∧ |q| < 2 ^ 45 ∧ ((q = ⌊q⌋) → (i : ℚ) = q) ∧ -2 ^ 31 ≤ i := by
  cases a with
  | nan => cases h
  | pinf => cases h
  | ninf => cases h
  | fin q hq =>
    refine ⟨q, hq, rfl, ?_⟩
    change (if -2 ^ 31 ≤ (if 0 ≤ q then ⌊q⌋ else ⌈q⌉) ∧ (if 0 ≤ q then ⌊q⌋ else ⌈q⌉) < 2 ^ 31 then Except.ok (if 0 ≤ q then ⌊q⌋ else ⌈q⌉)
      else Except.error Err.undefined) = _ at h
    rw [ite_eq_iff] at h
    rcases h with ⟨⟨h1, h2⟩, h3⟩ | ⟨_, h3⟩
    swap
    · cases h3
    injection h3 with h3
    rw [h3] at h1 h2
    by_cases h0 : 0 ≤ q
    · rw [if_pos h0] at h3
      refine ⟨?_, fun e => by rw [← h3]; exact e.symm, h1⟩
      rw [abs_of_nonneg h0]
      have := Int.lt_floor_add_one q
      rw [h3] at this
      have h4 : (i : ℚ) < 2 ^ 31 := by exact_mod_cast h2
      calc q < 2 ^ 31 + 1 := by linarith
        _ < 2 ^ 45 := by norm_num
    · rw [if_neg h0] at h3
      refine ⟨?_, fun e => by
        rw [← h3]
        conv_rhs => rw [e]
        rw [e, Int.ceil_intCast, Int.floor_intCast], h1⟩
      rw [abs_of_neg (not_le.1 h0)]
      have := Int.ceil_lt_add_one q
      rw [h3] at this
      have h4 : (-2 ^ 31 : ℚ) ≤ i := by exact_mod_cast h1
      calc -q < 2 ^ 31 + 1 := by linarith
        _ < 2 ^ 45 := by norm_num

/-- the shifts succeed only for numbers which are not large -/
theorem shift_bound {n : D} (h : (Rop.le (lit 1) n = true ∧ ∃ k, upTo n = .ok k) ∨ ∃ i, toInt (Rop.add n (lit 1)) = .ok i) :
    ∃ q hq, n = Fl.fin q hq ∧ |q| < 2 ^ 46 := by
  obtain ⟨h1, e1⟩ := GammaFn.lit_one_fin
  rcases h with ⟨h2, k, h3⟩ | ⟨i, h3⟩
  · cases n with
    | nan => rw [e1] at h2; cases h2
    | pinf => cases h3
    | ninf => rw [e1] at h2; cases h2
    | fin q hq =>
      refine ⟨q, hq, rfl, ?_⟩
      unfold upTo at h3
      rw [ite_eq_iff] at h3
      rcases h3 with ⟨_, h4⟩ | ⟨h4, _⟩
      · cases h4
      have h5 : (1 : ℚ) ≤ q := by
        have := (Interval.le_of_is Interval.is_one (is_of_fin hq)).1 h2
        exact_mod_cast this
      rw [abs_of_pos (by linarith)]
      rw [not_le] at h4
      calc q < 2 ^ 31 - 1 := h4
        _ < 2 ^ 46 := by norm_num
  · cases n with
    | nan => cases h3
    | pinf => rw [e1] at h3; cases h3
    | ninf => rw [e1] at h3; cases h3
    | fin q hq =>
      refine ⟨q, hq, rfl, ?_⟩
      obtain ⟨m, hm, e2, hb, -, -⟩ := toInt_ok h3
      rw [e1] at e2
      have h5 := abs_lt.1 (round_bound (q := q + 1) (by norm_num) e2 hb)
      rw [abs_lt]
      constructor
      · calc (-2 ^ 46 : ℚ) ≤ -2 ^ 45 - 1 := by norm_num
          _ < q := by linarith [h5.1]
      · calc q < 2 ^ 45 - 1 := by linarith [h5.2]
          _ ≤ 2 ^ 46 := by norm_num

/-- `floor(x.lower()) - 1` is exact when the shift succeeds -/
theorem is_shift {y : D} {z : ℤ} (h : Is y z) {q : ℚ} {hq : binary64.Rep q} (e : Rop.sub y (lit 1) = Fl.fin q hq) (hb : |q| < 2 ^ 46) :
    |z| ≤ 2 ^ 47 ∧ Is (Rop.sub y (lit 1)) ((z - 1 : ℤ) : ℝ) := by
  have hz : |z| ≤ 2 ^ 47 := by
    obtain ⟨m, hm, rfl, e2⟩ := is_fin h
    obtain rfl : m = z := by exact_mod_cast e2
    rw [GammaFn.sub_one_eq hm] at e
    have h1 := abs_lt.1 (round_bound (by norm_num) e hb)
    have h2 : (-2 ^ 46 : ℤ) < z - 1 := by exact_mod_cast h1.1
    have h3 : z - 1 < (2 ^ 46 : ℤ) := by exact_mod_cast h1.2
    rw [abs_le]; constructor <;> omega
  exact ⟨hz, is_sub_one' h (hz.trans (by norm_num))⟩

theorem upTo_eq {n : D} {z : ℤ} {k : ℕ} (h : Is n z) (hk : upTo n = .ok k) : k = z.toNat ∧ z < 2 ^ 31 := by
  obtain ⟨q, hq, rfl, e⟩ := is_fin h
  obtain rfl : q = z := by exact_mod_cast e
  unfold upTo at hk
  rw [ite_eq_iff] at hk
  rcases hk with ⟨_, h4⟩ | ⟨h4, h5⟩
  · cases h4
  · rw [Int.floor_intCast] at h5
    injection h5 with h5
    rw [not_le] at h4
    have : (z : ℚ) < 2 ^ 31 := by linarith
    exact ⟨h5.symm, by exact_mod_cast this⟩

theorem toInt_add_one {n : D} {z i : ℤ} (h : Is n z) (hz : |z| ≤ 2 ^ 50) (hi : toInt (Rop.add n (lit 1)) = .ok i) : i = z + 1 ∧ -2 ^ 31 ≤ i := by
  have h1 : Is (Rop.add n (lit 1)) ((z + 1 : ℤ) : ℝ) := is_add_int (n := 1) h (by have := Interval.is_one (T := D); exact_mod_cast this) (by
    rw [abs_le] at hz ⊢; constructor <;> omega)
  obtain ⟨q, hq, e, e2⟩ := is_fin h1
  obtain ⟨q', hq', e', -, h3, h4⟩ := toInt_ok hi
  rw [e] at e'
  injection e' with e'
  subst e'
  obtain rfl : q = ((z + 1 : ℤ) : ℚ) := by exact_mod_cast e2
  exact ⟨by exact_mod_cast h3 (by rw [Int.floor_intCast]), h4⟩

/-! ## the loops -/

variable {X Z : Interval D} {x : ℝ}

/-- `∏_{i ≤ j < i+k} (x - j)` -/
noncomputable def fac (x : ℝ) : ℕ → ℤ → ℝ
  | 0, _ => 1
  | k + 1, i => (x - i) * fac x k (i + 1)

theorem mulFrom_mem (hx : x ∈ X) : ∀ (k : ℕ) (i : ℤ) (r : Interval D) (g : ℝ), |i| + k ≤ 2 ^ 40 → g ∈ r → g * fac x k i ∈ mulFrom X k i r
  | 0, i, r, g, _, hg => by simpa [mulFrom, fac] using hg
  | k + 1, i, r, g, hk, hg => by
    have h1 : |i + 1| ≤ |i| + 1 := abs_add_le i 1
    have := mulFrom_mem hx k (i + 1) _ _ (by push_cast at hk; linarith) (Interval.mul_mem hg (Interval.subS_mem hx (is_lit_int (n := i) (by
      push_cast at hk; have : (0 : ℤ) ≤ k := by positivity
      linarith))))
    rwa [fac, ← mul_assoc]

theorem divFrom_mem (hx : x ∈ X) : ∀ (k : ℕ) (i : ℤ) (r : Interval D) (g : ℝ), |i| + k ≤ 2 ^ 40 → g ∈ r → ∀ Z, divFrom X k i r = .ok Z →
    fac x k i ≠ 0 ∧ g / fac x k i ∈ Z
  | 0, i, r, g, _, hg, Z, h => by cases h; exact ⟨by simp [fac], by simpa [fac] using hg⟩
  | k + 1, i, r, g, hk, hg, Z, h => by
    obtain ⟨r', hr, h2⟩ := bind_ok.1 h
    have h1 : |i + 1| ≤ |i| + 1 := abs_add_le i 1
    have hd := Interval.subS_mem hx (is_lit_int (n := i) (by
      push_cast at hk; have : (0 : ℤ) ≤ k := by positivity
      linarith))
    have hne := div_ok_ne hr hd
    obtain ⟨h3, h4⟩ := divFrom_mem hx k (i + 1) r' _ (by push_cast at hk; linarith) (Interval.div_mem hr hg hd) Z h2
    exact ⟨mul_ne_zero hne h3, by rwa [fac, ← div_div]⟩

theorem fac_one (x : ℝ) (k : ℕ) (i : ℕ) : fac x k (i + 1 : ℕ) = ∏ j ∈ Finset.range k, (x - ((i + j : ℕ) + 1 : ℕ)) := by
  induction k generalizing i with
  | zero => simp [fac]
  | succ k ih =>
    rw [fac, Finset.prod_range_succ']
    have := ih (i + 1)
    rw [show (((i + 1 : ℕ) : ℤ) + 1) = ((i + 1 + 1 : ℕ) : ℤ) by push_cast; rfl, this, mul_comm]
    congr 1
    exact Finset.prod_congr rfl fun j _ => by push_cast; ring

theorem fac_neg (x : ℝ) (k : ℕ) : fac x k (1 - k) = ∏ j ∈ Finset.range k, (x + j) := by
  induction k with
  | zero => simp [fac]
  | succ k ih =>
    rw [fac, Finset.prod_range_succ, show (1 - ((k + 1 : ℕ) : ℤ) + 1) = 1 - (k : ℤ) by push_cast; ring, ih, mul_comm]
    push_cast; ring

theorem toNat_cast {z : ℤ} (h : 0 ≤ z) : ((z.toNat : ℕ) : ℝ) = z := by
  have : ((z.toNat : ℕ) : ℤ) = z := Int.toNat_of_nonneg h
  rw [← Int.cast_natCast, this]

theorem shiftNum_mem {n : D} {z : ℤ} {r : Interval D} {w : ℝ} (hn : Is n z) (hz : |z| ≤ 2 ^ 50) (hx : x ∈ X) (h0 : 0 < x - z)
    (hg : Real.Gamma (x - z) * w ∈ r) (h : shiftNum X n r = .ok Z) : Real.Gamma x * w ∈ Z ∧ ∀ m : ℕ, x ≠ -m := by
  unfold shiftNum at h
  by_cases h1 : Rop.le (lit 1) n = true
  · rw [if_pos h1] at h
    rw [Interval.le_of_is Interval.is_one hn] at h1
    have h1' : 1 ≤ z := by exact_mod_cast h1
    obtain ⟨k, hk, h2⟩ := bind_ok.1 h
    injection h2 with h2
    obtain ⟨rfl, h3⟩ := upTo_eq hn hk
    have h4 := mulFrom_mem hx z.toNat 1 r _ (by rw [abs_one]; omega) hg
    have h5 := fac_one x z.toNat 0
    simp only [Nat.zero_add, Nat.cast_one] at h5
    rw [h5, mul_right_comm] at h4
    rw [← toNat_cast (by omega : 0 ≤ z)] at h0 h4
    rw [← gamma_mul x _ h0] at h4
    rw [h2] at h4
    refine ⟨h4, fun m hm => ?_⟩
    have a1 : (0 : ℝ) ≤ m := m.cast_nonneg
    have a2 : (0 : ℝ) ≤ (z.toNat : ℕ) := Nat.cast_nonneg _
    linarith
  · rw [if_neg h1] at h
    rw [Interval.le_of_is Interval.is_one hn, not_le] at h1
    have h1' : z < 1 := by exact_mod_cast h1
    obtain ⟨i, hi, h2⟩ := bind_ok.1 h
    obtain ⟨rfl, h3⟩ := toInt_add_one hn hz hi
    have ek : (z + 1 : ℤ) = 1 - ((1 - (z + 1)).toNat : ℕ) := by omega
    have er : (((1 - (z + 1)).toNat : ℕ) : ℝ) = -(z : ℝ) := by rw [toNat_cast (by omega)]; push_cast; ring
    have hb32 : |z + 1| + ((1 - (z + 1)).toNat : ℤ) ≤ 2 ^ 40 := by
      have : |z + 1| ≤ 2 ^ 32 := abs_le.2 ⟨by omega, by omega⟩
      omega
    obtain ⟨h4, h5⟩ := divFrom_mem hx _ _ r _ hb32 hg Z h2
    rw [ek] at h4 h5
    rw [show (1 - (1 - (((1 - (z + 1)).toNat : ℕ) : ℤ))).toNat = (1 - (z + 1)).toNat by omega] at h4 h5
    rw [fac_neg] at h4 h5
    have h6 : ∀ j < (1 - (z + 1)).toNat, x + (j : ℝ) ≠ 0 := fun j hj => Finset.prod_ne_zero_iff.1 h4 j (Finset.mem_range.2 hj)
    have e := gamma_div x _ h6
    rw [er, ← sub_eq_add_neg] at e
    rw [← e, mul_right_comm, mul_div_cancel_right₀ _ h4] at h5
    refine ⟨h5, fun m hm => ?_⟩
    by_cases hj : m < (1 - (z + 1)).toNat
    · exact h6 m hj (by rw [hm]; ring)
    · have : (((1 - (z + 1)).toNat : ℕ) : ℝ) ≤ m := by exact_mod_cast not_lt.1 hj
      linarith

theorem shiftDen_mem {n : D} {z : ℤ} {r : Interval D} {w : ℝ} (hn : Is n z) (hz : |z| ≤ 2 ^ 50) (hx : x ∈ X) (h0 : 0 < x - z)
    (hg : w / Real.Gamma (x - z) ∈ r) (h : shiftDen X n r = .ok Z) : w / Real.Gamma x ∈ Z := by
  unfold shiftDen at h
  by_cases h1 : Rop.le (lit 1) n = true
  · rw [if_pos h1] at h
    rw [Interval.le_of_is Interval.is_one hn] at h1
    have h1' : 1 ≤ z := by exact_mod_cast h1
    obtain ⟨k, hk, h2⟩ := bind_ok.1 h
    obtain ⟨rfl, h3⟩ := upTo_eq hn hk
    obtain ⟨-, h4⟩ := divFrom_mem hx z.toNat 1 r _ (by rw [abs_one]; omega) hg Z h2
    have h5 := fac_one x z.toNat 0
    simp only [Nat.zero_add, Nat.cast_one] at h5
    rw [h5, div_div] at h4
    rw [← toNat_cast (by omega : 0 ≤ z)] at h0 h4
    rwa [← gamma_mul x _ h0] at h4
  · rw [if_neg h1] at h
    rw [Interval.le_of_is Interval.is_one hn, not_le] at h1
    have h1' : z < 1 := by exact_mod_cast h1
    obtain ⟨i, hi, h2⟩ := bind_ok.1 h
    injection h2 with h2
    obtain ⟨rfl, h3⟩ := toInt_add_one hn hz hi
    have ek : (z + 1 : ℤ) = 1 - ((1 - (z + 1)).toNat : ℕ) := by omega
    have er : (((1 - (z + 1)).toNat : ℕ) : ℝ) = -(z : ℝ) := by rw [toNat_cast (by omega)]; push_cast; ring
    have hb32 : |z + 1| + ((1 - (z + 1)).toNat : ℤ) ≤ 2 ^ 40 := by
      have : |z + 1| ≤ 2 ^ 32 := abs_le.2 ⟨by omega, by omega⟩
      omega
    have h5 := mulFrom_mem hx (1 - (z + 1)).toNat (z + 1) r _ hb32 hg
    rw [h2] at h5
    have ef : fac x (1 - (z + 1)).toNat (z + 1) = ∏ j ∈ Finset.range (1 - (z + 1)).toNat, (x + j) := by
      conv_lhs => rw [ek]
      rw [show (1 - (1 - (((1 - (z + 1)).toNat : ℕ) : ℤ))).toNat = (1 - (z + 1)).toNat by omega, fac_neg]
    rw [ef] at h5
    by_cases h6 : ∀ j < (1 - (z + 1)).toNat, x + (j : ℝ) ≠ 0
    · have e := gamma_div x _ h6
      rw [er, ← sub_eq_add_neg] at e
      have h4 := Finset.prod_ne_zero_iff.2 fun j hj => h6 j (Finset.mem_range.1 hj)
      rwa [← e, div_mul_eq_div_div, div_mul_cancel₀ _ h4] at h5
    · push Not at h6
      obtain ⟨j, hj, h7⟩ := h6
      rw [Finset.prod_eq_zero (Finset.mem_range.2 hj) h7, mul_zero] at h5
      have h8 : Real.Gamma x = 0 := by
        rw [show x = -(j : ℝ) by linarith]; exact Real.Gamma_neg_nat_eq_zero j
      rwa [h8, div_zero]

end BetaFn
end Kv
