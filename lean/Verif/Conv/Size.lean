import Verif.Conv.ReadMain
import Verif.Conv.Print

/-!
# The number of printed digits is bounded
-/

namespace Kv
namespace Conv
open Rop (lit)

theorem intLoop_len {b B : ℕ} {mOf : ℕ → ℕ} {c : ℕ} (hm : ∀ n, mOf n ≤ c) (fuel : ℕ) (ds : List ℕ) :
    (intLoop b B mOf fuel ds).length ≤ c * fuel := by
  induction fuel generalizing ds with
  | zero => simp [intLoop]
  | succ n ih =>
    rw [intLoop]
    split_ifs
    · simp
    · rw [List.length_append, digitsLE_length, mul_add, mul_one, add_comm]
      exact add_le_add (ih _) (hm _)

theorem fracLoop_len (fuel : ℕ) (ds : List ℕ) : (fracLoop fuel ds).length ≤ 8 * fuel := by
  induction fuel generalizing ds with
  | zero => simp [fracLoop]
  | succ n ih =>
    rw [fracLoop]
    split_ifs
    · simp
    · rw [List.length_append, digitsBE_length, mul_add, mul_one, add_comm]
      exact add_le_add (ih _) (min_le_left _ _)

theorem bitLoop_len (n : ℕ) (t : ℚ) (e : ℤ) : (bitLoop n t e).length ≤ n := by
  induction n generalizing t e with
  | zero => simp [bitLoop]
  | succ n ih =>
    rw [bitLoop]
    simp only [List.length_cons]
    split_ifs
    · simp
    · exact Nat.succ_le_succ (ih _ _)
    · simp
    · exact Nat.succ_le_succ (ih _ _)

theorem mDec_le (n : ℕ) : mDec n ≤ 5 := by unfold mDec; split_ifs <;> norm_num

theorem toDec_len {q : ℚ} (hq : 0 < q) (hr : binary64.Rep q) : (toDec q).ds.length ≤ 20000 := by
  have hlo : (2 : ℚ) ^ Int.log 2 q ≤ q := by exact_mod_cast Int.zpow_log_le_self (b := 2) (by norm_num) hq
  have hhi : q < (2 : ℚ) ^ (Int.log 2 q + 1) := by exact_mod_cast Int.lt_zpow_succ_log_self (b := 2) (by norm_num) q
  have h1 : Int.log 2 q ≤ 1024 := by
    have := hlo.trans ((le_abs_self q).trans (hr.abs_le.trans maxQ_lt))
    exact (zpow_le_zpow_iff_right₀ (by norm_num : (1 : ℚ) < 2)).1 this
  have h2 : -1074 ≤ Int.log 2 q := by
    have : (2 : ℚ) ^ (-1074 : ℤ) < 2 ^ (Int.log 2 q + 1) := by
      refine lt_of_le_of_lt ?_ hhi
      obtain ⟨m, e, hm, he, -, rfl⟩ := hr
      have hm0 : 1 ≤ m := by
        by_contra hc
        have : (m : ℚ) ≤ 0 := by exact_mod_cast (by omega : m ≤ 0)
        exact absurd hq (not_lt.2 (mul_nonpos_of_nonpos_of_nonneg this (zpow_nonneg (by norm_num) _)))
      calc (2 : ℚ) ^ (-1074 : ℤ) ≤ 2 ^ e := zpow_le_zpow_right₀ (by norm_num) he
        _ = 1 * 2 ^ e := (one_mul _).symm
        _ ≤ m * 2 ^ e := mul_le_mul_of_nonneg_right (by exact_mod_cast hm0) (zpow_nonneg (by norm_num) _)
    have := (zpow_lt_zpow_iff_right₀ (by norm_num : (1 : ℚ) < 2)).1 this
    omega
  unfold toDec
  dsimp only
  generalize Int.log 2 q = ex at *
  have hb := bitLoop_len 53 q ex
  generalize bitLoop 53 q ex = l at hb
  rw [List.length_append, List.length_reverse]
  refine (add_le_add (fracLoop_len _ _) (intLoop_len mDec_le _ _)).trans ?_
  by_cases hx : ex < 0
  · rw [if_pos hx, if_pos hx]
    simp only [List.length_append, List.length_replicate, List.length_singleton]
    omega
  · rw [if_neg hx, if_neg hx]
    simp only [List.length_drop, List.length_take, List.length_append, List.length_replicate]
    omega

end Conv
end Kv
