import Verif.Float.Lemmas

/-! # Helper lemmas: the square root is correctly rounded -/

namespace Kv
namespace Fl
open Format
variable {F : Format}

/-- Exponent used by `sqrtQ`. -/
def sqrtExp (F : Format) (q : ℚ) : ℤ := max F.emin (Int.log 2 q / 2 - (F.p - 1))

/-- Scaled radicand used by `sqrtQ`. -/
def sqrtT (F : Format) (q : ℚ) : ℚ := q / 4 ^ sqrtExp F q

/-- Integer root used by `sqrtQ`. -/
def sqrtS (F : Format) (q : ℚ) : ℕ := Nat.sqrt ⌊sqrtT F q⌋₊

theorem sqrtT_nonneg {q : ℚ} (hq : 0 ≤ q) : 0 ≤ sqrtT F q := by
  exact div_nonneg hq (zpow_pos (by norm_num) _).le

theorem four_zpow (e : ℤ) : (4 : ℚ) ^ e = 2 ^ e * 2 ^ e := by
  rw [← mul_zpow]; norm_num

theorem sqrtS_sq_le {q : ℚ} (hq : 0 ≤ q) : (sqrtS F q : ℚ) * sqrtS F q ≤ sqrtT F q := by
  have h := Nat.sqrt_le ⌊sqrtT F q⌋₊
  have h2 := Nat.floor_le (sqrtT_nonneg (F := F) hq)
  have h3 : ((sqrtS F q * sqrtS F q : ℕ) : ℚ) ≤ (⌊sqrtT F q⌋₊ : ℚ) := by exact_mod_cast h
  push_cast at h3
  linarith

theorem lt_sqrtS_succ_sq {q : ℚ} : sqrtT F q < ((sqrtS F q : ℚ) + 1) * (sqrtS F q + 1) := by
  have h := Nat.lt_succ_sqrt ⌊sqrtT F q⌋₊
  have h2 := Nat.lt_floor_add_one (sqrtT F q)
  have h3 : ⌊sqrtT F q⌋₊ + 1 ≤ (sqrtS F q + 1) * (sqrtS F q + 1) := h
  have h4 : ((⌊sqrtT F q⌋₊ + 1 : ℕ) : ℚ) ≤ (((sqrtS F q + 1) * (sqrtS F q + 1) : ℕ) : ℚ) := by
    exact_mod_cast h3
  push_cast at h4
  linarith

theorem mul_le_real_sqrt {q : ℚ} {m : ℤ} {e : ℤ} (h : (m : ℚ) * m ≤ q / 4 ^ e) :
    (((m : ℚ) * 2 ^ e : ℚ) : ℝ) ≤ Real.sqrt q := by
  apply Real.le_sqrt_of_sq_le
  have h2 : ((m : ℚ) * 2 ^ e) ^ 2 ≤ q := by
    rw [le_div_iff₀ (zpow_pos (by norm_num) e), four_zpow] at h
    nlinarith
  exact_mod_cast h2

theorem real_sqrt_le_mul {q : ℚ} {m : ℤ} {e : ℤ} (hm : 0 ≤ m) (h : q / 4 ^ e ≤ (m : ℚ) * m) :
    Real.sqrt q ≤ (((m : ℚ) * 2 ^ e : ℚ) : ℝ) := by
  have hpos : (0 : ℚ) ≤ (m : ℚ) * 2 ^ e :=
    mul_nonneg (by exact_mod_cast hm) (two_zpow_pos e).le
  apply Real.sqrt_le_iff.2
  refine ⟨by exact_mod_cast hpos, ?_⟩
  have h2 : q ≤ ((m : ℚ) * 2 ^ e) ^ 2 := by
    rw [div_le_iff₀ (zpow_pos (by norm_num) e), four_zpow] at h
    nlinarith
  exact_mod_cast h2

theorem log_half_bounds {q : ℚ} (hq : 0 < q) :
    (2 : ℚ) ^ (Int.log 2 q / 2) * 2 ^ (Int.log 2 q / 2) ≤ q ∧
    q < 2 ^ (Int.log 2 q / 2 + 1) * 2 ^ (Int.log 2 q / 2 + 1) := by
  have h1 := Int.zpow_log_le_self (b := 2) (r := q) (by norm_num) hq
  have h2 := Int.lt_zpow_succ_log_self (b := 2) (by norm_num) q
  push_cast at h1 h2
  constructor
  · refine le_trans ?_ h1
    rw [← zpow_add₀ (by norm_num)]
    exact zpow_le_zpow_right₀ (by norm_num) (by omega)
  · refine lt_of_lt_of_le h2 ?_
    rw [← zpow_add₀ (by norm_num)]
    exact zpow_le_zpow_right₀ (by norm_num) (by omega)

theorem sqrtExp_ge_emin (q : ℚ) : F.emin ≤ sqrtExp F q := le_max_left _ _

theorem sqrtS_lt {q : ℚ} (hq : 0 ≤ q) : sqrtS F q < 2 ^ F.p := by
  by_contra hc
  have hc : 2 ^ F.p ≤ sqrtS F q := not_lt.1 hc
  have h1 := sqrtS_sq_le (F := F) hq
  have hc' : (2 : ℚ) ^ F.p ≤ sqrtS F q := by exact_mod_cast hc
  have h2 : (2 : ℚ) ^ F.p * 2 ^ F.p ≤ sqrtT F q := by
    refine le_trans ?_ h1
    exact mul_le_mul hc' hc' (by positivity) (by positivity)
  unfold sqrtT at h2
  rw [le_div_iff₀ (zpow_pos (by norm_num) _), four_zpow] at h2
  rcases eq_or_lt_of_le hq with h0 | h0
  · rw [← h0] at h2
    have : (0 : ℚ) < 2 ^ F.p * 2 ^ F.p * (2 ^ sqrtExp F 0 * 2 ^ sqrtExp F 0) := by
      have := two_zpow_pos (sqrtExp F 0); positivity
    linarith
  · have h3 := (log_half_bounds h0).2
    have h4 : Int.log 2 q / 2 + 1 ≤ F.p + sqrtExp F q := by
      have : Int.log 2 q / 2 - (F.p - 1) ≤ sqrtExp F q := le_max_right _ _
      omega
    have h5 : (2 : ℚ) ^ (Int.log 2 q / 2 + 1) ≤ 2 ^ F.p * 2 ^ sqrtExp F q := by
      rw [← zpow_natCast, ← zpow_add₀ (by norm_num)]
      exact zpow_le_zpow_right₀ (by norm_num) h4
    have h6 := mul_le_mul h5 h5 (two_zpow_pos _).le
      (mul_nonneg (by positivity) (two_zpow_pos _).le)
    nlinarith

/-- Numbers with an exponent below that of the root are smaller than the root. -/
theorem small_lt_root {q : ℚ} (hq : 0 < q) {m e' : ℤ} (hm : |m| < 2 ^ F.p)
    (he' : F.emin ≤ e') (hlt : e' < sqrtExp F q) :
    |(m : ℚ) * 2 ^ e'| < 2 ^ (F.p - 1) * 2 ^ sqrtExp F q ∧
    ((2 : ℚ) ^ (F.p - 1)) * 2 ^ (F.p - 1) ≤ sqrtT F q := by
  have he : sqrtExp F q = Int.log 2 q / 2 - (F.p - 1) := by
    unfold sqrtExp at hlt ⊢
    rcases max_choice F.emin (Int.log 2 q / 2 - (F.p - 1)) with h | h <;> omega
  have hp := F.one_lt_p
  constructor
  · rw [abs_mul, abs_of_pos (two_zpow_pos e')]
    have h1 : |(m : ℚ)| < 2 ^ F.p := by exact_mod_cast hm
    calc |(m : ℚ)| * 2 ^ e' < 2 ^ F.p * 2 ^ e' := mul_lt_mul_of_pos_right h1 (two_zpow_pos e')
      _ = 2 ^ (F.p + e') := by rw [zpow_add₀ (by norm_num), zpow_natCast]
      _ ≤ 2 ^ (((F.p - 1 : ℕ) : ℤ) + sqrtExp F q) :=
          zpow_le_zpow_right₀ (by norm_num) (by omega)
      _ = _ := by rw [zpow_add₀ (by norm_num), zpow_natCast]
  · unfold sqrtT
    rw [le_div_iff₀ (zpow_pos (by norm_num) _), four_zpow]
    have h1 := (log_half_bounds hq).1
    have h2 : (2 : ℚ) ^ (Int.log 2 q / 2) = 2 ^ (F.p - 1) * 2 ^ sqrtExp F q := by
      rw [← zpow_natCast, ← zpow_add₀ (by norm_num)]
      congr 1; omega
    rw [h2] at h1
    nlinarith

theorem int_mul_self_le_of_abs {m n : ℤ} (h : |m| ≤ n) : m * m ≤ n * n := by
  have := abs_le.1 h; nlinarith [abs_nonneg m, abs_mul_abs_self m]

/-- Every number of the format not above the root is at most `s * 2^e`. -/
theorem RepU_le_sqrtS {q b : ℚ} (hq : 0 ≤ q) (hb : F.RepU b) (h : (b : ℝ) ≤ Real.sqrt q) :
    b ≤ (sqrtS F q : ℚ) * 2 ^ sqrtExp F q := by
  have hnn : (0 : ℚ) ≤ (sqrtS F q : ℚ) * 2 ^ sqrtExp F q :=
    mul_nonneg (by positivity) (two_zpow_pos _).le
  rcases le_or_gt b 0 with hb0 | hb0
  · linarith
  have hbq : b * b ≤ q := by
    have h1 := Real.sq_sqrt (x := (q : ℝ)) (by exact_mod_cast hq)
    have h2 : (0 : ℝ) < b := by exact_mod_cast hb0
    have h3 : (b : ℝ) * b ≤ q := by nlinarith
    exact_mod_cast h3
  obtain ⟨m, e', hm, he', rfl⟩ := hb
  have hqpos : 0 < q := lt_of_lt_of_le (mul_pos hb0 hb0) hbq
  rcases le_or_gt (sqrtExp F q) e' with hle | hlt
  · obtain ⟨k, hk⟩ := Int.le.dest hle
    have hint : (m : ℚ) * 2 ^ e' = ((m * 2 ^ k : ℤ) : ℚ) * 2 ^ sqrtExp F q := by
      rw [← hk, zpow_add₀ (by norm_num), zpow_natCast]; push_cast; ring
    rw [hint] at hbq hb0 ⊢
    have hMpos : (0 : ℚ) < ((m * 2 ^ k : ℤ) : ℚ) := pos_of_mul_pos_left hb0 (two_zpow_pos _).le
    have hM : ((m * 2 ^ k : ℤ) : ℚ) * ((m * 2 ^ k : ℤ) : ℚ) ≤ sqrtT F q := by
      unfold sqrtT
      rw [le_div_iff₀ (zpow_pos (by norm_num) _), four_zpow]; nlinarith
    have h2 := lt_of_le_of_lt hM (lt_sqrtS_succ_sq (F := F) (q := q))
    have h3 : ((m * 2 ^ k : ℤ) : ℚ) < (sqrtS F q : ℚ) + 1 := by
      by_contra hc
      have hc := not_lt.1 hc
      have : (0 : ℚ) ≤ (sqrtS F q : ℚ) + 1 := by positivity
      have := mul_le_mul hc hc this hMpos.le
      linarith
    have h4 : m * 2 ^ k < (sqrtS F q : ℤ) + 1 := by exact_mod_cast h3
    have h5 : m * 2 ^ k ≤ (sqrtS F q : ℤ) := by omega
    have h6 : ((m * 2 ^ k : ℤ) : ℚ) ≤ (sqrtS F q : ℚ) := by exact_mod_cast h5
    exact mul_le_mul_of_nonneg_right h6 (two_zpow_pos _).le
  · obtain ⟨h1, h2⟩ := small_lt_root (F := F) hqpos hm he' hlt
    have h3 := lt_of_le_of_lt h2 (lt_sqrtS_succ_sq (F := F) (q := q))
    have h4 : (2 : ℚ) ^ (F.p - 1) < (sqrtS F q : ℚ) + 1 := by
      by_contra hc
      have hc := not_lt.1 hc
      have : (0 : ℚ) ≤ (sqrtS F q : ℚ) + 1 := by positivity
      have := mul_le_mul hc hc this (by positivity)
      linarith
    have h5 : 2 ^ (F.p - 1) < sqrtS F q + 1 := by exact_mod_cast h4
    have h6 : 2 ^ (F.p - 1) ≤ sqrtS F q := by omega
    have h7 : (2 : ℚ) ^ (F.p - 1) ≤ (sqrtS F q : ℚ) := by exact_mod_cast h6
    have h8 := mul_le_mul_of_nonneg_right h7 (two_zpow_pos (sqrtExp F q)).le
    have := (abs_lt.1 h1).2
    linarith

/-- Every number of the format not below the root is at least `n * 2^e` when `(n-1)^2 < t`. -/
theorem le_RepU_of_sqrt {q b : ℚ} (hq : 0 ≤ q) (hb : F.RepU b) (h : Real.sqrt q ≤ (b : ℝ))
    {n : ℕ} (hn : n ≤ sqrtS F q + 1) (hn2 : n = 0 ∨ ((n : ℚ) - 1) * (n - 1) < sqrtT F q) :
    (n : ℚ) * 2 ^ sqrtExp F q ≤ b := by
  have hb0 : (0 : ℚ) ≤ b := by
    have := le_trans (Real.sqrt_nonneg _) h
    exact_mod_cast this
  rcases hn2 with rfl | hn2
  · simpa using hb0
  by_cases hn0 : n = 0
  · subst hn0; simpa using hb0
  have hbq : q ≤ b * b := by
    have h1 := Real.sqrt_le_iff.1 h
    have h3 : (q : ℝ) ≤ (b : ℝ) * b := by nlinarith [h1.2]
    exact_mod_cast h3
  obtain ⟨m, e', hm, he', rfl⟩ := hb
  rcases eq_or_lt_of_le hq with h0 | hqpos
  · exfalso
    have : sqrtT F q = 0 := by unfold sqrtT; rw [← h0]; simp
    rw [this] at hn2
    nlinarith [mul_self_nonneg ((n : ℚ) - 1)]
  rcases le_or_gt (sqrtExp F q) e' with hle | hlt
  · obtain ⟨k, hk⟩ := Int.le.dest hle
    have hint : (m : ℚ) * 2 ^ e' = ((m * 2 ^ k : ℤ) : ℚ) * 2 ^ sqrtExp F q := by
      rw [← hk, zpow_add₀ (by norm_num), zpow_natCast]; push_cast; ring
    rw [hint] at hbq hb0 ⊢
    have hMnn : (0 : ℚ) ≤ ((m * 2 ^ k : ℤ) : ℚ) := by
      by_contra hc
      have := mul_neg_of_neg_of_pos (not_le.1 hc) (two_zpow_pos (sqrtExp F q))
      linarith
    have hM : sqrtT F q ≤ ((m * 2 ^ k : ℤ) : ℚ) * ((m * 2 ^ k : ℤ) : ℚ) := by
      unfold sqrtT
      rw [div_le_iff₀ (zpow_pos (by norm_num) _), four_zpow]; nlinarith
    have h2 := lt_of_lt_of_le hn2 hM
    have hn1 : (1 : ℚ) ≤ n := by
      have : 1 ≤ n := by omega
      exact_mod_cast this
    have h3 : (n : ℚ) - 1 < ((m * 2 ^ k : ℤ) : ℚ) := by
      by_contra hc
      have hc := not_lt.1 hc
      have := mul_le_mul hc hc hMnn (by linarith)
      linarith
    have h4 : (n : ℤ) - 1 < m * 2 ^ k := by exact_mod_cast h3
    have h5 : (n : ℤ) ≤ m * 2 ^ k := by omega
    have h6 : (n : ℚ) ≤ ((m * 2 ^ k : ℤ) : ℚ) := by exact_mod_cast h5
    exact mul_le_mul_of_nonneg_right h6 (two_zpow_pos _).le
  · exfalso
    obtain ⟨h1, h2⟩ := small_lt_root (F := F) hqpos hm he' hlt
    rw [abs_of_nonneg hb0] at h1
    unfold sqrtT at h2
    rw [le_div_iff₀ (zpow_pos (by norm_num) _), four_zpow] at h2
    have hpos : (0 : ℚ) ≤ 2 ^ (F.p - 1) * 2 ^ sqrtExp F q :=
      mul_nonneg (by positivity) (two_zpow_pos _).le
    have := mul_lt_mul'' h1 h1 hb0 hb0
    nlinarith

theorem sqrtQ_down (q : ℚ) : sqrtQ F .down q = (sqrtS F q : ℚ) * 2 ^ sqrtExp F q := rfl

theorem sqrtQ_up (q : ℚ) : sqrtQ F .up q =
    ((if (sqrtS F q : ℚ) * sqrtS F q = sqrtT F q then sqrtS F q else sqrtS F q + 1 : ℕ) : ℚ)
      * 2 ^ sqrtExp F q := rfl

theorem sqrt_up_isUp {q : ℚ} (h : F.Rep q) (hq : 0 ≤ q) :
    IsUp ((Real.sqrt q : ℝ) : EReal) (sqrt .up (fin q h)) := by
  have hS := sqrtS_sq_le (F := F) hq
  have hS2 := lt_sqrtS_succ_sq (F := F) (q := q)
  set n : ℕ := if (sqrtS F q : ℚ) * sqrtS F q = sqrtT F q then sqrtS F q else sqrtS F q + 1 with hn
  have hr : sqrtQ F .up q = (n : ℚ) * 2 ^ sqrtExp F q := sqrtQ_up q
  have hle : Real.sqrt q ≤ ((sqrtQ F .up q : ℚ) : ℝ) := by
    rw [hr]
    have := real_sqrt_le_mul (q := q) (m := (n : ℤ)) (e := sqrtExp F q) (by positivity) (by
      push_cast
      rw [hn]
      split_ifs with h1
      · exact h1.ge
      · push_cast; exact hS2.le)
    exact_mod_cast this
  simp only [sqrt, if_neg (not_lt.2 hq)]
  obtain ⟨h1, h2, h3⟩ := round_up_isUp (F := F) (sqrtQ F .up q)
  refine ⟨h1, le_trans (EReal.coe_le_coe_iff.2 hle) h2, ?_⟩
  intro s hs hx
  apply h3 s hs
  cases s with
  | nan => exact absurd rfl hs
  | pinf => exact le_top
  | ninf => exact absurd hx (by simp)
  | fin b hb =>
    rw [toE_fin, EReal.coe_le_coe_iff] at hx
    rw [toE_fin, coeQ_le, hr]
    apply le_RepU_of_sqrt hq hb.repU hx
    · rw [hn]; split_ifs <;> omega
    · by_cases h0 : n = 0
      · exact Or.inl h0
      right
      rw [hn]
      by_cases hex : (sqrtS F q : ℚ) * sqrtS F q = sqrtT F q
      · rw [if_pos hex, ← hex]
        have hpos : 1 ≤ sqrtS F q := by
          rw [hn, if_pos hex] at h0; omega
        have : (1 : ℚ) ≤ sqrtS F q := by exact_mod_cast hpos
        nlinarith
      · rw [if_neg hex]; push_cast
        rw [add_sub_cancel_right]
        exact lt_of_le_of_ne hS hex

theorem sqrt_down_isDown {q : ℚ} (h : F.Rep q) (hq : 0 ≤ q) :
    IsDown ((Real.sqrt q : ℝ) : EReal) (sqrt .down (fin q h)) := by
  have hS := sqrtS_sq_le (F := F) hq
  have hr : sqrtQ F .down q = (sqrtS F q : ℚ) * 2 ^ sqrtExp F q := sqrtQ_down q
  have hle : ((sqrtQ F .down q : ℚ) : ℝ) ≤ Real.sqrt q := by
    rw [hr]
    have := mul_le_real_sqrt (q := q) (m := (sqrtS F q : ℤ)) (e := sqrtExp F q) (by
      push_cast; exact hS)
    exact_mod_cast this
  simp only [sqrt, if_neg (not_lt.2 hq)]
  obtain ⟨h1, h2, h3⟩ := round_down_isDown (F := F) (sqrtQ F .down q)
  refine ⟨h1, le_trans h2 (EReal.coe_le_coe_iff.2 hle), ?_⟩
  intro s hs hx
  apply h3 s hs
  cases s with
  | nan => exact absurd rfl hs
  | pinf => exact absurd hx (by simp)
  | ninf => exact bot_le
  | fin b hb =>
    rw [toE_fin, EReal.coe_le_coe_iff] at hx
    rw [toE_fin, coeQ_le, hr]
    exact RepU_le_sqrtS hq hb.repU hx

end Fl
end Kv
