import Verif.Float.Lemmas
import Mathlib.Tactic.Linarith

/-! # Helper lemmas: operations that are exact, or do not overflow -/

namespace Kv
variable {F : Format}

theorem RepU.two_mul {q : ℚ} (h : F.RepU q) : F.RepU (2 * q) := by
  obtain ⟨m, e, h1, h2, rfl⟩ := h
  refine ⟨m, e + 1, h1, by omega, ?_⟩
  rw [zpow_add_one₀ (by norm_num)]; ring

/-- numbers of the format beyond the largest finite one are at least one unit away -/
theorem RepU.gt_maxQ {r : ℚ} (h : F.RepU r) (hr : F.maxQ < r) : F.maxQ + 2 ^ F.emax ≤ r := by
  obtain ⟨m, e, h1, h2, rfl⟩ := h
  have hp := Format.two_zpow_pos e
  have hp' := Format.two_zpow_pos F.emax
  have hm : m < 2 ^ F.p := (abs_lt.1 h1).2
  rcases le_or_gt e F.emax with he | he
  · exfalso
    have : (m : ℚ) * 2 ^ e ≤ F.maxQ := by
      have h3 : |(m : ℚ) * 2 ^ e| ≤ F.maxQ :=
        Format.Rep.abs_le ⟨m, e, h1, h2, he, rfl⟩
      exact (le_abs_self _).trans h3
    linarith
  · obtain ⟨k, hk⟩ := Int.le.dest he.le
    have e2 : (2 : ℚ) ^ e = 2 ^ k * 2 ^ F.emax := by
      rw [← hk, zpow_add₀ (by norm_num), zpow_natCast, mul_comm]
    have hr2 : ((2 ^ F.p - 1 : ℤ) : ℚ) * 2 ^ F.emax < (m * 2 ^ k : ℤ) * 2 ^ F.emax := by
      have : F.maxQ = ((2 ^ F.p - 1 : ℤ) : ℚ) * 2 ^ F.emax := by unfold Format.maxQ; push_cast; ring
      rw [← this]; push_cast
      calc F.maxQ < m * 2 ^ e := hr
        _ = _ := by rw [e2]; ring
    have h5 : (2 ^ F.p - 1 : ℤ) < m * 2 ^ k := by
      have := lt_of_mul_lt_mul_right hr2 hp'.le
      exact_mod_cast this
    have h6 : (2 ^ F.p : ℤ) ≤ m * 2 ^ k := by omega
    have h7 : ((2 ^ F.p : ℤ) : ℚ) ≤ (m * 2 ^ k : ℤ) := by exact_mod_cast h6
    calc F.maxQ + 2 ^ F.emax = ((2 ^ F.p : ℤ) : ℚ) * 2 ^ F.emax := by
          unfold Format.maxQ; push_cast; ring
      _ ≤ (m * 2 ^ k : ℤ) * 2 ^ F.emax := mul_le_mul_of_nonneg_right h7 hp'.le
      _ = m * 2 ^ e := by rw [e2]; push_cast; ring

theorem four_le_two_emax : (4 : ℚ) ≤ 2 ^ F.emax := by
  have := zpow_le_zpow_right₀ (a := (2 : ℚ)) (by norm_num) F.emax_ge
  norm_num at this ⊢
  exact this

/-- adding at most one to a finite number does not overflow in round-to-nearest -/
theorem roundQ_near_no_overflow {q : ℚ} (h : q ≤ F.maxQ + 1) : F.roundQ .near q ≤ F.maxQ := by
  by_contra hc
  have hc : F.maxQ < F.roundQ .near q := not_le.1 hc
  have h1 := RepU.gt_maxQ (Format.roundQ_repU .near q) hc
  have h4 := four_le_two_emax (F := F)
  rcases le_or_gt q F.maxQ with hq | hq
  · exact absurd (Format.roundQ_le_of_le .near Format.maxQ_rep.repU hq) (not_le.2 hc)
  · have h2 := Format.RepU.near_le (F := F) (q := q) Format.maxQ_rep.repU
    have h3 : |F.maxQ - q| ≤ 1 := by rw [abs_le]; constructor <;> linarith
    have h5 := (abs_le.1 (h2.trans h3)).2
    linarith

theorem round_eq_fin (md : RMode) {q a b : ℚ} (ha : F.Rep a) (hb : F.Rep b) (h1 : a ≤ q) (h2 : q ≤ b) :
    ∃ (m : ℚ) (hm : F.Rep m), (Fl.round md q : Fl F) = Fl.fin m hm ∧ a ≤ m ∧ m ≤ b := by
  have l := Format.le_roundQ_of_le md ha.repU h1
  have u := Format.roundQ_le_of_le md hb.repU h2
  have habs : |F.roundQ md q| ≤ F.maxQ := by
    have := abs_le.1 ha.abs_le
    have := abs_le.1 hb.abs_le
    rw [abs_le]; constructor <;> linarith
  refine ⟨F.roundQ md q, Format.rep_of_repU (Format.roundQ_repU _ _) habs, ?_, l, u⟩
  unfold Fl.round Fl.pack
  rw [dif_pos habs]

theorem round_near_eq_fin {q a b : ℚ} (ha : F.Rep a) (hb : F.Rep b) (h1 : a ≤ q) (h2 : q ≤ b) :
    ∃ (m : ℚ) (hm : F.Rep m), (Fl.round .near q : Fl F) = Fl.fin m hm ∧ a ≤ m ∧ m ≤ b :=
  round_eq_fin .near ha hb h1 h2

/-- halving a number of modulus at least one is exact -/
theorem rep_half_mul {q : ℚ} (h : F.Rep q) (h1 : 1 ≤ |q|) : F.Rep (q * (1 / 2)) := by
  obtain ⟨m, e, hm, he, he', rfl⟩ := h
  have hlt : F.emin < e := by
    by_contra hc
    have hc : e ≤ F.emin := not_lt.1 hc
    have hp := Format.two_zpow_pos e
    rw [abs_mul, abs_of_pos hp] at h1
    have h2 : (2 : ℚ) ^ e ≤ 2 ^ (-(F.p : ℤ)) := by
      apply zpow_le_zpow_right₀ (by norm_num)
      have := F.emin_le; omega
    have h3 : |(m : ℚ)| < 2 ^ (F.p : ℤ) := by
      rw [zpow_natCast]; exact_mod_cast hm
    have h4 : |(m : ℚ)| * 2 ^ e < 2 ^ (F.p : ℤ) * 2 ^ (-(F.p : ℤ)) :=
      mul_lt_mul h3 h2 hp (zpow_pos (by norm_num : (0:ℚ) < 2) _).le
    rw [← zpow_add₀ (by norm_num)] at h4
    norm_num at h4
    linarith
  refine ⟨m, e - 1, hm, by omega, by omega, ?_⟩
  rw [zpow_sub_one₀ (by norm_num)]; ring

/-- a multiple of `2^e` not larger than a number with exponent `e` is representable -/
theorem rep_of_multiple {m n e : ℤ} (hm : |m| < 2 ^ F.p) (he : F.emin ≤ e) (he' : e ≤ F.emax)
    (hn : |(n : ℚ) * 2 ^ e| ≤ |(m : ℚ) * 2 ^ e|) : F.Rep (n * 2 ^ e) := by
  have hp := Format.two_zpow_pos e
  rw [abs_mul, abs_mul, abs_of_pos hp] at hn
  have := le_of_mul_le_mul_right hn hp
  exact ⟨n, e, lt_of_le_of_lt (by exact_mod_cast this) hm, he, he', rfl⟩

theorem zpow_split {e e' : ℤ} (h : e ≤ e') : ∃ k : ℕ, (2 : ℚ) ^ e' = 2 ^ k * 2 ^ e := by
  obtain ⟨k, rfl⟩ := Int.le.dest h
  exact ⟨k, by rw [add_comm, zpow_add₀ (by norm_num), zpow_natCast]⟩

/-- Sterbenz: the difference of numbers within a factor two is exact -/
theorem rep_sub_of_abs_le {a b : ℚ} (ha : F.Rep a) (hb : F.Rep b) (h1 : |a - b| ≤ |a|)
    (h2 : |a - b| ≤ |b|) : F.Rep (a - b) := by
  obtain ⟨m, e, hm, he, he', rfl⟩ := ha
  obtain ⟨n, d, hn, hd, hd', rfl⟩ := hb
  rcases le_total e d with h | h
  · obtain ⟨k, hk⟩ := zpow_split h
    have e1 : (m : ℚ) * 2 ^ e - n * 2 ^ d = ((m - n * 2 ^ k : ℤ) : ℚ) * 2 ^ e := by
      rw [hk]; push_cast; ring
    rw [e1] at h1 ⊢
    exact rep_of_multiple hm he he' h1
  · obtain ⟨k, hk⟩ := zpow_split h
    have e1 : (m : ℚ) * 2 ^ e - n * 2 ^ d = ((m * 2 ^ k - n : ℤ) : ℚ) * 2 ^ d := by
      rw [hk]; push_cast; ring
    rw [e1] at h2 ⊢
    exact rep_of_multiple hn hd hd' h2

theorem sterbenz {a b : ℚ} (ha : F.Rep a) (hb : F.Rep b) (h1 : b / 2 ≤ a) (h2 : a ≤ 2 * b) :
    F.Rep (a - b) := by
  have hb0 : 0 ≤ b := by linarith
  have ha0 : 0 ≤ a := by linarith
  apply rep_sub_of_abs_le ha hb
  · rw [abs_of_nonneg ha0, abs_le]; constructor <;> linarith
  · rw [abs_of_nonneg hb0, abs_le]; constructor <;> linarith

/-- the fractional part of a nonnegative number is exact -/
theorem rep_fract {q : ℚ} (h : F.Rep q) (h0 : 0 ≤ q) : F.Rep (q - (⌊q⌋ : ℤ)) := by
  have hf : (0 : ℚ) ≤ ((⌊q⌋ : ℤ) : ℚ) := by exact_mod_cast Int.floor_nonneg.2 h0
  have h1 := Int.floor_le q
  have h2 := Int.lt_floor_add_one q
  obtain ⟨m, e, hm, he, he', rfl⟩ := h
  rcases le_total 0 e with h3 | h3
  · have : (m : ℚ) * 2 ^ e = ((m * 2 ^ e.toNat : ℤ) : ℚ) := by
      push_cast; rw [← zpow_natCast, Int.toNat_of_nonneg h3]
    rw [this, Int.floor_intCast, sub_self]; exact Format.rep_zero
  · obtain ⟨k, hk⟩ := zpow_split h3
    rw [zpow_zero] at hk
    set f := ⌊(m : ℚ) * 2 ^ e⌋ with hfd
    have e1 : (m : ℚ) * 2 ^ e - f = ((m - f * 2 ^ k : ℤ) : ℚ) * 2 ^ e := by
      push_cast
      calc (m : ℚ) * 2 ^ e - f = m * 2 ^ e - f * 1 := by ring
        _ = _ := by rw [hk]; ring
    rw [e1]
    refine rep_of_multiple hm he he' ?_
    rw [← e1, abs_of_nonneg (by linarith), abs_of_nonneg h0]
    linarith

/-- a non-integer of the format is smaller than `2^p` -/
theorem abs_lt_of_not_int {q : ℚ} (h : F.Rep q) (hq : q ≠ (⌊q⌋ : ℤ)) : |q| < 2 ^ F.p := by
  obtain ⟨m, e, hm, he, he', rfl⟩ := h
  rcases le_total 0 e with h3 | h3
  · exfalso; apply hq
    have : (m : ℚ) * 2 ^ e = ((m * 2 ^ e.toNat : ℤ) : ℚ) := by
      push_cast; rw [← zpow_natCast, Int.toNat_of_nonneg h3]
    rw [this, Int.floor_intCast]
  · have hp := Format.two_zpow_pos e
    have h1 : (2 : ℚ) ^ e ≤ 1 := zpow_le_one_of_nonpos₀ (by norm_num) h3
    rw [abs_mul, abs_of_pos hp]
    have hm' : |(m : ℚ)| < 2 ^ F.p := by exact_mod_cast hm
    calc |(m : ℚ)| * 2 ^ e ≤ |(m : ℚ)| * 1 := mul_le_mul_of_nonneg_left h1 (abs_nonneg _)
      _ < _ := by rw [mul_one]; exact hm'

theorem two_pow_le_maxQ : (2 : ℚ) ^ F.p ≤ F.maxQ := by
  unfold Format.maxQ
  have h4 := four_le_two_emax (F := F)
  have h1 : (2 : ℚ) ≤ 2 ^ F.p := by
    calc (2 : ℚ) = 2 ^ 1 := by norm_num
      _ ≤ 2 ^ F.p := pow_le_pow_right₀ (by norm_num) (by have := F.one_lt_p; omega)
  nlinarith

/-- integers up to `2^p` are representable -/
theorem rep_int {n : ℤ} (h : |n| ≤ 2 ^ F.p) : F.Rep n := by
  have := Format.repU_of_le (F := F) (m := n) (e := 0) h (by have := F.emin_le; omega)
  rw [zpow_zero, mul_one] at this
  refine Format.rep_of_repU this (le_trans ?_ two_pow_le_maxQ)
  exact_mod_cast h

end Kv
