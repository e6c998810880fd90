import Verif.Float.Format
import Mathlib.Tactic.Linarith
import Mathlib.Tactic.Ring
import Mathlib.Tactic.FieldSimp
import Mathlib.Tactic.NormNum
import Mathlib.Tactic.Positivity
import Mathlib.Tactic.GCongr
import Mathlib.Tactic.Zify

/-! # Helper lemmas about representability and rounding of rationals -/

namespace Kv
namespace Format
variable {F : Format}

theorem two_zpow_pos (e : ℤ) : (0 : ℚ) < 2 ^ e := zpow_pos (by norm_num) e

theorem Rep.repU {q : ℚ} (h : F.Rep q) : F.RepU q := by
  obtain ⟨m, e, h1, h2, _, h4⟩ := h
  exact ⟨m, e, h1, h2, h4⟩

theorem Rep.neg {q : ℚ} (h : F.Rep q) : F.Rep (-q) := by
  obtain ⟨m, e, h1, h2, h3, h4⟩ := h
  exact ⟨-m, e, by simpa using h1, h2, h3, by rw [h4]; push_cast; ring⟩

theorem RepU.neg {q : ℚ} (h : F.RepU q) : F.RepU (-q) := by
  obtain ⟨m, e, h1, h2, h4⟩ := h
  exact ⟨-m, e, by simpa using h1, h2, by rw [h4]; push_cast; ring⟩

theorem two_pow_p_pos : (0 : ℤ) < 2 ^ F.p := by positivity

theorem ulpExp_neg (q : ℚ) : F.ulpExp (-q) = F.ulpExp q := by simp [ulpExp]

theorem emin_le_ulpExp (q : ℚ) : F.emin ≤ F.ulpExp q := le_max_left _ _

theorem abs_lt_ulpExp (q : ℚ) : |q| < 2 ^ (F.ulpExp q + F.p) := by
  rcases eq_or_ne q 0 with rfl | hq
  · simpa using two_zpow_pos _
  have h1 : |q| < 2 ^ (Int.log 2 |q| + 1) := by
    have := Int.lt_zpow_succ_log_self (b := 2) (by norm_num) |q|
    simpa using this
  refine h1.trans_le ?_
  apply zpow_le_zpow_right₀ (by norm_num)
  have : Int.log 2 |q| - (F.p - 1) ≤ F.ulpExp q := le_max_right _ _
  omega

theorem le_abs_of_ulpExp {q : ℚ} (h : F.emin < F.ulpExp q) (hq : q ≠ 0) :
    2 ^ (F.ulpExp q + F.p - 1) ≤ |q| := by
  have h1 : F.ulpExp q = Int.log 2 |q| - (F.p - 1) := by
    unfold ulpExp at h ⊢
    rcases max_choice F.emin (Int.log 2 |q| - (F.p - 1)) with h' | h' <;> omega
  have h2 := Int.zpow_log_le_self (b := 2) (r := |q|) (by norm_num) (abs_pos.2 hq)
  rw [h1]
  have : (Int.log 2 |q| - (F.p - 1) + F.p - 1 : ℤ) = Int.log 2 |q| := by ring
  rw [this]
  simpa using h2

theorem repU_of_le {m e : ℤ} (hm : |m| ≤ 2 ^ F.p) (he : F.emin ≤ e) :
    F.RepU ((m : ℚ) * 2 ^ e) := by
  rcases lt_or_eq_of_le hm with h | h
  · exact ⟨m, e, h, he, rfl⟩
  · have hp : F.p = (F.p - 1) + 1 := by have := F.one_lt_p; omega
    have key : (2 : ℤ) ^ F.p = 2 ^ (F.p - 1) * 2 := by
      conv_lhs => rw [hp, pow_succ]
    have hpos : (0 : ℤ) < 2 ^ (F.p - 1) := by positivity
    rcases abs_choice m with h' | h'
    · refine ⟨2 ^ (F.p - 1), e + 1, ?_, by omega, ?_⟩
      · rw [abs_of_pos hpos, key]; omega
      · have hm' : m = 2 ^ (F.p - 1) * 2 := by rw [← key, ← h, h']
        rw [hm', zpow_add₀ (by norm_num)]; push_cast; ring
    · refine ⟨-2 ^ (F.p - 1), e + 1, ?_, by omega, ?_⟩
      · rw [abs_neg, abs_of_pos hpos, key]; omega
      · have hm' : m = - (2 ^ (F.p - 1) * 2) := by rw [← key, ← h, h']; ring
        rw [hm', zpow_add₀ (by norm_num)]; push_cast; ring

theorem abs_div_lt (q : ℚ) : |q / 2 ^ F.ulpExp q| < 2 ^ F.p := by
  have h := abs_lt_ulpExp (F := F) q
  rw [abs_div, abs_of_pos (two_zpow_pos _), div_lt_iff₀ (two_zpow_pos _)]
  rw [zpow_add₀ (by norm_num), zpow_natCast] at h
  linarith

theorem floor_le_rneInt (s : ℚ) : ⌊s⌋ ≤ rneInt s := by
  unfold rneInt; dsimp only; split_ifs <;> omega

theorem rneInt_le_ceil (s : ℚ) : rneInt s ≤ ⌈s⌉ := by
  have h := Int.floor_le s
  have hc : s ≤ ⌈s⌉ := Int.le_ceil s
  have key : ∀ _ : (⌊s⌋ : ℚ) < s, ⌊s⌋ + 1 ≤ ⌈s⌉ := by
    intro hlt
    have : (⌊s⌋ : ℚ) < ⌈s⌉ := lt_of_lt_of_le hlt hc
    exact_mod_cast this
  have hfc : ⌊s⌋ ≤ ⌈s⌉ := Int.floor_le_ceil s
  unfold rneInt; dsimp only
  split_ifs with h1 h2 h3
  · exact hfc
  · exact key (by linarith)
  · exact hfc
  · exact key (by linarith)

theorem floor_le_toInt (md : RMode) (s : ℚ) : ⌊s⌋ ≤ md.toInt s := by
  cases md
  · exact Int.floor_le_ceil s
  · exact le_rfl
  · exact floor_le_rneInt s

theorem toInt_le_ceil (md : RMode) (s : ℚ) : md.toInt s ≤ ⌈s⌉ := by
  cases md
  · exact le_rfl
  · exact Int.floor_le_ceil s
  · exact rneInt_le_ceil s

theorem rneInt_intCast (n : ℤ) : rneInt (n : ℚ) = n := by
  simp [rneInt]

theorem toInt_intCast (md : RMode) (n : ℤ) : md.toInt (n : ℚ) = n := by
  cases md
  · simp [RMode.toInt]
  · simp [RMode.toInt]
  · exact rneInt_intCast n

theorem toInt_abs_le (md : RMode) {s : ℚ} {n : ℤ} (h : |s| ≤ n) : |md.toInt s| ≤ n := by
  rw [abs_le] at h ⊢
  constructor
  · refine le_trans ?_ (floor_le_toInt md s)
    exact Int.le_floor.2 (by push_cast; exact h.1)
  · refine (toInt_le_ceil md s).trans ?_
    exact Int.ceil_le.2 h.2

theorem roundQ_repU (md : RMode) (q : ℚ) : F.RepU (F.roundQ md q) := by
  unfold roundQ
  apply repU_of_le
  · apply toInt_abs_le
    have := (abs_div_lt (F := F) q).le
    push_cast; exact this
  · exact emin_le_ulpExp q

/-- A representable `r ≤ q` stays below `⌊q / 2^e⌋ * 2^e`. -/
theorem RepU.le_floor {q r : ℚ} (hr : F.RepU r) (h : r ≤ q) :
    r ≤ ⌊q / 2 ^ F.ulpExp q⌋ * 2 ^ F.ulpExp q := by
  obtain ⟨m, e', hm, he', rfl⟩ := hr
  set e := F.ulpExp q with hedef
  have h2e := two_zpow_pos e
  rcases le_or_gt e e' with hle | hlt
  · obtain ⟨k, hk⟩ := Int.le.dest hle
    have hint : (m : ℚ) * 2 ^ e' = ((m * 2 ^ k : ℤ) : ℚ) * 2 ^ e := by
      rw [← hk, zpow_add₀ (by norm_num), zpow_natCast]; push_cast; ring
    rw [hint]
    rw [hint] at h
    have : ((m * 2 ^ k : ℤ) : ℚ) ≤ q / 2 ^ e := by
      rw [le_div_iff₀ h2e]; exact h
    have h3 := Int.le_floor.2 this
    have h4 : ((m * 2 ^ k : ℤ) : ℚ) ≤ (⌊q / 2 ^ e⌋ : ℚ) := by exact_mod_cast h3
    exact mul_le_mul_of_nonneg_right h4 h2e.le
  · have hemin : F.emin < e := lt_of_le_of_lt he' hlt
    have hq : q ≠ 0 ∨ q = 0 := by tauto
    have habs : |(m : ℚ) * 2 ^ e'| < 2 ^ (e + F.p - 1) := by
      rw [abs_mul, abs_of_pos (two_zpow_pos e')]
      have : |(m : ℚ)| < 2 ^ F.p := by exact_mod_cast hm
      calc |(m : ℚ)| * 2 ^ e' < 2 ^ F.p * 2 ^ e' :=
            mul_lt_mul_of_pos_right this (two_zpow_pos e')
        _ = 2 ^ (F.p + e') := by rw [zpow_add₀ (by norm_num), zpow_natCast]
        _ ≤ 2 ^ (e + F.p - 1) := zpow_le_zpow_right₀ (by norm_num) (by omega)
    have hpow : (2 : ℚ) ^ (e + F.p - 1) = ((2 ^ (F.p - 1) : ℤ) : ℚ) * 2 ^ e := by
      have hp := F.one_lt_p
      have : (e + F.p - 1 : ℤ) = ((F.p - 1 : ℕ) : ℤ) + e := by omega
      rw [this, zpow_add₀ (by norm_num), zpow_natCast]; push_cast; ring
    by_cases hq0 : q = 0
    · have hu : F.ulpExp 0 = e := by rw [hedef, hq0]
      have : e ≤ 0 := by
        rw [← hu]; unfold ulpExp; have := F.emin_le; have := F.one_lt_p
        simp; omega
      subst hq0
      simpa using h
    · have hge := le_abs_of_ulpExp (F := F) (q := q) (by rw [← hedef]; exact hemin) hq0
      rw [← hedef] at hge
      rcases lt_or_gt_of_ne hq0 with hneg | hpos
      · rw [abs_of_neg hneg] at hge
        have := (abs_lt.1 habs).1
        linarith
      · rw [abs_of_pos hpos] at hge
        have h5 : ((2 ^ (F.p - 1) : ℤ) : ℚ) ≤ q / 2 ^ e := by
          rw [le_div_iff₀ h2e, ← hpow]; exact hge
        have h6 := Int.le_floor.2 h5
        have h7 : ((2 ^ (F.p - 1) : ℤ) : ℚ) ≤ (⌊q / 2 ^ e⌋ : ℚ) := by exact_mod_cast h6
        have h8 := mul_le_mul_of_nonneg_right h7 h2e.le
        rw [← hpow] at h8
        have := (abs_lt.1 habs).2
        linarith

theorem RepU.ceil_le {q r : ℚ} (hr : F.RepU r) (h : q ≤ r) :
    ⌈q / 2 ^ F.ulpExp q⌉ * 2 ^ F.ulpExp q ≤ r := by
  have := RepU.le_floor (F := F) (q := -q) (r := -r) hr.neg (by linarith)
  rw [ulpExp_neg, neg_div, Int.floor_neg] at this
  push_cast at this
  linarith

theorem floor_mul_le (q : ℚ) (e : ℤ) : (⌊q / 2 ^ e⌋ : ℚ) * 2 ^ e ≤ q := by
  have h := Int.floor_le (q / 2 ^ e)
  rwa [le_div_iff₀ (two_zpow_pos e)] at h

theorem le_ceil_mul (q : ℚ) (e : ℤ) : q ≤ (⌈q / 2 ^ e⌉ : ℚ) * 2 ^ e := by
  have h := Int.le_ceil (q / 2 ^ e)
  rwa [div_le_iff₀ (two_zpow_pos e)] at h

theorem le_roundQ_up (q : ℚ) : q ≤ F.roundQ .up q := le_ceil_mul q _
theorem roundQ_down_le (q : ℚ) : F.roundQ .down q ≤ q := floor_mul_le q _

theorem roundQ_le_of_le (md : RMode) {q r : ℚ} (hr : F.RepU r) (h : q ≤ r) : F.roundQ md q ≤ r := by
  refine le_trans ?_ (hr.ceil_le h)
  unfold roundQ
  exact mul_le_mul_of_nonneg_right (by exact_mod_cast toInt_le_ceil md _) (two_zpow_pos _).le

theorem le_roundQ_of_le (md : RMode) {q r : ℚ} (hr : F.RepU r) (h : r ≤ q) : r ≤ F.roundQ md q := by
  refine le_trans (hr.le_floor h) ?_
  unfold roundQ
  exact mul_le_mul_of_nonneg_right (by exact_mod_cast floor_le_toInt md _) (two_zpow_pos _).le

theorem RepU.roundQ_eq (md : RMode) {q : ℚ} (h : F.RepU q) : F.roundQ md q = q :=
  le_antisymm (roundQ_le_of_le md h le_rfl) (le_roundQ_of_le md h le_rfl)

theorem repU_iff {q : ℚ} : F.RepU q ↔ F.roundQ .down q = q :=
  ⟨fun h => h.roundQ_eq .down, fun h => h ▸ roundQ_repU .down q⟩

theorem maxQ_pos : 0 < F.maxQ := by
  unfold maxQ
  have : (1 : ℚ) < 2 ^ F.p := one_lt_pow₀ (by norm_num) (by have := F.one_lt_p; omega)
  have := two_zpow_pos F.emax
  apply mul_pos <;> linarith

theorem emin_le_emax : F.emin ≤ F.emax := by
  have := F.emin_le; have := F.emax_ge; omega

theorem maxQ_rep : F.Rep F.maxQ := by
  refine ⟨2 ^ F.p - 1, F.emax, ?_, emin_le_emax, le_rfl, ?_⟩
  · rw [abs_of_nonneg]
    · omega
    · have := two_pow_p_pos (F := F); omega
  · unfold maxQ; push_cast; ring

theorem Rep.abs_le {q : ℚ} (h : F.Rep q) : |q| ≤ F.maxQ := by
  obtain ⟨m, e, h1, h2, h3, rfl⟩ := h
  rw [abs_mul, abs_of_pos (two_zpow_pos e)]
  unfold maxQ
  have h4 : |m| ≤ 2 ^ F.p - 1 := by omega
  have h5 : |(m : ℚ)| ≤ 2 ^ F.p - 1 := by exact_mod_cast h4
  have h6 : (2 : ℚ) ^ e ≤ 2 ^ F.emax := zpow_le_zpow_right₀ (by norm_num) h3
  exact mul_le_mul h5 h6 (two_zpow_pos e).le (le_trans (abs_nonneg _) h5)

theorem rep_of_repU {q : ℚ} (h : F.RepU q) (hq : |q| ≤ F.maxQ) : F.Rep q := by
  obtain ⟨m, e, h1, h2, rfl⟩ := h
  rcases le_or_gt e F.emax with he | he
  · exact ⟨m, e, h1, h2, he, rfl⟩
  · obtain ⟨k, hk⟩ := Int.le.dest he.le
    have hint : (m : ℚ) * 2 ^ e = ((m * 2 ^ k : ℤ) : ℚ) * 2 ^ F.emax := by
      rw [← hk, zpow_add₀ (by norm_num), zpow_natCast]; push_cast; ring
    refine ⟨m * 2 ^ k, F.emax, ?_, emin_le_emax, le_rfl, hint⟩
    rw [hint, abs_mul, abs_of_pos (two_zpow_pos _)] at hq
    unfold maxQ at hq
    have h3 := le_of_mul_le_mul_right hq (two_zpow_pos _)
    have h4 : |m * 2 ^ k| ≤ 2 ^ F.p - 1 := by exact_mod_cast h3
    omega

theorem rep_iff {q : ℚ} : F.Rep q ↔ F.roundQ .down q = q ∧ |q| ≤ F.maxQ :=
  ⟨fun h => ⟨h.repU.roundQ_eq _, h.abs_le⟩, fun h => rep_of_repU (repU_iff.2 h.1) h.2⟩

instance (q : ℚ) : Decidable (F.Rep q) := decidable_of_iff _ rep_iff.symm

theorem rep_zero : F.Rep 0 :=
  ⟨0, 0, by simp, by have := F.emin_le; omega, by have := F.emax_ge; omega, by simp⟩

/-- Powers of two in range are representable. -/
theorem rep_two_zpow {e : ℤ} (h1 : F.emin ≤ e) (h2 : e ≤ F.emax) : F.Rep (2 ^ e) :=
  ⟨1, e, by
    rw [abs_one]; exact one_lt_pow₀ (by norm_num) (by have := F.one_lt_p; omega), h1, h2, by simp⟩

theorem abs_rneInt_sub_le (s : ℚ) : |(rneInt s : ℚ) - s| ≤ 1 / 2 := by
  have h1 := Int.floor_le s
  have h2 := Int.lt_floor_add_one s
  unfold rneInt; dsimp only
  rw [abs_le]
  split_ifs with a b c <;> push_cast <;> constructor <;> linarith

/-- Nearest rounding is at most half a unit away. -/
theorem abs_roundQ_near_sub_le (q : ℚ) :
    |F.roundQ .near q - q| ≤ 2 ^ F.ulpExp q / 2 := by
  have h := abs_rneInt_sub_le (q / 2 ^ F.ulpExp q)
  have h2 := two_zpow_pos (F.ulpExp q)
  have : F.roundQ .near q - q
      = ((rneInt (q / 2 ^ F.ulpExp q) : ℚ) - q / 2 ^ F.ulpExp q) * 2 ^ F.ulpExp q := by
    unfold roundQ; simp only [RMode.toInt]; field_simp
  rw [this, abs_mul, abs_of_pos h2]
  calc _ ≤ 1 / 2 * 2 ^ F.ulpExp q := mul_le_mul_of_nonneg_right h h2.le
    _ = _ := by ring

theorem abs_rneInt_le_floor (s : ℚ) : |(rneInt s : ℚ) - s| ≤ s - ⌊s⌋ := by
  have h1 := Int.floor_le s
  have h2 := Int.lt_floor_add_one s
  unfold rneInt; dsimp only
  rw [abs_le]
  split_ifs with a b c <;> push_cast <;> constructor <;> linarith

theorem abs_rneInt_le_ceil (s : ℚ) : |(rneInt s : ℚ) - s| ≤ ⌈s⌉ - s := by
  have h1 := Int.floor_le s
  have h2 := Int.lt_floor_add_one s
  have h3 := Int.le_ceil s
  rcases eq_or_ne (⌊s⌋ : ℚ) s with h | h
  · rw [← h, rneInt_intCast]; simp
  · have hlt : (⌊s⌋ : ℚ) < s := lt_of_le_of_ne h1 h
    have h4 : ⌊s⌋ + 1 ≤ ⌈s⌉ := by
      have : (⌊s⌋ : ℚ) < ⌈s⌉ := lt_of_lt_of_le hlt h3
      exact_mod_cast this
    have h5 : (⌊s⌋ : ℚ) + 1 ≤ ⌈s⌉ := by exact_mod_cast h4
    unfold rneInt; dsimp only
    rw [abs_le]
    split_ifs with a b c <;> push_cast <;> constructor <;> linarith

/-- Nearest rounding is a nearest representable number. -/
theorem RepU.near_le {q r : ℚ} (hr : F.RepU r) : |F.roundQ .near q - q| ≤ |r - q| := by
  set e := F.ulpExp q with he
  have h2 := two_zpow_pos e
  have key : F.roundQ .near q - q = ((rneInt (q / 2 ^ e) : ℚ) - q / 2 ^ e) * 2 ^ e := by
    unfold roundQ; simp only [RMode.toInt]; rw [← he]; field_simp
  rw [key, abs_mul, abs_of_pos h2]
  rcases le_total r q with h | h
  · have h3 := hr.le_floor h
    rw [← he] at h3
    have h4 := mul_le_mul_of_nonneg_right (abs_rneInt_le_floor (q / 2 ^ e)) h2.le
    rw [sub_mul, div_mul_cancel₀ _ h2.ne'] at h4
    rw [abs_of_nonpos (a := r - q) (by linarith)]
    linarith
  · have h3 := hr.ceil_le h
    rw [← he] at h3
    have h4 := mul_le_mul_of_nonneg_right (abs_rneInt_le_ceil (q / 2 ^ e)) h2.le
    rw [sub_mul (_ : ℚ), div_mul_cancel₀ _ h2.ne'] at h4
    rw [abs_of_nonneg (a := r - q) (by linarith)]
    linarith

theorem roundQ_mono (md : RMode) {a b : ℚ} (h : a ≤ b) : F.roundQ md a ≤ F.roundQ md b := by
  by_contra hr
  have hr : F.roundQ md b < F.roundQ md a := not_le.1 hr
  have hb : F.roundQ md b < b := by
    by_contra hc
    have hc : b ≤ F.roundQ md b := not_lt.1 hc
    have := roundQ_le_of_le md (roundQ_repU (F := F) md b) (h.trans hc)
    linarith
  have ha : a < F.roundQ md a := by
    by_contra hc
    have hc : F.roundQ md a ≤ a := not_lt.1 hc
    have := le_roundQ_of_le md (roundQ_repU (F := F) md a) (hc.trans h)
    linarith
  cases md
  · have := le_roundQ_up (F := F) b; linarith
  · have := roundQ_down_le (F := F) a; linarith
  · have h1 : F.roundQ .near b ≤ a := by
      by_contra hc
      have := roundQ_le_of_le .near (roundQ_repU (F := F) .near b) (not_le.1 hc).le
      linarith
    have h2 : b ≤ F.roundQ .near a := by
      by_contra hc
      have := le_roundQ_of_le .near (roundQ_repU (F := F) .near a) (not_le.1 hc).le
      linarith
    have h3 := RepU.near_le (q := a) (roundQ_repU (F := F) .near b)
    have h4 := RepU.near_le (q := b) (roundQ_repU (F := F) .near a)
    rw [abs_of_pos (by linarith), abs_of_nonpos (by linarith)] at h3
    rw [abs_of_neg (by linarith), abs_of_nonneg (by linarith)] at h4
    have : a = b := by linarith
    rw [this] at hr; exact lt_irrefl _ hr

theorem rneInt_neg (s : ℚ) : rneInt (-s) = - rneInt s := by
  have h1 := Int.floor_le s
  have h2 := Int.lt_floor_add_one s
  rcases eq_or_ne (⌊s⌋ : ℚ) s with h | h
  · rw [← h]
    have := rneInt_intCast (-⌊s⌋)
    push_cast at this
    rw [this, rneInt_intCast]
  · have hlt : (⌊s⌋ : ℚ) < s := lt_of_le_of_ne h1 h
    have hf : ⌊-s⌋ = -⌊s⌋ - 1 := by
      rw [Int.floor_eq_iff]; push_cast; constructor <;> linarith
    unfold rneInt; dsimp only
    rw [hf]; push_cast
    split_ifs <;> first | omega | (exfalso; linarith)

theorem toInt_neg_up (s : ℚ) : RMode.up.toInt (-s) = - RMode.down.toInt s := by
  simp [RMode.toInt, Int.ceil_neg]

theorem toInt_neg_down (s : ℚ) : RMode.down.toInt (-s) = - RMode.up.toInt s := by
  simp [RMode.toInt, Int.floor_neg]

theorem roundQ_neg_up (q : ℚ) : F.roundQ .up (-q) = - F.roundQ .down q := by
  unfold roundQ; dsimp only; rw [ulpExp_neg, neg_div, toInt_neg_up]; push_cast; ring

theorem roundQ_neg_down (q : ℚ) : F.roundQ .down (-q) = - F.roundQ .up q := by
  unfold roundQ; dsimp only; rw [ulpExp_neg, neg_div, toInt_neg_down]; push_cast; ring

theorem roundQ_neg_near (q : ℚ) : F.roundQ .near (-q) = - F.roundQ .near q := by
  unfold roundQ; dsimp only [RMode.toInt]; rw [ulpExp_neg, neg_div, rneInt_neg]; push_cast; ring

end Format
end Kv
