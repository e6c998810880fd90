import Verif.Float.Succ
import Verif.Double.Emu

/-!
# Emulated rounding: helper lemmas on the error-free transformations and on `succ`, `pred`
-/

set_option exponentiation.threshold 3000

namespace Kv
namespace Emu
open Fl Format

local notation "B" => binary64

theorem p64 : (B).p = 53 := rfl
theorem emin64 : (B).emin = -1074 := rfl

theorem maxQ64 : (B).maxQ = (2 ^ 53 - 1) * 2 ^ (971 : ℤ) := rfl

theorem le_maxQ64 : (2 : ℚ) ^ (1023 : ℤ) + 2 ^ (1022 : ℤ) ≤ (B).maxQ := by
  rw [maxQ64, two_zpow_add 971 1023 52 (by norm_num), two_zpow_add 971 1022 51 (by norm_num)]
  have := two_zpow_pos 971
  nlinarith

theorem maxQ64_lt : (B).maxQ < (2 : ℚ) ^ (1024 : ℤ) := by
  rw [maxQ64, two_zpow_add 971 1024 53 (by norm_num)]
  have := two_zpow_pos 971
  nlinarith

theorem pow_le_maxQ64 : (2 : ℚ) ^ (1023 : ℤ) ≤ (B).maxQ := by
  have := le_maxQ64
  have := two_zpow_pos 1022
  linarith

theorem rep64 {t : ℚ} (h : (B).RepU t) (ht : |t| ≤ 2 ^ (1023 : ℤ)) : (B).Rep t :=
  rep_of_repU h (ht.trans pow_le_maxQ64)

theorem pw_le {j k : ℤ} (h : j ≤ k) : (2 : ℚ) ^ j ≤ 2 ^ k := zpow_le_zpow_right₀ (by norm_num) h
theorem pw_lt {j k : ℤ} (h : j < k) : (2 : ℚ) ^ j < 2 ^ k := zpow_lt_zpow_right₀ (by norm_num) h

theorem repU_pow {F : Format} {k : ℤ} (h : F.emin ≤ k) : F.RepU (2 ^ k) := by
  have : F.RepU (((1 : ℤ) : ℚ) * 2 ^ k) := repU_of_le (by
    rw [abs_one]; exact one_le_pow₀ (by norm_num)) h
  simpa using this

theorem rep_pow {k : ℤ} (h1 : -1074 ≤ k) (h2 : k ≤ 1023) : (B).Rep (2 ^ k) :=
  rep64 (repU_pow h1) (by rw [abs_of_pos (two_zpow_pos k)]; exact pw_le h2)

theorem two_eq {k : ℤ} (h1 : -1074 ≤ k) (h2 : k ≤ 1023) : two k = fin (2 ^ k) (rep_pow h1 h2) :=
  round_of_rep _ _

theorem lit_eq {q : ℚ} (h : (B).Rep q) : (lit q : Dbl) = fin q h := round_of_rep _ _

theorem fin_congr {F : Format} {a b : ℚ} (ha : F.Rep a) (hb : F.Rep b) (h : a = b) :
    (fin a ha : Fl F) = fin b hb := by subst h; rfl

theorem ti_fin {a b : ℚ} (ha : (B).Rep a) (hb : (B).Rep b) : ti (fin a ha) (fin b hb) = round .near (a * b) := rfl
theorem pl_fin {a b : ℚ} (ha : (B).Rep a) (hb : (B).Rep b) : pl (fin a ha) (fin b hb) = round .near (a + b) := rfl
theorem mi_fin {a b : ℚ} (ha : (B).Rep a) (hb : (B).Rep b) : mi (fin a ha) (fin b hb) = round .near (a - b) := by
  rw [sub_eq_add_neg]; rfl

theorem ti_exact {a b c : ℚ} (ha : (B).Rep a) (hb : (B).Rep b) (h : (B).Rep c) (e : a * b = c) :
    ti (fin a ha) (fin b hb) = fin c h := by subst e; exact round_of_rep _ _
theorem pl_exact {a b c : ℚ} (ha : (B).Rep a) (hb : (B).Rep b) (h : (B).Rep c) (e : a + b = c) :
    pl (fin a ha) (fin b hb) = fin c h := by subst e; exact round_of_rep _ _
theorem mi_exact {a b c : ℚ} (ha : (B).Rep a) (hb : (B).Rep b) (h : (B).Rep c) (e : a - b = c) :
    mi (fin a ha) (fin b hb) = fin c h := by subst e; rw [mi_fin]; exact round_of_rep _ _

theorem round_fin_val {F : Format} {q x : ℚ} {hx : F.Rep x} (h : (round .near q : Fl F) = fin x hx) :
    x = F.roundQ .near q := by
  unfold Fl.round pack at h
  split_ifs at h with h1
  · injection h with h2; exact h2.symm
  · exfalso
    rcases Bool.eq_false_or_eq_true (decide (0 < F.roundQ .near q)) with h2 | h2 <;>
      rw [h2] at h <;> simp [overflow] at h

theorem round_fin_of_le {F : Format} {q : ℚ} (h : |F.roundQ .near q| ≤ F.maxQ) :
    (round .near q : Fl F) = fin (F.roundQ .near q) (rep_of_repU (roundQ_repU _ _) h) := by
  unfold Fl.round pack; rw [dif_pos h]

theorem abs_near_le {F : Format} {q M : ℚ} (hM : F.RepU M) (h : |q| ≤ M) : |F.roundQ .near q| ≤ M := by
  have := abs_le.1 h
  exact abs_le.2 ⟨le_roundQ_of_le .near hM.neg this.1, roundQ_le_of_le .near hM this.2⟩

/-- rounding to nearest either gives a number or overflows with the sign of the argument -/
theorem round_near_cases {F : Format} (q : ℚ) :
    (∃ h, (round .near q : Fl F) = fin (F.roundQ .near q) h) ∨
    ((round .near q : Fl F) = pinf ∧ F.maxQ < q) ∨ ((round .near q : Fl F) = ninf ∧ q < -F.maxQ) := by
  by_cases h : |F.roundQ .near q| ≤ F.maxQ
  · exact Or.inl ⟨_, round_fin_of_le h⟩
  · right
    have hm := maxQ_rep (F := F)
    rcases lt_or_ge F.maxQ q with h1 | h1
    · left
      refine ⟨?_, h1⟩
      have : 0 < F.roundQ .near q := lt_of_lt_of_le maxQ_pos (le_roundQ_of_le .near hm.repU h1.le)
      unfold Fl.round pack; rw [dif_neg h, decide_eq_true this]; rfl
    · right
      have h2 : q < -F.maxQ := by
        by_contra hc
        exact h (abs_near_le hm.repU (abs_le.2 ⟨not_lt.1 hc, h1⟩))
      refine ⟨?_, h2⟩
      have : F.roundQ .near q < 0 :=
        lt_of_le_of_lt (roundQ_le_of_le .near hm.repU.neg h2.le) (by have := maxQ_pos (F := F); linarith)
      unfold Fl.round pack; rw [dif_neg h, decide_eq_false (not_lt.2 this.le)]; rfl

/-! ## twosum -/

theorem lt_abs_fin {a b : ℚ} (ha : (B).Rep a) (hb : (B).Rep b) :
    lt (Fl.abs (fin a ha)) (Fl.abs (fin b hb)) = decide (|a| < |b|) := by
  rw [abs_fin ha (rep_abs ha), abs_fin hb (rep_abs hb)]; rfl

theorem fasttwosum_core {a b x : ℚ} (ha : (B).Rep a) (hb : (B).Rep b) (hx : (B).Rep x)
    (hr : x = (B).roundQ .near (a + b)) (hle : |b| ≤ |a|) :
    ∃ h : (B).Rep (a + b - x), mi (fin b hb) (mi (fin x hx) (fin a ha)) = fin (a + b - x) h := by
  have r1 : (B).Rep (x - a) := by
    refine rep_of_repU (by rw [hr]; exact fasttwosum_repU ha.repU hb.repU hle) ?_
    have hxm := abs_le.1 hx.abs_le
    have ham := abs_le.1 ha.abs_le
    have hb' := abs_le.1 hle
    rcases le_total 0 a with h0 | h0
    · rw [abs_of_nonneg h0] at hb'
      have : 0 ≤ x := by rw [hr]; exact le_roundQ_of_le .near rep_zero.repU (by linarith)
      rw [abs_le]; constructor <;> linarith
    · rw [abs_of_nonpos h0] at hb'
      have : x ≤ 0 := by rw [hr]; exact roundQ_le_of_le .near rep_zero.repU (by linarith)
      rw [abs_le]; constructor <;> linarith
  have r2 : (B).Rep (a + b - x) := by
    refine rep_of_repU (by rw [hr]; exact sum_err_repU ha.repU hb.repU) ?_
    have := RepU.near_le (F := B) (q := a + b) ha.repU
    rw [← hr, show a - (a + b) = -b by ring, abs_neg] at this
    rw [abs_sub_comm]
    exact this.trans hb.abs_le
  refine ⟨r2, ?_⟩
  rw [mi_exact hx ha r1 rfl, mi_exact hb r1 r2 (by ring)]

theorem fasttwosum_fin {a b x : ℚ} (ha : (B).Rep a) (hb : (B).Rep b) (hx : (B).Rep x)
    (hr : (round .near (a + b) : Dbl) = fin x hx) (hle : |b| ≤ |a|) :
    ∃ h : (B).Rep (a + b - x), fasttwosum (fin a ha) (fin b hb) = (fin x hx, fin (a + b - x) h) := by
  obtain ⟨h, e⟩ := fasttwosum_core ha hb hx (round_fin_val hr) hle
  refine ⟨h, ?_⟩
  unfold fasttwosum
  rw [pl_fin, hr]
  simp only
  rw [e]

theorem twosum_fin {a b x : ℚ} (ha : (B).Rep a) (hb : (B).Rep b) (hx : (B).Rep x)
    (hr : (round .near (a + b) : Dbl) = fin x hx) :
    ∃ h : (B).Rep (a + b - x), twosum (fin a ha) (fin b hb) = (fin x hx, fin (a + b - x) h) := by
  unfold twosum
  rw [pl_fin, hr, lt_abs_fin]
  by_cases hlt : |b| < |a|
  · obtain ⟨h, e⟩ := fasttwosum_core ha hb hx (round_fin_val hr) hlt.le
    refine ⟨h, ?_⟩
    rw [if_pos (decide_eq_true hlt)]; simp only; rw [e]
  · obtain ⟨h, e⟩ := fasttwosum_core hb ha hx (by rw [add_comm]; exact round_fin_val hr) (not_lt.1 hlt)
    have hc : b + a - x = a + b - x := by ring
    refine ⟨hc ▸ h, ?_⟩
    rw [if_neg (by simpa using hlt)]; simp only; rw [e, fin_congr _ _ hc]

/-! ## split -/

theorem sigma_rep : (B).Rep (2 ^ 27 + 1) := by
  have : (B).Rep (((2 ^ 27 + 1 : ℤ)) : ℚ) := rep_int (by rw [p64]; norm_num)
  convert this using 1; norm_num

theorem sigma_eq : pl (two 27) (lit 1) = fin (2 ^ 27 + 1) sigma_rep := by
  rw [two_eq (by norm_num) (by norm_num), lit_eq Format.rep_one]
  exact pl_exact _ _ _ (by norm_num)

/-- what `split` returns on a number that is not too large -/
structure SplitRes (a a1 : ℚ) : Prop where
  zero : a = 0 → a1 = 0
  spec : a ≠ 0 → SplitSpec a a1 (Int.log 2 |a|)
  grid : ∀ g, (B).emin ≤ g → OnGrid g a → OnGrid g a1

theorem split_fin {a : ℚ} (ha : (B).Rep a) (hle : |a| ≤ 2 ^ (996 : ℤ)) :
    ∃ (a1 : ℚ) (h1 : (B).Rep a1) (h2 : (B).Rep (a - a1)),
      split (fin a ha) = (fin a1 h1, fin (a - a1) h2) ∧ SplitRes a a1 := by
  have big : (B).RepU (2 ^ (1023 : ℤ) + 2 ^ (1000 : ℤ)) := by
    have : (B).RepU (((2 ^ 23 + 1 : ℤ) : ℚ) * 2 ^ (1000 : ℤ)) := repU_of_le (by rw [p64]; norm_num) (by rw [emin64]; norm_num)
    convert this using 1
    rw [two_zpow_add 1000 1023 23 (by norm_num)]; push_cast; ring
  have bigle : (2 : ℚ) ^ (1023 : ℤ) + 2 ^ (1000 : ℤ) ≤ (B).maxQ :=
    le_trans (by have := pw_le (show (1000 : ℤ) ≤ 1022 by norm_num); linarith) le_maxQ64
  have z996 : (2 : ℚ) ^ (1023 : ℤ) = 2 ^ 27 * 2 ^ (996 : ℤ) := two_zpow_add _ _ 27 (by norm_num)
  have z1000 : (2 : ℚ) ^ (1000 : ℤ) = 2 ^ 4 * 2 ^ (996 : ℤ) := two_zpow_add _ _ 4 (by norm_num)
  have u0 := two_zpow_pos 996
  have hle' := abs_le.1 hle
  -- first product
  have g1 : |a * (2 ^ 27 + 1)| ≤ 2 ^ (1023 : ℤ) + 2 ^ (996 : ℤ) := by
    rw [abs_mul, abs_of_pos (by norm_num : (0 : ℚ) < 2 ^ 27 + 1), z996]; linarith
  have r996 : (B).RepU (2 ^ (1023 : ℤ) + 2 ^ (996 : ℤ)) := by
    have : (B).RepU (((2 ^ 27 + 1 : ℤ) : ℚ) * 2 ^ (996 : ℤ)) := repU_of_le (by rw [p64]; norm_num) (by rw [emin64]; norm_num)
    convert this using 1
    rw [z996]; push_cast; ring
  have hγ := abs_near_le r996 g1
  set γ := (B).roundQ .near (a * (2 ^ 27 + 1)) with hγd
  have hγm : |γ| ≤ (B).maxQ := hγ.trans (le_trans (by linarith) bigle)
  have e1 : ti (fin a ha) (fin (2 ^ 27 + 1) sigma_rep) = fin γ (rep_of_repU (roundQ_repU _ _) hγm) := by
    rw [ti_fin]; exact round_fin_of_le hγm
  have g2 : |γ - a| ≤ 2 ^ (1023 : ℤ) + 2 ^ (1000 : ℤ) := by
    refine (abs_sub _ _).trans ?_; linarith
  have hδ := abs_near_le big g2
  set δ := (B).roundQ .near (γ - a) with hδd
  have hδm := hδ.trans bigle
  have e2 : mi (fin γ (rep_of_repU (roundQ_repU _ _) hγm)) (fin a ha) = fin δ (rep_of_repU (roundQ_repU _ _) hδm) := by
    rw [mi_fin]; exact round_fin_of_le hδm
  have hgrid : ∀ g, (B).emin ≤ g → OnGrid g a → OnGrid g (γ - δ) := by
    intro g hg h
    have i1 : OnGrid g γ := by
      refine roundQ_onGrid .near hg ?_
      have := h.int_mul (2 ^ 27 + 1); push_cast at this; rw [mul_comm] at this
      convert this using 2; norm_num
    exact i1.sub (roundQ_onGrid .near hg (i1.sub h))
  -- the rest is exact
  have key : (B).Rep (γ - δ) ∧ (B).Rep (a - (γ - δ)) ∧ SplitRes a (γ - δ) := by
    rcases eq_or_ne a 0 with h0 | h0
    · have : γ = 0 := by rw [hγd, h0, zero_mul, rep_zero.repU.roundQ_eq]
      have h' : δ = 0 := by rw [hδd, this, h0, sub_zero, rep_zero.repU.roundQ_eq]
      rw [this, h', h0, sub_zero, sub_zero]
      exact ⟨rep_zero, rep_zero, ⟨fun _ => rfl, fun h => absurd rfl h, fun g _ _ => OnGrid.zero g⟩⟩
    · have run := split_run p64 ha.repU h0
      rw [← hγd, ← hδd] at run
      have l1 := Int.zpow_log_le_self (b := 2) (by norm_num) (abs_pos.2 h0)
      push_cast at l1
      have he := run.spec.err
      have hsm : (2 : ℚ) ^ (Int.log 2 |a| - 26) ≤ 2 ^ (996 : ℤ) :=
        le_trans (le_trans (pw_le (by omega)) l1) hle
      have b2 := he.trans hsm
      have b1 : |γ - δ| ≤ 2 ^ (997 : ℤ) := by
        have w : (2 : ℚ) ^ (997 : ℤ) = 2 ^ 1 * 2 ^ (996 : ℤ) := two_zpow_add _ _ 1 (by norm_num)
        rw [show γ - δ = a - (a - (γ - δ)) by ring, w]
        refine (abs_sub _ _).trans ?_
        linarith
      exact ⟨rep64 run.rep (b1.trans (pw_le (by norm_num))), rep64 run.rep2 (b2.trans (pw_le (by norm_num))),
        ⟨fun h => absurd h h0, fun _ => run.spec, hgrid⟩⟩
  obtain ⟨k1, k2, k3⟩ := key
  refine ⟨γ - δ, k1, k2, ?_, k3⟩
  unfold split
  simp only
  rw [sigma_eq, e1, e2, mi_exact _ _ k1 rfl, mi_exact ha k1 k2 rfl]

/-! ## twoproduct -/

theorem le_two_fin {k : ℤ} (h1 : -1074 ≤ k) (h2 : k ≤ 1023) {a : ℚ} (ha : (B).Rep a) :
    lt (two k) (Fl.abs (fin a ha)) = decide (2 ^ k < |a|) := by
  rw [two_eq h1 h2, abs_fin ha (rep_abs ha)]; rfl

theorem dekker_zero {a b : ℚ} (ha : (B).Rep a) (hb : (B).Rep b) (hla : |a| ≤ 2 ^ (996 : ℤ))
    (hlb : |b| ≤ 2 ^ (996 : ℤ)) (h0 : a * b = 0) :
    dekker (fin 0 rep_zero) (fin a ha) (fin b hb) = fin 0 rep_zero := by
  obtain ⟨a1, ha1, ha2, ea, ra⟩ := split_fin ha hla
  obtain ⟨b1, hb1, hb2, eb, rb⟩ := split_fin hb hlb
  have h11 : a1 * b1 = 0 := by
    rcases mul_eq_zero.1 h0 with h | h
    · rw [ra.zero h, zero_mul]
    · rw [rb.zero h, mul_zero]
  have h21 : (a - a1) * b1 = 0 := by
    rcases mul_eq_zero.1 h0 with h | h
    · rw [ra.zero h, h]; ring
    · rw [rb.zero h, mul_zero]
  have h12 : a1 * (b - b1) = 0 := by
    rcases mul_eq_zero.1 h0 with h | h
    · rw [ra.zero h, zero_mul]
    · rw [rb.zero h, h]; ring
  have h22 : (a - a1) * (b - b1) = 0 := by
    rcases mul_eq_zero.1 h0 with h | h
    · rw [ra.zero h, h]; ring
    · rw [rb.zero h, h]; ring
  unfold dekker
  rw [ea, eb, le_two_fin (by norm_num) (by norm_num), abs_zero, decide_eq_false (not_lt.2 (two_zpow_pos _).le)]
  simp only [Bool.false_eq_true, if_false]
  rw [ti_exact ha1 hb1 rep_zero h11, ti_exact ha2 hb1 rep_zero h21, ti_exact ha1 hb2 rep_zero h12,
    ti_exact ha2 hb2 rep_zero h22, mi_exact _ _ rep_zero (sub_zero 0), pl_exact _ _ rep_zero (add_zero 0),
    pl_exact _ _ rep_zero (add_zero 0), pl_exact _ _ rep_zero (add_zero 0)]

/-- the operands lie on grids whose product is not below the grid of subnormal numbers -/
def GridOk (a b : ℚ) : Prop :=
  ∃ ga gb : ℤ, -1074 ≤ ga ∧ -1074 ≤ gb ∧ -1074 ≤ ga + gb ∧ OnGrid ga a ∧ OnGrid gb b

theorem log_bounds {a : ℚ} (h0 : a ≠ 0) :
    (2 : ℚ) ^ (Int.log 2 |a|) ≤ |a| ∧ |a| < 2 ^ (Int.log 2 |a| + 1) := by
  have l1 := Int.zpow_log_le_self (b := 2) (by norm_num) (abs_pos.2 h0)
  have l2 := Int.lt_zpow_succ_log_self (b := 2) (by norm_num) |a|
  push_cast at l1 l2
  exact ⟨l1, l2⟩

theorem dekker_fin {a b x : ℚ} (ha : (B).Rep a) (hb : (B).Rep b) (hla : |a| ≤ 2 ^ (996 : ℤ))
    (hlb : |b| ≤ 2 ^ (996 : ℤ)) (hx : (B).Rep x) (hr : x = (B).roundQ .near (a * b))
    (hg : a * b = 0 ∨ GridOk a b) :
    ∃ h : (B).Rep (a * b - x), dekker (fin x hx) (fin a ha) (fin b hb) = fin (a * b - x) h := by
  rcases eq_or_ne (a * b) 0 with h0 | h0
  · have hx0 : x = 0 := by rw [hr, h0, rep_zero.repU.roundQ_eq]
    have e : a * b - x = 0 := by rw [h0, hx0, sub_zero]
    refine ⟨by rw [e]; exact rep_zero, ?_⟩
    rw [fin_congr hx rep_zero hx0, dekker_zero ha hb hla hlb h0]
    exact fin_congr _ _ e.symm
  have ⟨a0, b0⟩ := mul_ne_zero_iff.1 h0
  obtain ⟨ga, gb, hga, hgb, hgg, gra, grb⟩ := hg.resolve_left h0
  obtain ⟨a1, ha1, ha2, ea, ra⟩ := split_fin ha hla
  obtain ⟨b1, hb1, hb2, eb, rb⟩ := split_fin hb hlb
  obtain ⟨la1, la2⟩ := log_bounds a0
  obtain ⟨lb1, lb2⟩ := log_bounds b0
  have D := Format.dekker (F := B) p64 la1 la2 lb1 lb2 (ra.spec a0) (rb.spec b0)
    (onGrid_of_large p64 ha.repU la1) (onGrid_of_large p64 hb.repU lb1) gra (ra.grid ga hga gra) grb
    (rb.grid gb hgb grb) hgg
  rw [← hr] at D
  set ja := Int.log 2 |a| with hja
  set jb := Int.log 2 |b| with hjb
  obtain ⟨S, err, W, gx⟩ := D
  have hsum : ja + jb ≤ 1023 := by
    by_contra hc
    have h1 : (2 : ℚ) ^ (1024 : ℤ) ≤ |a * b| := by
      refine (pw_le (show (1024 : ℤ) ≤ ja + jb by omega)).trans ?_
      rw [zpow_add₀ (by norm_num), abs_mul]
      exact mul_le_mul la1 lb1 (two_zpow_pos _).le (abs_nonneg _)
    have h2 : (2 : ℚ) ^ (1024 : ℤ) ≤ |x| := by
      rw [hr]
      rcases abs_choice (a * b) with h | h
      · rw [h] at h1
        exact (le_roundQ_of_le .near (repU_pow (by rw [emin64]; norm_num)) h1).trans (le_abs_self _)
      · rw [h] at h1
        have := roundQ_le_of_le (F := B) .near (repU_pow (k := 1024) (by rw [emin64]; norm_num)).neg (q := a * b) (by linarith)
        have h3 := neg_abs_le ((B).roundQ .near (a * b))
        linarith
    exact absurd (h2.trans hx.abs_le) (not_le.2 maxQ64_lt)
  have wle : (2 : ℚ) ^ (ja + jb - 20) ≤ 2 ^ (1003 : ℤ) := pw_le (by omega)
  have wle' : (2 : ℚ) ^ (1003 : ℤ) ≤ 2 ^ (1023 : ℤ) := pw_le (by norm_num)
  have R : ∀ {t : ℚ}, (B).RepU t → |t| ≤ 2 ^ (ja + jb - 20) → (B).Rep t :=
    fun h1 h2 => rep64 h1 (h2.trans (wle.trans wle'))
  have t1 := R (t := a1 * b1 - x) (by rw [hr]; exact S.t1) (by rw [hr]; exact W.t1)
  have t2 := R (t := a * b1 - x) (by rw [hr]; exact S.t2) (by rw [hr]; exact W.t2)
  have t3 := R (t := a * b - (a - a1) * (b - b1) - x) (by rw [hr]; exact S.t3) (by rw [hr]; exact W.t3)
  have t4 := R (t := a * b - x) (by rw [hr]; exact S.t4) (by rw [hr]; exact W.t4)
  have p21 := R S.p21 W.p21
  have p12 := R S.p12 W.p12
  have p22 := R S.p22 W.p22
  refine ⟨t4, ?_⟩
  have tail : ∀ z, z = (fin (a1 * b1 - x) t1 : Dbl) →
      pl (pl (pl z (ti (fin (a - a1) ha2) (fin b1 hb1))) (ti (fin a1 ha1) (fin (b - b1) hb2)))
        (ti (fin (a - a1) ha2) (fin (b - b1) hb2)) = fin (a * b - x) t4 := by
    rintro z rfl
    rw [ti_exact ha2 hb1 p21 rfl, ti_exact ha1 hb2 p12 rfl, ti_exact ha2 hb2 p22 rfl,
      pl_exact _ _ t2 (by ring), pl_exact _ _ t3 (by ring), pl_exact _ _ t4 (by ring)]
  have ht1 : |a1 * b1 - x| ≤ 2 ^ (1003 : ℤ) := by rw [hr]; exact W.t1.trans wle
  have h11 : |a1 * b1| ≤ |x| + 2 ^ (1003 : ℤ) := by
    rw [show a1 * b1 = x + (a1 * b1 - x) by ring]
    refine (abs_add_le _ _).trans ?_
    linarith
  unfold dekker
  rw [ea, eb, le_two_fin (by norm_num) (by norm_num)]
  simp only
  by_cases hbig : 2 ^ (1023 : ℤ) < |x|
  · rw [if_pos (decide_eq_true hbig)]
    apply tail
    -- everything is far from the smallest exponents
    have hs2 : 1021 ≤ ja + jb := by
      by_contra hc
      have h1 : |a * b| ≤ 2 ^ (1022 : ℤ) := by
        refine le_trans ?_ (pw_le (show ja + 1 + (jb + 1) ≤ 1022 by omega))
        rw [zpow_add₀ (by norm_num), abs_mul]
        exact mul_le_mul la2.le lb2.le (abs_nonneg _) (two_zpow_pos _).le
      have h2 := abs_near_le (F := B) (repU_pow (k := 1022) (by rw [emin64]; norm_num)) h1
      rw [← hr] at h2
      exact absurd (hbig.trans_le h2) (not_lt.2 (pw_le (by norm_num)))
    have hja : ja ≤ 996 := by
      by_contra hc
      have := (pw_lt (show (996 : ℤ) < ja by omega)).trans_le (la1.trans hla)
      exact lt_irrefl _ this
    have hjb : jb ≤ 996 := by
      by_contra hc
      have := (pw_lt (show (996 : ℤ) < jb by omega)).trans_le (lb1.trans hlb)
      exact lt_irrefl _ this
    have sa := (ra.spec a0).grid
    have sb := (rb.spec b0).grid
    have half : ∀ {t : ℚ} {g : ℤ}, (B).RepU t → OnGrid g t → -1073 ≤ g → (B).RepU (t * (1 / 2)) :=
      fun h hg' hle => RepU.half h (hg'.mono (by rw [emin64]; omega))
    have q1 : (B).Rep (a1 * (1 / 2)) := by
      refine rep_of_repU (half ha1.repU sa (by omega)) ?_
      refine le_trans ?_ ha1.abs_le
      rw [abs_mul, abs_of_pos (by norm_num : (0 : ℚ) < 1 / 2)]
      have := abs_nonneg a1; linarith
    have hxm : |x| < 2 ^ (1024 : ℤ) := hx.abs_le.trans_lt maxQ64_lt
    have q2 : (B).Rep (x * (1 / 2)) := by
      refine rep_of_repU (half hx.repU gx (by omega)) ?_
      refine le_trans ?_ hx.abs_le
      rw [abs_mul, abs_of_pos (by norm_num : (0 : ℚ) < 1 / 2)]
      have := abs_nonneg x; linarith
    have q3 : (B).Rep (a1 * b1 * (1 / 2)) := by
      refine rep_of_repU (half S.p11 (sa.mul sb) (by omega)) (le_trans ?_ le_maxQ64)
      rw [abs_mul, abs_of_pos (by norm_num : (0 : ℚ) < 1 / 2)]
      have e1 : (2 : ℚ) ^ (1024 : ℤ) = 2 ^ 1 * 2 ^ (1023 : ℤ) := two_zpow_add _ _ 1 (by norm_num)
      have e2 : (2 : ℚ) ^ (1003 : ℤ) ≤ 2 ^ (1022 : ℤ) := pw_le (by norm_num)
      linarith
    have q4 : (B).Rep ((a1 * b1 - x) * (1 / 2)) := by
      refine rep_of_repU (half t1.repU ((sa.mul sb).mono (show ja + jb - 52 ≤ _ by omega) |>.sub gx) (by omega)) ?_
      refine le_trans ?_ t1.abs_le
      rw [abs_mul, abs_of_pos (by norm_num : (0 : ℚ) < 1 / 2)]
      have := abs_nonneg (a1 * b1 - x); linarith
    have two2 : (B).Rep 2 := by
      have := rep_pow (k := 1) (by norm_num) (by norm_num); rwa [zpow_one] at this
    rw [lit_eq Format.rep_half, lit_eq two2, ti_exact ha1 _ q1 rfl, ti_exact hx _ q2 rfl,
      ti_exact q1 hb1 q3 (by ring), mi_exact q3 q2 q4 (by ring), ti_exact q4 two2 t1 (by ring)]
  · rw [if_neg (by simpa using hbig)]
    apply tail
    have p11 : (B).Rep (a1 * b1) := by
      refine rep_of_repU S.p11 (le_trans ?_ le_maxQ64)
      have e2 : (2 : ℚ) ^ (1003 : ℤ) ≤ 2 ^ (1022 : ℤ) := pw_le (by norm_num)
      have := not_lt.1 hbig
      linarith
    rw [ti_exact ha1 hb1 p11 rfl, mi_exact p11 hx t1 rfl]

/-- scaling of one operand down and of the other up in `twoproduct` -/
theorem scale_ok {a b x : ℚ} (ha : (B).Rep a) (hb : (B).Rep b) (hx : (B).Rep x)
    (hr : x = (B).roundQ .near (a * b)) (hbig : 2 ^ (996 : ℤ) < |a|) :
    ∃ (_ : (B).Rep (a * 2 ^ (-28 : ℤ))) (_ : (B).Rep (b * 2 ^ (28 : ℤ))),
      |a * 2 ^ (-28 : ℤ)| ≤ 2 ^ (996 : ℤ) ∧ |b * 2 ^ (28 : ℤ)| ≤ 2 ^ (996 : ℤ) ∧
      GridOk (a * 2 ^ (-28 : ℤ)) (b * 2 ^ (28 : ℤ)) := by
  have ga : OnGrid 944 a := by
    have := onGrid_of_large p64 ha.repU hbig.le
    exact this.mono (by norm_num)
  have gna := ga.scale (-28)
  have gb := (onGrid_of_repU hb.repU)
  rw [emin64] at gb
  have gnb := gb.scale 28
  have am : |a| ≤ 2 ^ (1024 : ℤ) := ha.abs_le.trans maxQ64_lt.le
  have na : |a * 2 ^ (-28 : ℤ)| ≤ 2 ^ (996 : ℤ) := by
    rw [abs_mul, abs_of_pos (two_zpow_pos _)]
    calc |a| * 2 ^ (-28 : ℤ) ≤ 2 ^ (1024 : ℤ) * 2 ^ (-28 : ℤ) :=
          mul_le_mul_of_nonneg_right am (two_zpow_pos _).le
      _ = 2 ^ (996 : ℤ) := by rw [← zpow_add₀ (by norm_num)]; norm_num
  have bm : |b| ≤ 2 ^ (28 : ℤ) := by
    by_contra hc
    have hc := not_le.1 hc
    have h1 : (2 : ℚ) ^ (1024 : ℤ) ≤ |a * b| := by
      rw [abs_mul, show (1024 : ℤ) = 996 + 28 by norm_num, zpow_add₀ (by norm_num)]
      exact mul_le_mul hbig.le hc.le (two_zpow_pos _).le (abs_nonneg _)
    have h2 : (2 : ℚ) ^ (1024 : ℤ) ≤ |x| := by
      rw [hr]
      rcases abs_choice (a * b) with h | h
      · rw [h] at h1
        exact (le_roundQ_of_le .near (repU_pow (by rw [emin64]; norm_num)) h1).trans (le_abs_self _)
      · rw [h] at h1
        have := roundQ_le_of_le (F := B) .near (repU_pow (k := 1024) (by rw [emin64]; norm_num)).neg (q := a * b) (by linarith)
        have h3 := neg_abs_le ((B).roundQ .near (a * b))
        linarith
    exact absurd (h2.trans hx.abs_le) (not_le.2 maxQ64_lt)
  have nb : |b * 2 ^ (28 : ℤ)| ≤ 2 ^ (996 : ℤ) := by
    rw [abs_mul, abs_of_pos (two_zpow_pos _)]
    calc |b| * 2 ^ (28 : ℤ) ≤ 2 ^ (28 : ℤ) * 2 ^ (28 : ℤ) :=
          mul_le_mul_of_nonneg_right bm (two_zpow_pos _).le
      _ ≤ 2 ^ (996 : ℤ) := by rw [← zpow_add₀ (by norm_num)]; exact pw_le (by norm_num)
  refine ⟨rep64 (RepU.scale ha.repU (ga.mono (by rw [emin64]; norm_num))) (na.trans (pw_le (by norm_num))),
    rep64 (RepU.scale hb.repU (gb.mono (by rw [emin64]; norm_num))) (nb.trans (pw_le (by norm_num))), na, nb,
    944 + -28, -1074 + 28, by norm_num, by norm_num, by norm_num, gna, gnb⟩

/-- `twoproduct` is error free -/
theorem twoproduct_fin (fma : Bool) {a b x : ℚ} (ha : (B).Rep a) (hb : (B).Rep b) (hx : (B).Rep x)
    (hr : (Fl.round .near (a * b) : Dbl) = fin x hx) (hg : a * b = 0 ∨ GridOk a b) :
    ∃ h : (B).Rep (a * b - x), twoproduct fma (fin a ha) (fin b hb) = (fin x hx, fin (a * b - x) h) := by
  have hv := round_fin_val hr
  have sc : ∀ {c d : ℚ}, c * 2 ^ (-28 : ℤ) * (d * 2 ^ (28 : ℤ)) = c * d := by
    intro c d
    rw [show c * 2 ^ (-28 : ℤ) * (d * 2 ^ (28 : ℤ)) = c * d * (2 ^ (-28 : ℤ) * 2 ^ (28 : ℤ)) by ring,
      ← zpow_add₀ (by norm_num)]
    norm_num
  unfold twoproduct
  rw [ti_fin, hr, le_two_fin (by norm_num) (by norm_num), le_two_fin (by norm_num) (by norm_num),
    two_eq (by norm_num) (by norm_num), two_eq (by norm_num) (by norm_num)]
  simp only
  rcases fma with _ | _
  · simp only [Bool.false_eq_true, if_false]
    by_cases h1 : 2 ^ (996 : ℤ) < |a|
    · rw [if_pos (decide_eq_true h1)]
      obtain ⟨r1, r2, l1, l2, g⟩ := scale_ok ha hb hx hv h1
      rw [ti_exact ha _ r1 rfl, ti_exact hb _ r2 rfl]
      obtain ⟨h, e⟩ := dekker_fin r1 r2 l1 l2 hx (by rw [sc]; exact hv) (Or.inr g)
      rw [e]
      exact ⟨by rw [sc] at h; exact h, by rw [fin_congr h (by rw [sc] at h; exact h) (by rw [sc])]⟩
    · rw [if_neg (by simpa using h1)]
      by_cases h2 : 2 ^ (996 : ℤ) < |b|
      · rw [if_pos (decide_eq_true h2)]
        obtain ⟨r1, r2, l1, l2, g⟩ := scale_ok hb ha hx (by rw [mul_comm]; exact hv) h2
        rw [ti_exact hb _ r1 rfl, ti_exact ha _ r2 rfl]
        have sc' : a * 2 ^ (28 : ℤ) * (b * 2 ^ (-28 : ℤ)) = a * b := by rw [mul_comm, sc, mul_comm]
        obtain ⟨ga, gb, g1, g2, g3, g4, g5⟩ := g
        obtain ⟨h, e⟩ := dekker_fin r2 r1 l2 l1 hx (by rw [sc']; exact hv)
          (Or.inr ⟨gb, ga, g2, g1, by omega, g5, g4⟩)
        rw [e]
        exact ⟨by rw [sc'] at h; exact h, by rw [fin_congr h (by rw [sc'] at h; exact h) (by rw [sc'])]⟩
      · rw [if_neg (by simpa using h2)]
        obtain ⟨h, e⟩ := dekker_fin ha hb (not_lt.1 h1) (not_lt.1 h2) hx hv hg
        exact ⟨h, by rw [e]⟩
  · simp only [if_true]
    have h : (B).Rep (a * b - x) := by
      rcases eq_or_ne (a * b) 0 with h0 | h0
      · have hx0 : x = 0 := by rw [hv, h0, rep_zero.repU.roundQ_eq]
        rw [h0, hx0, sub_zero]; exact rep_zero
      · by_cases h1 : 2 ^ (996 : ℤ) < |a|
        · obtain ⟨r1, r2, l1, l2, g⟩ := scale_ok ha hb hx hv h1
          obtain ⟨h, -⟩ := dekker_fin r1 r2 l1 l2 hx (by rw [sc]; exact hv) (Or.inr g)
          rwa [sc] at h
        · by_cases h2 : 2 ^ (996 : ℤ) < |b|
          · obtain ⟨r1, r2, l1, l2, g⟩ := scale_ok hb ha hx (by rw [mul_comm]; exact hv) h2
            obtain ⟨h, -⟩ := dekker_fin r1 r2 l1 l2 hx (by rw [sc, mul_comm]; exact hv) (Or.inr g)
            rwa [sc, mul_comm] at h
          · exact (dekker_fin ha hb (not_lt.1 h1) (not_lt.1 h2) hx hv hg).1
    refine ⟨h, ?_⟩
    have : fma3 (fin a ha) (fin b hb) (neg (fin x hx)) = Fl.round .near (a * b + -x) := rfl
    rw [this, ← sub_eq_add_neg, round_of_rep _ h]

/-- products that are not tiny satisfy the grid condition -/
theorem gridOk_of_le {a b : ℚ} (ha : (B).Rep a) (hb : (B).Rep b)
    (h : 2 ^ (-969 : ℤ) ≤ |(B).roundQ .near (a * b)|) : GridOk a b := by
  refine ⟨(B).ulpExp a, (B).ulpExp b, emin_le_ulpExp _, emin_le_ulpExp _, ?_, onGrid_ulp_of_repU ha.repU,
    onGrid_ulp_of_repU hb.repU⟩
  by_contra hc
  have bnd : ∀ {c : ℚ}, (B).Rep c → |c| ≤ (2 ^ 53 - 1) * 2 ^ ((B).ulpExp c) := by
    intro c hcr
    have h1 : OnGrid ((B).ulpExp c) |c| := by
      have := onGrid_ulp_of_repU hcr.repU
      rcases abs_choice c with h | h <;> rw [h]
      · exact this
      · exact this.neg
    have h2 := abs_lt_ulpExp (F := B) c
    have e : (2 : ℚ) ^ ((B).ulpExp c + (B).p) = 2 ^ 53 * 2 ^ ((B).ulpExp c) :=
      two_zpow_add _ _ 53 (by rw [p64])
    have h3 := OnGrid.sep h1 ((OnGrid.two_zpow _).mono (show (B).ulpExp c ≤ (B).ulpExp c + (B).p by omega)) h2
    rw [e] at h3
    linarith
  have hA := bnd ha
  have hB := bnd hb
  have hP : (2 : ℚ) ^ ((B).ulpExp a) * 2 ^ ((B).ulpExp b) ≤ 2 ^ (-1075 : ℤ) := by
    rw [← zpow_add₀ (by norm_num)]; exact pw_le (by omega)
  have hab : |a * b| ≤ (2 ^ 53 - 1) * 2 ^ (-1022 : ℤ) := by
    rw [abs_mul]
    have e : (2 : ℚ) ^ (-1022 : ℤ) = 2 ^ 53 * 2 ^ (-1075 : ℤ) := two_zpow_add _ _ 53 (by norm_num)
    calc |a| * |b| ≤ ((2 ^ 53 - 1) * 2 ^ ((B).ulpExp a)) * ((2 ^ 53 - 1) * 2 ^ ((B).ulpExp b)) :=
          mul_le_mul hA hB (abs_nonneg _) ((abs_nonneg _).trans hA)
      _ = (2 ^ 53 - 1) * (2 ^ 53 - 1) * (2 ^ ((B).ulpExp a) * 2 ^ ((B).ulpExp b)) := by ring
      _ ≤ (2 ^ 53 - 1) * (2 ^ 53 - 1) * 2 ^ (-1075 : ℤ) :=
          mul_le_mul_of_nonneg_left hP (by norm_num)
      _ ≤ (2 ^ 53 - 1) * 2 ^ (-1022 : ℤ) := by
          rw [e]
          have := two_zpow_pos (-1075)
          generalize (2 : ℚ) ^ (-1075 : ℤ) = v at *
          nlinarith
  have hM : (B).RepU ((2 ^ 53 - 1) * 2 ^ (-1022 : ℤ)) := by
    have : (B).RepU (((2 ^ 53 - 1 : ℤ) : ℚ) * 2 ^ (-1022 : ℤ)) := repU_of_le (by rw [p64]; norm_num) (by rw [emin64]; norm_num)
    convert this using 1; norm_num
  have h1 := h.trans (abs_near_le hM hab)
  have e : (2 : ℚ) ^ (-969 : ℤ) = 2 ^ 53 * 2 ^ (-1022 : ℤ) := two_zpow_add _ _ 53 (by norm_num)
  rw [e] at h1
  have := two_zpow_pos (-1022)
  generalize (2 : ℚ) ^ (-1022 : ℤ) = v at *
  linarith

end Emu
end Kv
