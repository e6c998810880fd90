import Verif.Double.DDLemmas
import Verif.Float.Exact

/-!
# `rop<dd>`: division and square root
-/

set_option exponentiation.threshold 3000

namespace Kv
namespace DD
open Fl Format Emu

local notation "B" => binary64

/-! ## the product with remainder is exact in every mode when nothing underflows -/

theorem add_exact (md : RMode) {a b c : ℚ} (ha : (B).Rep a) (hb : (B).Rep b) (hc : (B).Rep c) (e : a + b = c) :
    Fl.add md (fin a ha) (fin b hb) = fin c hc := by
  subst e; exact round_of_rep _ _

theorem sub_exact (md : RMode) {a b c : ℚ} (ha : (B).Rep a) (hb : (B).Rep b) (hc : (B).Rep c) (e : a - b = c) :
    Fl.sub md (fin a ha) (fin b hb) = fin c hc :=
  add_exact md ha hb.neg hc (by rw [← e]; ring)

theorem dekkerR_fin (md : RMode) {a b x : ℚ} (ha : (B).Rep a) (hb : (B).Rep b) (hla : |a| ≤ 2 ^ (996 : ℤ))
    (hlb : |b| ≤ 2 ^ (996 : ℤ)) (hx : (B).Rep x) (hr : x = (B).roundQ .near (a * b))
    (h0 : a * b ≠ 0) (hg : GridOk a b) :
    ∃ h : (B).Rep (a * b - x), dekkerR md (fin x hx) (fin a ha) (fin b hb) = fin (a * b - x) h := by
  have ⟨a0, b0⟩ := mul_ne_zero_iff.1 h0
  obtain ⟨ga, gb, hga, hgb, hgg, gra, grb⟩ := hg
  obtain ⟨a1, ha1, ha2, ea, ra⟩ := split_fin ha hla
  obtain ⟨b1, hb1, hb2, eb, rb⟩ := split_fin hb hlb
  obtain ⟨la1, la2⟩ := log_bounds a0
  obtain ⟨lb1, lb2⟩ := log_bounds b0
  have D := Format.dekker (F := B) p64 la1 la2 lb1 lb2 (ra.spec a0) (rb.spec b0)
    (onGrid_of_large p64 ha.repU la1) (onGrid_of_large p64 hb.repU lb1) gra (ra.grid ga hga gra) grb
    (rb.grid gb hgb grb) hgg
  rw [← hr] at D
  set ja := Int.log 2 |a| with hja
  set jb := Int.log 2 |b| with hjb
  obtain ⟨S, err, W, gx⟩ := D
  have hsum : ja + jb ≤ 1023 := by
    by_contra hc
    have h1 : (2 : ℚ) ^ (1024 : ℤ) ≤ |a * b| := by
      refine (pw_le (show (1024 : ℤ) ≤ ja + jb by omega)).trans ?_
      rw [zpow_add₀ (by norm_num), abs_mul]
      exact mul_le_mul la1 lb1 (two_zpow_pos _).le (abs_nonneg _)
    have h2 : (2 : ℚ) ^ (1024 : ℤ) ≤ |x| := by
      rw [hr]
      rcases abs_choice (a * b) with h | h
      · rw [h] at h1
        exact (le_roundQ_of_le .near (repU_pow (by rw [emin64]; norm_num)) h1).trans (le_abs_self _)
      · rw [h] at h1
        have := roundQ_le_of_le (F := B) .near (repU_pow (k := 1024) (by rw [emin64]; norm_num)).neg (q := a * b) (by linarith)
        have h3 := neg_abs_le ((B).roundQ .near (a * b))
        linarith
    exact absurd (h2.trans hx.abs_le) (not_le.2 maxQ64_lt)
  have wle : (2 : ℚ) ^ (ja + jb - 20) ≤ 2 ^ (1003 : ℤ) := pw_le (by omega)
  have wle' : (2 : ℚ) ^ (1003 : ℤ) ≤ 2 ^ (1023 : ℤ) := pw_le (by norm_num)
  have R : ∀ {t : ℚ}, (B).RepU t → |t| ≤ 2 ^ (ja + jb - 20) → (B).Rep t :=
    fun h1 h2 => rep64 h1 (h2.trans (wle.trans wle'))
  have t1 := R (t := a1 * b1 - x) (by rw [hr]; exact S.t1) (by rw [hr]; exact W.t1)
  have t2 := R (t := a * b1 - x) (by rw [hr]; exact S.t2) (by rw [hr]; exact W.t2)
  have t3 := R (t := a * b - (a - a1) * (b - b1) - x) (by rw [hr]; exact S.t3) (by rw [hr]; exact W.t3)
  have t4 := R (t := a * b - x) (by rw [hr]; exact S.t4) (by rw [hr]; exact W.t4)
  have p21 := R S.p21 W.p21
  have p12 := R S.p12 W.p12
  have p22 := R S.p22 W.p22
  refine ⟨t4, ?_⟩
  have tail : ∀ z, z = (fin (a1 * b1 - x) t1 : Dbl) →
      Fl.add md (Fl.add md (Fl.add md z (Fl.mul md (fin (a - a1) ha2) (fin b1 hb1)))
        (Fl.mul md (fin a1 ha1) (fin (b - b1) hb2))) (Fl.mul md (fin (a - a1) ha2) (fin (b - b1) hb2)) = fin (a * b - x) t4 := by
    rintro z rfl
    rw [mul_exact md ha2 hb1 p21 rfl, mul_exact md ha1 hb2 p12 rfl, mul_exact md ha2 hb2 p22 rfl,
      add_exact md _ _ t2 (by ring), add_exact md _ _ t3 (by ring), add_exact md _ _ t4 (by ring)]
  have ht1 : |a1 * b1 - x| ≤ 2 ^ (1003 : ℤ) := by rw [hr]; exact W.t1.trans wle
  have h11 : |a1 * b1| ≤ |x| + 2 ^ (1003 : ℤ) := by
    rw [show a1 * b1 = x + (a1 * b1 - x) by ring]
    refine (abs_add_le _ _).trans ?_
    linarith
  unfold dekkerR
  rw [ea, eb, le_two_fin (by norm_num) (by norm_num)]
  simp only
  by_cases hbig : 2 ^ (1023 : ℤ) < |x|
  · rw [if_pos (decide_eq_true hbig)]
    apply tail
    -- everything is far from the smallest exponents
    have hs2 : 1021 ≤ ja + jb := by
      by_contra hc
      have h1 : |a * b| ≤ 2 ^ (1022 : ℤ) := by
        refine le_trans ?_ (pw_le (show ja + 1 + (jb + 1) ≤ 1022 by omega))
        rw [zpow_add₀ (by norm_num), abs_mul]
        exact mul_le_mul la2.le lb2.le (abs_nonneg _) (two_zpow_pos _).le
      have h2 := abs_near_le (F := B) (repU_pow (k := 1022) (by rw [emin64]; norm_num)) h1
      rw [← hr] at h2
      exact absurd (hbig.trans_le h2) (not_lt.2 (pw_le (by norm_num)))
    have hja : ja ≤ 996 := by
      by_contra hc
      have := (pw_lt (show (996 : ℤ) < ja by omega)).trans_le (la1.trans hla)
      exact lt_irrefl _ this
    have hjb : jb ≤ 996 := by
      by_contra hc
      have := (pw_lt (show (996 : ℤ) < jb by omega)).trans_le (lb1.trans hlb)
      exact lt_irrefl _ this
    have sa := (ra.spec a0).grid
    have sb := (rb.spec b0).grid
    have half : ∀ {t : ℚ} {g : ℤ}, (B).RepU t → OnGrid g t → -1073 ≤ g → (B).RepU (t * (1 / 2)) :=
      fun h hg' hle => RepU.half h (hg'.mono (by rw [emin64]; omega))
    have q1 : (B).Rep (a1 * (1 / 2)) := by
      refine rep_of_repU (half ha1.repU sa (by omega)) ?_
      refine le_trans ?_ ha1.abs_le
      rw [abs_mul, abs_of_pos (by norm_num : (0 : ℚ) < 1 / 2)]
      have := abs_nonneg a1; linarith
    have hxm : |x| < 2 ^ (1024 : ℤ) := hx.abs_le.trans_lt maxQ64_lt
    have q2 : (B).Rep (x * (1 / 2)) := by
      refine rep_of_repU (half hx.repU gx (by omega)) ?_
      refine le_trans ?_ hx.abs_le
      rw [abs_mul, abs_of_pos (by norm_num : (0 : ℚ) < 1 / 2)]
      have := abs_nonneg x; linarith
    have q3 : (B).Rep (a1 * b1 * (1 / 2)) := by
      refine rep_of_repU (half S.p11 (sa.mul sb) (by omega)) (le_trans ?_ le_maxQ64)
      rw [abs_mul, abs_of_pos (by norm_num : (0 : ℚ) < 1 / 2)]
      have e1 : (2 : ℚ) ^ (1024 : ℤ) = 2 ^ 1 * 2 ^ (1023 : ℤ) := two_zpow_add _ _ 1 (by norm_num)
      have e2 : (2 : ℚ) ^ (1003 : ℤ) ≤ 2 ^ (1022 : ℤ) := pw_le (by norm_num)
      linarith
    have q4 : (B).Rep ((a1 * b1 - x) * (1 / 2)) := by
      refine rep_of_repU (half t1.repU ((sa.mul sb).mono (show ja + jb - 52 ≤ _ by omega) |>.sub gx) (by omega)) ?_
      refine le_trans ?_ t1.abs_le
      rw [abs_mul, abs_of_pos (by norm_num : (0 : ℚ) < 1 / 2)]
      have := abs_nonneg (a1 * b1 - x); linarith
    have two2 : (B).Rep 2 := by
      have := rep_pow (k := 1) (by norm_num) (by norm_num); rwa [zpow_one] at this
    rw [lit_eq Format.rep_half, lit_eq two2, mul_exact md ha1 _ q1 rfl, mul_exact md hx _ q2 rfl,
      mul_exact md q1 hb1 q3 (by ring), sub_exact md q3 q2 q4 (by ring), mul_exact md q4 two2 t1 (by ring)]
  · rw [if_neg (by simpa using hbig)]
    apply tail
    have p11 : (B).Rep (a1 * b1) := by
      refine rep_of_repU S.p11 (le_trans ?_ le_maxQ64)
      have e2 : (2 : ℚ) ^ (1003 : ℤ) ≤ 2 ^ (1022 : ℤ) := pw_le (by norm_num)
      have := not_lt.1 hbig
      linarith
    rw [mul_exact md ha1 hb1 p11 rfl, sub_exact md p11 hx t1 rfl]


theorem twoproductR_fin (md : RMode) (fma : Bool) {a b x : ℚ} (ha : (B).Rep a) (hb : (B).Rep b)
    (hla : |a| ≤ 2 ^ (996 : ℤ)) (hlb : |b| ≤ 2 ^ (996 : ℤ)) (hx : (B).Rep x)
    (hr : (Fl.round .near (a * b) : Dbl) = fin x hx) (h0 : a * b ≠ 0) (hg : GridOk a b) :
    ∃ h : (B).Rep (a * b - x), twoproductR md fma (fin a ha) (fin b hb) = (fin x hx, fin (a * b - x) h) := by
  obtain ⟨h, e⟩ := dekkerR_fin md ha hb hla hlb hx (round_fin_val hr) h0 hg
  refine ⟨h, ?_⟩
  unfold twoproductR
  simp only [ti_fin ha hb, hr]
  cases fma
  · rw [if_neg (by simp), le_two_fin (by norm_num) (by norm_num), le_two_fin (by norm_num) (by norm_num),
      if_neg (by simpa using hla), if_neg (by simpa using hlb), e]
  · rw [if_pos rfl]
    have : fmaR md (fin a ha) (fin b hb) (Fl.neg (fin x hx)) = Fl.round md (a * b + -x) := rfl
    rw [this, ← sub_eq_add_neg, round_of_rep _ h]

/-! ## bounds of quotients -/

/-- a positive finite lower bound -/
def PLB (t : Dbl) (Y : ℝ) : Prop := ∃ q, ∃ h : (B).Rep q, t = fin q h ∧ 0 < q ∧ (q : ℝ) ≤ Y

theorem ub_div {n t : Dbl} {e Y : ℝ} (hY : 0 < Y) (hn : UB n e) (h1 : Fl.lt (lit 0) n = true → PLB t Y)
    (h2 : Fl.lt n (lit 0) = true → UB t Y) (h3 : PLB t Y ∨ UB t Y) : UB (Fl.div .up n t) (e / Y) := by
  cases hn with
  | inf =>
    obtain ⟨q, h, rfl, q0, hq⟩ := h1 (by rw [lit0]; rfl)
    have : Fl.div .up pinf (fin q h) = (pinf : Dbl) := by
      simp only [Fl.div, if_neg (not_lt.2 q0.le)]; rfl
    rw [this]; exact .inf _
  | fin hq hv =>
    rename_i n
    have hle : e / Y ≤ n / Y := div_le_div_of_nonneg_right hv hY.le
    rcases lt_trichotomy n 0 with h0 | h0 | h0
    · have hT := h2 (by rw [lit0]; exact decide_eq_true h0)
      have hn0 : (n : ℝ) < 0 := by exact_mod_cast h0
      cases hT with
      | inf =>
        show UB (fin 0 _) _
        refine .fin _ (hle.trans ?_)
        rw [Rat.cast_zero]
        exact div_nonpos_of_nonpos_of_nonneg hn0.le hY.le
      | fin ht htv =>
        rename_i t
        have ht0 : (0 : ℝ) < t := hY.trans_le htv
        have ht0' : t ≠ 0 := by rintro rfl; simp at ht0
        rw [div_fin _ _ _ ht0']
        refine (ub_round _).mono (hle.trans ?_)
        push_cast
        rw [div_le_div_iff₀ hY ht0]
        nlinarith
    · have hz : e / Y ≤ 0 := by rw [h0] at hle; simpa using hle
      have key : ∀ {t : ℚ} (ht : (B).Rep t), 0 < (t : ℝ) → UB (Fl.div .up (fin n hq) (fin t ht)) (e / Y) := by
        intro t ht ht0
        have ht0' : t ≠ 0 := by rintro rfl; simp at ht0
        rw [div_fin _ _ _ ht0', h0, zero_div]
        exact (ub_round 0).mono (by simpa using hz)
      rcases h3 with ⟨q, h, rfl, q0, -⟩ | h
      · exact key h (by exact_mod_cast q0)
      · cases h with
        | inf => exact UB.fin rep_zero (by simpa using hz)
        | fin ht htv => exact key ht (hY.trans_le htv)
    · obtain ⟨t, ht, rfl, t0, htv⟩ := h1 (by rw [lit0]; exact decide_eq_true h0)
      rw [div_fin _ _ _ t0.ne']
      refine (ub_round _).mono (hle.trans ?_)
      have hn0 : (0 : ℝ) < n := by exact_mod_cast h0
      have ht0 : (0 : ℝ) < t := by exact_mod_cast t0
      push_cast
      rw [div_le_div_iff₀ hY ht0]
      nlinarith

theorem div_neg_neg' (md : RMode) (x y : Dbl) (hy : y ≠ fin 0 rep_zero) :
    Fl.div md (Fl.neg x) (Fl.neg y) = Fl.div md x y := by
  cases x <;> cases y <;> try rfl
  case fin.fin a ha b hb =>
    have hb0 : b ≠ 0 := by rintro rfl; exact hy rfl
    simp only [Fl.neg, Fl.div, neg_eq_zero, if_neg hb0, neg_div_neg_eq]
  all_goals
    rename_i b hb
    have hb0 : b ≠ 0 := by rintro rfl; exact hy rfl
    simp only [Fl.neg, Fl.div, sgn, neg_lt_zero]
    rcases lt_or_gt_of_ne hb0 with h | h
    · rw [if_neg (not_lt.2 h.le), if_pos h]; first | done | rfl
    · rw [if_pos h, if_neg (not_lt.2 h.le)]; first | done | rfl

theorem lt_zero_neg (n : Dbl) : Fl.lt (lit 0) (Fl.neg n) = Fl.lt n (lit 0) := by
  rw [lit0]
  cases n <;> simp [Fl.lt, Fl.neg]
theorem neg_lt_zero' (n : Dbl) : Fl.lt (Fl.neg n) (lit 0) = Fl.lt (lit 0) n := by
  rw [lit0]
  cases n <;> simp [Fl.lt, Fl.neg]

theorem ub_of_add_up {a b : ℚ} (ha : (B).Rep a) (hb : (B).Rep b) :
    UB (Fl.add .up (fin a ha) (fin b hb)) ((a : ℝ) + b) :=
  (ub_round (a + b)).mono (by push_cast; exact le_rfl)

theorem plb_of_add_down {a b : ℚ} (ha : (B).Rep a) (hb : (B).Rep b) (h0 : 0 < a + b) :
    PLB (Fl.add .down (fin a ha) (fin b hb)) ((a : ℝ) + b) := by
  have h := round_down_isDown (F := B) (a + b)
  change PLB (Fl.round .down (a + b)) _
  have ht : (B).Rep (2 ^ (-1074 : ℤ)) := rep_pow (by norm_num) (by norm_num)
  have hle : (2 : ℚ) ^ (-1074 : ℤ) ≤ a + b := by
    obtain ⟨n, hn⟩ : OnGrid (-1074) (a + b) := (onGrid_of_repU ha.repU).add (onGrid_of_repU hb.repU)
    rw [hn] at h0 ⊢
    have hp := two_zpow_pos (-1074)
    have : (0 : ℚ) < n := pos_of_mul_pos_left h0 hp.le
    have : (1 : ℚ) ≤ n := by exact_mod_cast (show (0 : ℤ) < n by exact_mod_cast this)
    nlinarith
  cases hr : (Fl.round .down (a + b) : Dbl) with
  | nan => exact absurd hr h.1
  | pinf =>
    rw [hr] at h
    have := h.2.1
    rw [toE_pinf, top_le_iff] at this
    exact absurd this (EReal.coe_ne_top _)
  | ninf =>
    rw [hr] at h
    have := h.2.2 (fin _ ht) (by simp) (coeQ_le.2 hle)
    simp at this
  | fin q hq =>
    rw [hr] at h
    have h1 := h.2.2 (fin _ ht) (by simp) (coeQ_le.2 hle)
    have h2 := h.2.1
    rw [toE_fin, toE_fin, coeQ_le] at h1
    rw [toE_fin, coeQ_le] at h2
    exact ⟨q, hq, rfl, (two_zpow_pos _).trans_le h1, by exact_mod_cast h2⟩

theorem bd_div_pos (s : Bool) {n : Dbl} {e : ℝ} {a b : ℚ} (ha : (B).Rep a) (hb : (B).Rep b) (h0 : 0 < a + b)
    (hn : Bd s n e) :
    Bd s (Fl.div (dir s) n (if Fl.lt (lit 0) n then Fl.add (dir !s) (fin a ha) (fin b hb)
      else Fl.add (dir s) (fin a ha) (fin b hb))) (e / ((a : ℝ) + b)) := by
  have hY : (0 : ℝ) < (a : ℝ) + b := by exact_mod_cast h0
  have hU := ub_of_add_up ha hb
  have hL := plb_of_add_down ha hb h0
  have excl : Fl.lt n (lit 0) = true → Fl.lt (lit 0) n = false := by
    rw [lit0]; cases n <;> simp [Fl.lt]; exact fun h => h.le
  cases s
  · show UB (Fl.neg (Fl.div .down _ _)) _
    rw [neg_div_dn, ← neg_div]
    refine ub_div hY hn ?_ ?_ ?_
    · intro h
      rw [lt_zero_neg] at h
      rw [excl h]; exact hL
    · intro h
      rw [neg_lt_zero'] at h
      rw [h]; exact hU
    · cases Fl.lt (lit 0) n
      · exact Or.inl hL
      · exact Or.inr hU
  · refine ub_div hY hn ?_ ?_ ?_
    · intro h
      rw [h]; exact hL
    · intro h
      rw [excl h]; exact hU
    · cases Fl.lt (lit 0) n
      · exact Or.inr hU
      · exact Or.inl hL

theorem add_ne_zero_of_neg {md : RMode} {a b : ℚ} (ha : (B).Rep a) (hb : (B).Rep b) (h0 : a + b < 0) :
    Fl.add md (fin a ha) (fin b hb) ≠ fin 0 rep_zero := by
  intro h
  change Fl.round md (a + b) = _ at h
  have ht : (B).Rep (2 ^ (-1074 : ℤ)) := rep_pow (by norm_num) (by norm_num)
  have hle : a + b ≤ -(2 : ℚ) ^ (-1074 : ℤ) := by
    obtain ⟨n, hn⟩ : OnGrid (-1074) (a + b) := (onGrid_of_repU ha.repU).add (onGrid_of_repU hb.repU)
    rw [hn] at h0 ⊢
    have hp := two_zpow_pos (-1074)
    have : (n : ℚ) < 0 := by
      by_contra hc
      exact absurd h0 (not_lt.2 (mul_nonneg (not_lt.1 hc) hp.le))
    have : (n : ℚ) ≤ -1 := by exact_mod_cast (show n ≤ -1 by have : n < 0 := (by exact_mod_cast this); omega)
    nlinarith
  have h1 := roundQ_le_of_le (F := B) md ht.repU.neg hle
  have h2 : (B).roundQ md (a + b) = 0 := by
    unfold Fl.round pack at h
    split_ifs at h with h3
    · injection h
    · exfalso
      generalize decide (0 < (B).roundQ md (a + b)) = c at h
      cases md <;> cases c <;> simp [overflow, maxF, Fl.neg] at h <;> linarith [maxQ_pos (F := B)]
  rw [h2] at h1
  linarith [two_zpow_pos (-1074)]

theorem bd_div_neg (s : Bool) {n : Dbl} {e : ℝ} {a b : ℚ} (ha : (B).Rep a) (hb : (B).Rep b) (h0 : a + b < 0)
    (hn : Bd (!s) n e) :
    Bd s (Fl.div (dir s) n (if Fl.lt (lit 0) n then Fl.add (dir !s) (fin a ha) (fin b hb)
      else Fl.add (dir s) (fin a ha) (fin b hb))) (e / ((a : ℝ) + b)) := by
  have h0' : 0 < -a + -b := by linarith
  have hY : (0 : ℝ) < ((-a : ℚ) : ℝ) + ((-b : ℚ) : ℝ) := by exact_mod_cast h0'
  have hU : UB (Fl.neg (Fl.add .down (fin a ha) (fin b hb))) (((-a : ℚ) : ℝ) + ((-b : ℚ) : ℝ)) := by
    rw [neg_add_dn]; exact ub_of_add_up ha.neg hb.neg
  have hL : PLB (Fl.neg (Fl.add .up (fin a ha) (fin b hb))) (((-a : ℚ) : ℝ) + ((-b : ℚ) : ℝ)) := by
    have := plb_of_add_down ha.neg hb.neg h0'
    have e : Fl.neg (Fl.add .up (fin a ha) (fin b hb)) = Fl.add .down (fin (-a) ha.neg) (fin (-b) hb.neg) := by
      rw [← neg_add_up]
      show _ = Fl.neg (Fl.add .up (fin (- -a) _) (fin (- -b) _))
      rw [fin_congr _ ha (_root_.neg_neg a), fin_congr _ hb (_root_.neg_neg b)]
    rw [e]; exact this
  have excl : Fl.lt n (lit 0) = true → Fl.lt (lit 0) n = false := by
    rw [lit0]; cases n <;> simp [Fl.lt]; exact fun h => h.le
  have nz : ∀ md, Fl.add md (fin a ha) (fin b hb) ≠ fin 0 rep_zero := fun md => add_ne_zero_of_neg ha hb h0
  have nz' : (if Fl.lt (lit 0) n then Fl.add (dir !s) (fin a ha) (fin b hb)
      else Fl.add (dir s) (fin a ha) (fin b hb)) ≠ fin 0 rep_zero := by
    split_ifs <;> exact nz _
  have eq1 : e / ((a : ℝ) + b) = -e / (((-a : ℚ) : ℝ) + ((-b : ℚ) : ℝ)) := by
    push_cast; rw [← neg_add, neg_div_neg_eq]
  cases s
  · show UB (Fl.neg (Fl.div .down _ _)) _
    rw [neg_div_dn, ← div_neg_neg' _ _ _ nz', Fl.neg_neg, eq1, neg_div, _root_.neg_neg]
    refine ub_div hY hn ?_ ?_ ?_
    · intro h
      rw [h]; exact hL
    · intro h
      rw [excl h]; exact hU
    · cases Fl.lt (lit 0) n
      · exact Or.inr hU
      · exact Or.inl hL
  · show UB (Fl.div .up _ _) _
    rw [← div_neg_neg' _ _ _ nz', eq1]
    refine ub_div hY hn ?_ ?_ ?_
    · intro h
      rw [lt_zero_neg] at h
      rw [excl h]; exact hL
    · intro h
      rw [neg_lt_zero'] at h
      rw [h]; exact hU
    · cases Fl.lt (lit 0) n
      · exact Or.inl hL
      · exact Or.inr hU

/-! ## division -/

/-- the second component in a division in direction `s`, with the numerator in direction `m` -/
def divCore (s m fma : Bool) (z x1 x2 y1 y2 : Dbl) : Dbl :=
  let p := twoproductR (dir m) fma (Fl.neg z) y1
  if isInf p.1 then
    let p := twoproductR (dir m) fma (Fl.neg z) (ti y1 (lit (1 / 2)))
    let v7 := Fl.mul (dir m) y1 (lit (1 / 2))
    let v8 := Fl.mul (dir m) y2 (lit (1 / 2))
    let v2 := divNum (dir m) z p.1 p.2 (Fl.mul (dir m) x1 (lit (1 / 2))) (Fl.mul (dir m) x2 (lit (1 / 2))) v8
    Fl.div (dir s) v2 (if Fl.lt (lit 0) v2 then Fl.add (dir !s) v7 v8 else Fl.add (dir s) v7 v8)
  else
    let v2 := divNum (dir m) z p.1 p.2 x1 x2 y2
    Fl.div (dir s) v2 (if Fl.lt (lit 0) v2 then Fl.add (dir !s) y1 y2 else Fl.add (dir s) y1 y2)

/-- division in direction `s` -/
def divR (s fma : Bool) (x y : DD) : DD := match s with | true => divUp fma x y | false => divDown fma x y

theorem divR_eq (s fma : Bool) {x1 x2 y1 y2 : ℚ} (hx1 : (B).Rep x1) (hx2 : (B).Rep x2) (hy1 : (B).Rep y1)
    (hy2 : (B).Rep y2) : divR s fma ⟨fin x1 hx1, fin x2 hx2⟩ ⟨fin y1 hy1, fin y2 hy2⟩ =
    (if Fl.eq (dv (fin x1 hx1) (fin y1 hy1)) (infS s) then ⟨dv (fin x1 hx1) (fin y1 hy1), lit 0⟩
    else
      let z := if Fl.eq (dv (fin x1 hx1) (fin y1 hy1)) (infS !s) then (maxS !s).a1
        else dv (fin x1 hx1) (fin y1 hy1)
      finishR s z (divCore s (if Fl.le (lit 0) (fin y1 hy1) then s else !s) fma z (fin x1 hx1) (fin x2 hx2)
        (fin y1 hy1) (fin y2 hy2))) := by
  cases s <;> cases h : Fl.le (lit 0) (fin y1 hy1) <;>
    simp only [divR, divUp, divDown, isInf_fin, Bool.or_self, Bool.false_eq_true, if_false, h, if_true] <;> rfl

theorem divNum_bd (m : Bool) {z z3 x1 x2 y2 : ℚ} (hz : (B).Rep z) (hz3 : (B).Rep z3) (hy2 : (B).Rep y2)
    {z4 a1 a2 : Dbl} {r : ℝ} (h4 : Bd m z4 r) (h1 : Bd m a1 x1) (h2 : Bd m a2 x2) :
    Bd m (divNum (dir m) (fin z hz) (fin z3 hz3) z4 a1 a2 (fin y2 hy2))
      ((z3 : ℝ) + x1 + (-z) * y2 + x2 + r) := by
  unfold divNum
  have := bd_mul m hz.neg hy2
  push_cast at this
  exact bd_add (bd_add (bd_add (bd_add (bd_exact m hz3) h1) this) h2) h4

/-- a halved operand is exact if it is large -/
theorem rep_half_large {t : ℚ} (ht : (B).Rep t) (h : 1 ≤ |t|) : (B).Rep (t * (1 / 2)) :=
  rep_half_of ht (onGrid_of_large (j := 0) p64 ht.repU (by simpa using h)) (by norm_num)

theorem divCore_bd (s fma : Bool) {z x1 x2 y1 y2 : ℚ} (hz : (B).Rep z) (hx1 : (B).Rep x1) (hx2 : (B).Rep x2)
    (hy1 : (B).Rep y1) (hy2 : (B).Rep y2) (hlt : |y2| < |y1|) (hzy : |z * y1| ≤ 2 * |x1|)
    (hh : (B).Rep (y2 * (1 / 2)) ∨ |x1| ≤ 2 ^ (1022 : ℤ)) :
    Bd s (divCore s (if Fl.le (lit 0) (fin y1 hy1) then s else !s) fma (fin z hz) (fin x1 hx1) (fin x2 hx2)
        (fin y1 hy1) (fin y2 hy2)) (((x1 : ℝ) + x2) / (y1 + y2) - z) := by
  have hy0 : y1 ≠ 0 := by
    rintro rfl; rw [abs_zero] at hlt; exact absurd hlt (not_lt.2 (abs_nonneg _))
  have hle : Fl.le (lit 0) (fin y1 hy1) = decide (0 ≤ y1) := by rw [lit0]; rfl
  rw [hle]
  set m := (if decide (0 ≤ y1) = true then s else !s) with hm
  -- the sign of the divisor
  have key : ∀ {n : Dbl} {e : ℝ} {a b : ℚ} (ha : (B).Rep a) (hb : (B).Rep b), (∃ c : ℚ, 0 < c ∧ a = y1 * c ∧ b = y2 * c) →
      Bd m n e → Bd s (Fl.div (dir s) n (if Fl.lt (lit 0) n then Fl.add (dir !s) (fin a ha) (fin b hb)
      else Fl.add (dir s) (fin a ha) (fin b hb))) (e / ((a : ℝ) + b)) := by
    rintro n e a b ha hb ⟨c, hc, rfl, rfl⟩ hn
    rcases lt_or_gt_of_ne hy0 with h | h
    · have h' : ¬ 0 ≤ y1 := not_le.2 h
      rw [hm, if_neg (by simpa using h)] at hn
      refine bd_div_neg s ha hb ?_ hn
      rw [abs_of_neg h] at hlt
      have := (abs_lt.1 hlt).2
      rw [← add_mul]
      exact mul_neg_of_neg_of_pos (by linarith) hc
    · rw [hm, if_pos (by simpa using h.le)] at hn
      refine bd_div_pos s ha hb ?_ hn
      rw [abs_of_pos h] at hlt
      have := (abs_lt.1 hlt).1
      rw [← add_mul]
      exact mul_pos (by linarith) hc
  have hY : (y1 : ℝ) + y2 ≠ 0 := by
    intro h
    have h' : y1 + y2 = 0 := by exact_mod_cast h
    have : y2 = -y1 := by linarith
    rw [this, abs_neg] at hlt
    exact lt_irrefl _ hlt
  unfold divCore
  simp only [twoproductR_fst]
  have etp : ti (Fl.neg (fin z hz)) (fin y1 hy1) = Fl.round .near (-z * y1) := rfl
  by_cases hf : |(B).roundQ .near (-z * y1)| ≤ (B).maxQ
  · have er := round_fin_of_le hf
    rw [etp, er, isInf_fin]
    simp only [Bool.false_eq_true, if_false]
    have hb := twoproductR_bd m fma hz.neg hy1 _ er
    have hN := divNum_bd m hz (rep_of_repU (roundQ_repU _ _) hf) hy2 hb (bd_exact m hx1) (bd_exact m hx2)
    refine (key hy1 hy2 ⟨1, one_pos, by ring, by ring⟩ hN).congr ?_
    push_cast
    field_simp
    ring
  · have hinf : isInf (Fl.round .near (-z * y1) : Dbl) = true := by
      unfold Fl.round pack
      rw [dif_neg hf]
      cases hd : decide (0 < (B).roundQ .near (-z * y1)) <;> simp [overflow, isInf, Fl.abs, Fl.eq]
    rw [etp, hinf]
    simp only [if_true]
    have hov := ovf hf
    rw [neg_mul, abs_neg] at hov
    have hx1m := hx1.abs_le
    have p970 := two_zpow_pos 970
    have hy1' : 1 ≤ |y1| := by
      by_contra hc
      have h1 : |z * y1| ≤ |z| := by
        rw [abs_mul]; exact mul_le_of_le_one_right (abs_nonneg _) (not_le.1 hc).le
      have := hz.abs_le
      linarith
    have hyh := rep_half_large hy1 hy1'
    have hy2h : (B).Rep (y2 * (1 / 2)) := by
      rcases hh with h | h
      · exact h
      · exfalso
        have e : (2 : ℚ) ^ (1023 : ℤ) = 2 * 2 ^ (1022 : ℤ) := by
          rw [show (1023 : ℤ) = 1 + 1022 by norm_num, zpow_add₀ (by norm_num)]; norm_num
        have := pow_le_maxQ64
        linarith
    rw [lit_eq Format.rep_half, ti_exact hy1 Format.rep_half hyh rfl, mul_exact _ hy1 _ hyh rfl,
      mul_exact _ hy2 _ hy2h rfl]
    have etp2 : ti (Fl.neg (fin z hz)) (fin (y1 * (1 / 2)) hyh) = Fl.round .near (-z * (y1 * (1 / 2))) := rfl
    have hf2 : |(B).roundQ .near (-z * (y1 * (1 / 2)))| ≤ (B).maxQ := by
      refine abs_near_le maxQ_rep.repU ?_
      rw [show -z * (y1 * (1 / 2)) = -(z * y1) * (1 / 2) by ring, abs_mul, abs_neg,
        abs_of_pos (by norm_num : (0 : ℚ) < 1 / 2)]
      linarith
    have er := round_fin_of_le hf2
    rw [etp2, er]
    have hb := twoproductR_bd m fma hz.neg hyh _ er
    have b1 := bd_mul m hx1 Format.rep_half
    have b2 := bd_mul m hx2 Format.rep_half
    rw [← Rat.cast_mul] at b1 b2
    have hN := divNum_bd m hz (rep_of_repU (roundQ_repU _ _) hf2) hy2h hb b1 b2
    refine (key hyh hy2h ⟨1 / 2, by norm_num, by ring, by ring⟩ hN).congr ?_
    push_cast
    have hY' : (y1 : ℝ) * (1 / 2) + y2 * (1 / 2) ≠ 0 := by
      rw [← add_mul]; exact mul_ne_zero hY (by norm_num)
    field_simp
    ring

theorem divR_bd (s fma : Bool) {x1 x2 y1 y2 : ℚ} (hx1 : (B).Rep x1) (hx2 : (B).Rep x2) (hy1 : (B).Rep y1)
    (hy2 : (B).Rep y2) (hlt : |y2| < |y1|) (hh : (B).Rep (y2 * (1 / 2)) ∨ |x1| ≤ 2 ^ (1022 : ℤ)) :
    DBd s (divR s fma ⟨fin x1 hx1, fin x2 hx2⟩ ⟨fin y1 hy1, fin y2 hy2⟩) (((x1 : ℝ) + x2) / (y1 + y2)) := by
  have hy0 : y1 ≠ 0 := by
    rintro rfl; rw [abs_zero] at hlt; exact absurd hlt (not_lt.2 (abs_nonneg _))
  have edv : dv (fin x1 hx1) (fin y1 hy1) = Fl.round .near (x1 / y1) := div_fin _ _ _ hy0
  rw [divR_eq, edv]
  have fin_case : ∀ {z : ℚ} (hz : (B).Rep z), |z * y1| ≤ 2 * |x1| →
      DBd s (finishR s (fin z hz) (divCore s (if Fl.le (lit 0) (fin y1 hy1) then s else !s) fma (fin z hz)
        (fin x1 hx1) (fin x2 hx2) (fin y1 hy1) (fin y2 hy2))) (((x1 : ℝ) + x2) / (y1 + y2)) := by
    intro z hz hzy
    exact (finish_bd s hz (divCore_bd s fma hz hx1 hx2 hy1 hy2 hlt hzy hh)).congr (by ring)
  have big : ∀ {z : ℚ}, |z| = (B).maxQ → (B).maxQ ≤ |x1 / y1| → |z * y1| ≤ 2 * |x1| := by
    intro z hz h
    rw [abs_div, le_div_iff₀ (abs_pos.2 hy0)] at h
    rw [abs_mul, hz]
    linarith [abs_nonneg x1]
  rcases near_cases (x1 / y1) with ⟨h, e1⟩ | ⟨e1, h⟩ | ⟨e1, h⟩
  · rw [e1, if_neg (by cases s <;> simp [Fl.eq, infS]), if_neg (by cases s <;> simp [Fl.eq, infS])]
    refine fin_case h ?_
    have h1 := RepU.near_le (F := B) (q := x1 / y1) rep_zero.repU
    rw [zero_sub, abs_neg] at h1
    have h2 : |(B).roundQ .near (x1 / y1)| ≤ 2 * |x1 / y1| := by
      have := abs_add_le ((B).roundQ .near (x1 / y1) - x1 / y1) (x1 / y1)
      rw [sub_add_cancel] at this
      linarith
    rw [abs_mul]
    calc |(B).roundQ .near (x1 / y1)| * |y1| ≤ 2 * |x1 / y1| * |y1| :=
          mul_le_mul_of_nonneg_right h2 (abs_nonneg _)
      _ = 2 * |x1| := by
          rw [abs_div, mul_assoc, div_mul_cancel₀ _ (abs_pos.2 hy0).ne']
  · rw [e1]
    cases s
    · rw [if_neg (by simp [Fl.eq, infS]), if_pos (by simp [Fl.eq, infS])]
      simp only [maxS, Bool.not_false, maxD_eq]
      refine fin_case maxQ_rep (big (abs_of_pos maxQ_pos) ?_)
      exact (le_trans (by linarith [max2_nonneg]) h).trans (le_abs_self _)
    · exact DUB.inf _
  · rw [e1]
    cases s
    · rw [if_pos (by simp [Fl.eq, infS])]
      show DUB ⟨pinf, Fl.neg (lit 0)⟩ _
      rw [neg_lit0]; exact .inf _
    · rw [if_neg (by simp [Fl.eq, infS]), if_pos (by simp [Fl.eq, infS])]
      simp only [maxS, Bool.not_true, maxD_eq]
      refine fin_case maxQ_rep.neg (big (by rw [abs_neg, abs_of_pos maxQ_pos]) ?_)
      refine le_trans ?_ (neg_le_abs _)
      linarith [max2_nonneg]

/-- the components of a nonzero normalised number -/
theorem norm_lt {a b : ℚ} (ha : (B).Rep a) (hb : (B).Rep b) (n : a = (B).roundQ .near (a + b)) (h0 : a ≠ 0) :
    |b| < |a| := by
  have h1 := RepU.near_le (F := B) (q := a + b) hb.repU
  rw [← n, show a - (a + b) = -b by ring, show b - (a + b) = -a by ring, abs_neg, abs_neg] at h1
  refine lt_of_le_of_ne h1 fun h => ?_
  rcases abs_eq_abs.1 h with h | h
  · rw [h, ← _root_.two_mul, (RepU.two_mul ha.repU).roundQ_eq] at n
    exact h0 (by linarith)
  · rw [h, add_neg_cancel, rep_zero.repU.roundQ_eq] at n
    exact h0 n

end DD
end Kv
