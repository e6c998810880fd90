import Verif.Solver.Allsol
import Verif.Solver.AllsolLemmas

/-! # `recovery_inflation` of allsol.hpp: the inflated interval contains the shrunk one and stays inside the original one -/

namespace Kv
open RopSem Kv.Interval
open Rop (lit)
open LA

namespace Allsol
variable {F : Format}

theorem rnd_fin (md : RMode) {q : ℚ} (h : |q| ≤ F.maxQ) : ∃ hm, (Fl.round md q : Fl F) = Fl.fin (F.roundQ md q) hm := by
  have h' := abs_le.1 h
  have l := Format.le_roundQ_of_le md Format.maxQ_rep.neg.repU h'.1
  have u := Format.roundQ_le_of_le md (Format.maxQ_rep (F := F)).repU h'.2
  have habs : |F.roundQ md q| ≤ F.maxQ := abs_le.2 ⟨l, u⟩
  refine ⟨Format.rep_of_repU (Format.roundQ_repU _ _) habs, ?_⟩
  unfold Fl.round Fl.pack
  rw [dif_pos habs]

/-- the inflation by `e` on the left of `t` sticks out: what is moved to the right stays inside -/
theorem left_room {Jl Ju t e : ℚ} (hl : F.RepU Jl) (hu : F.RepU Ju) (ht : F.RepU t) (he2 : F.RepU (2 * e)) (h1 : Jl ≤ t) (h0 : 0 ≤ e)
    (h5 : 5 * e ≤ Ju - Jl) (hlt : F.roundQ .near (t - e) < Jl) :
    F.roundQ .near (F.roundQ .near (t + e) + F.roundQ .near (Jl - F.roundQ .near (t - e))) ≤ Ju ∧
    Jl - F.roundQ .near (t - e) ≤ 2 * e ∧ F.roundQ .near (t + e) + F.roundQ .near (Jl - F.roundQ .near (t - e)) ≤ Ju := by
  have a1 := abs_le.1 (Format.RepU.near_le (F := F) (q := t - e) ht)
  have a2 := abs_le.1 (Format.RepU.near_le (F := F) (q := t + e) ht)
  rw [show t - (t - e) = e by ring, abs_of_nonneg h0] at a1
  rw [show t - (t + e) = -e by ring, abs_neg, abs_of_nonneg h0] at a2
  have b : t - e < Jl := by
    by_contra hc
    exact absurd (Format.le_roundQ_of_le .near hl (not_lt.1 hc)) (not_le.2 hlt)
  have c := Format.roundQ_le_of_le .near he2 (q := Jl - F.roundQ .near (t - e)) (by linarith)
  have d : F.roundQ .near (t + e) + F.roundQ .near (Jl - F.roundQ .near (t - e)) ≤ Ju := by linarith
  exact ⟨Format.roundQ_le_of_le .near hu d, by linarith, d⟩

theorem right_room {Jl Ju t e : ℚ} (hl : F.RepU Jl) (hu : F.RepU Ju) (ht : F.RepU t) (he2 : F.RepU (2 * e)) (h1 : t ≤ Ju) (h0 : 0 ≤ e)
    (h5 : 5 * e ≤ Ju - Jl) (hlt : Ju < F.roundQ .near (t + e)) :
    Jl ≤ F.roundQ .near (F.roundQ .near (t - e) - F.roundQ .near (F.roundQ .near (t + e) - Ju)) ∧
    F.roundQ .near (t + e) - Ju ≤ 2 * e ∧ Jl ≤ F.roundQ .near (t - e) - F.roundQ .near (F.roundQ .near (t + e) - Ju) := by
  have := left_room (F := F) (Jl := -Ju) (Ju := -Jl) (t := -t) (e := e) hu.neg hl.neg ht.neg he2 (by linarith) h0 (by linarith)
    (by rw [show -t - e = -(t + e) by ring, Format.roundQ_neg_near]; linarith)
  rw [show -t - e = -(t + e) by ring, Format.roundQ_neg_near, show -t + e = -(t - e) by ring, Format.roundQ_neg_near,
    show -Ju - -F.roundQ .near (t + e) = F.roundQ .near (t + e) - Ju by ring,
    show -F.roundQ .near (t - e) + F.roundQ .near (F.roundQ .near (t + e) - Ju) = -(F.roundQ .near (t - e) - F.roundQ .near (F.roundQ .near (t + e) - Ju)) by ring,
    Format.roundQ_neg_near] at this
  exact ⟨by linarith [this.1], by linarith [this.2.1], by linarith [this.2.2]⟩

local notation "B" => binary64

theorem b64 : (B).emin = -1074 ∧ (B).emax = 971 ∧ (B).p = 53 := ⟨rfl, rfl, rfl⟩

theorem pow_repU {k : ℤ} (h : -1074 ≤ k) : (B).RepU (2 ^ k) := ⟨1, k, by norm_num [b64.2.2], h, by simp⟩

/-- a representable number below the smallest positive one is not positive -/
theorem repU_small {q : ℚ} (h : (B).RepU q) (hq : q < 2 ^ (-1074 : ℤ)) : q ≤ 0 := by
  obtain ⟨m, e, -, he, rfl⟩ := h
  by_contra hc
  have hp := Format.two_zpow_pos e
  have hm : 0 < (m : ℚ) := by
    by_contra h0
    exact hc (mul_nonpos_of_nonpos_of_nonneg (not_lt.1 h0) hp.le)
  have hm1 : (1 : ℚ) ≤ m := by
    have : 0 < m := by exact_mod_cast hm
    exact_mod_cast this
  have : (2 : ℚ) ^ (-1074 : ℤ) ≤ 2 ^ e := zpow_le_zpow_right₀ (by norm_num) he
  nlinarith

/-- the literal 0.1 -/
theorem tenth_bounds : 0 ≤ (B).roundQ .near (1 / 10) ∧ (B).roundQ .near (1 / 10) ≤ 13 / 128 := by
  constructor
  · exact Format.le_roundQ_of_le .near Format.rep_zero.repU (by norm_num)
  · refine Format.roundQ_le_of_le .near ⟨13, -7, by norm_num [b64.2.2], by norm_num [b64.1], by norm_num⟩ (by norm_num)

/-- the amount of inflation is at most a fifth of the width -/
theorem amount {W : ℚ} (h0 : 0 ≤ W) :
    0 ≤ (B).roundQ .near ((B).roundQ .up ((B).roundQ .up W * (1 / 2)) * (B).roundQ .near (1 / 10)) ∧
    5 * (B).roundQ .near ((B).roundQ .up ((B).roundQ .up W * (1 / 2)) * (B).roundQ .near (1 / 10)) ≤ W := by
  set c := (B).roundQ .near (1 / 10) with hc
  obtain ⟨c0, c1⟩ := tenth_bounds
  rw [← hc] at c0 c1
  have z := (Format.rep_zero (F := B)).repU
  have r1 : 0 ≤ (B).roundQ .up W := Format.le_roundQ_of_le _ z h0
  have r2 : 0 ≤ (B).roundQ .up ((B).roundQ .up W * (1 / 2)) := Format.le_roundQ_of_le _ z (by positivity)
  have r3 : 0 ≤ (B).roundQ .near ((B).roundQ .up ((B).roundQ .up W * (1 / 2)) * c) := Format.le_roundQ_of_le _ z (by positivity)
  refine ⟨r3, ?_⟩
  rcases h0.eq_or_lt with h | h
  · have e1 : (B).roundQ .up W = 0 := by rw [← h]; exact z.roundQ_eq .up
    have e2 : (B).roundQ .up ((B).roundQ .up W * (1 / 2)) = 0 := by rw [e1, zero_mul]; exact z.roundQ_eq .up
    rw [e2, zero_mul, z.roundQ_eq .near, ← h]; norm_num
  obtain ⟨k, hk1, hk2⟩ := exists_mem_Ioc_zpow h (by norm_num : (1 : ℚ) < 2)
  have p1 : (2 : ℚ) ^ (k + 1) = 2 * 2 ^ k := by rw [zpow_add_one₀ (by norm_num)]; ring
  have pk := Format.two_zpow_pos k
  rcases le_or_gt (-1071) k with hk | hk
  · have s1 : (B).roundQ .up W ≤ 2 ^ (k + 1) := Format.roundQ_le_of_le _ (pow_repU (by omega)) hk2
    have s2 : (B).roundQ .up ((B).roundQ .up W * (1 / 2)) ≤ 2 ^ k := Format.roundQ_le_of_le _ (pow_repU (by omega)) (by rw [p1] at s1; linarith)
    have p3 : (2 : ℚ) ^ (k - 3) = 2 ^ k / 8 := by rw [zpow_sub₀ (by norm_num)]; norm_num
    have s3 : (B).roundQ .near ((B).roundQ .up ((B).roundQ .up W * (1 / 2)) * c) ≤ 2 ^ (k - 3) :=
      Format.roundQ_le_of_le _ (pow_repU (by omega)) (by rw [p3]; nlinarith)
    rw [p3] at s3
    linarith
  · have w1 : W ≤ 2 ^ (-1071 : ℤ) := hk2.trans (zpow_le_zpow_right₀ (by norm_num) (by omega))
    have p2 : (2 : ℚ) ^ (-1071 : ℤ) = 2 * 2 ^ (-1072 : ℤ) := by rw [show (-1071 : ℤ) = -1072 + 1 by norm_num, zpow_add_one₀ (by norm_num)]; ring
    have p3 : (2 : ℚ) ^ (-1072 : ℤ) = 4 * 2 ^ (-1074 : ℤ) := by
      rw [show (-1072 : ℤ) = -1074 + 2 by norm_num, zpow_add₀ (by norm_num), show (2 : ℚ) ^ (2 : ℤ) = 4 by norm_num]; ring
    have s1 : (B).roundQ .up W ≤ 2 ^ (-1071 : ℤ) := Format.roundQ_le_of_le _ (pow_repU (by omega)) w1
    have s2 : (B).roundQ .up ((B).roundQ .up W * (1 / 2)) ≤ 2 ^ (-1072 : ℤ) := Format.roundQ_le_of_le _ (pow_repU (by omega)) (by rw [p2] at s1; linarith)
    have pp := Format.two_zpow_pos (-1074)
    set x := (B).roundQ .up ((B).roundQ .up W * (1 / 2)) * c with hx
    have hx0 : 0 ≤ x := by positivity
    have hx1 : x ≤ 4 * 2 ^ (-1074 : ℤ) * (13 / 128) := by rw [p3] at s2; exact mul_le_mul s2 c1 c0 (by positivity)
    have n := (abs_le.1 (Format.RepU.near_le (F := B) (q := x) z)).2
    rw [zero_sub, abs_neg, abs_of_nonneg hx0] at n
    have := repU_small (Format.roundQ_repU (F := B) .near x) (by linarith)
    linarith

/-- bounds and width of moderate size: the inflation does not overflow -/
def Moderate (J : Interval D) : Prop := |dbl J.inf| ≤ 2 ^ 1023 ∧ |dbl J.sup| ≤ 2 ^ 1023 ∧ dbl J.sup - dbl J.inf ≤ 2 ^ 1023

theorem hull_mem {I Y : Interval D} {x : ℝ} (h : x ∈ I) : x ∈ hull I Y := by
  refine ⟨?_, ?_⟩
  · show Lo (if Rop.lt Y.inf I.inf then Y.inf else I.inf) x
    split_ifs with c
    · rw [lt_iff] at c; exact ⟨c.1, c.2.2.le.trans h.1.2⟩
    · exact h.1
  · show Hi (if Rop.lt I.sup Y.sup then Y.sup else I.sup) x
    split_ifs with c
    · rw [lt_iff] at c; exact ⟨c.2.1, h.2.2.trans c.2.2.le⟩
    · exact h.2

theorem hull_room {I Y : Interval D} (hI : Bd I) (hY : Bd Y) {p q : ℝ} (h1 : p ≤ dbl I.inf) (h2 : p ≤ dbl Y.inf) (h3 : dbl I.sup ≤ q) (h4 : dbl Y.sup ≤ q) :
    Bd (hull I Y) ∧ p ≤ dbl (hull I Y).inf ∧ dbl (hull I Y).sup ≤ q := by
  unfold hull
  refine ⟨⟨?_, ?_⟩, ?_, ?_⟩ <;> dsimp only
  · split_ifs; exacts [hY.1, hI.1]
  · split_ifs; exacts [hY.2, hI.2]
  · split_ifs; exacts [h2, h1]
  · split_ifs; exacts [h4, h3]

theorem dbl_fin {q : ℚ} (h : (B).Rep q) : dbl (Hw.fin q h : D) = q := is_dbl ⟨Hw.not_nan_fin q h, Hw.val_fin q h⟩

/-- the bound of `Moderate` -/
def big : ℚ := 2 ^ 1023

theorem big_pos : 1 ≤ big := one_le_pow₀ (by norm_num)

theorem big_repU : (B).RepU big := by
  have := pow_repU (k := 1023) (by norm_num)
  rwa [show (1023 : ℤ) = ((1023 : ℕ) : ℤ) by rfl, zpow_natCast] at this

theorem maxQ_large : big + 2 * (big / 5) ≤ (B).maxQ := by
  have h : (B).maxQ = (2 ^ 53 - 1) * 2 ^ (971 : ℤ) := rfl
  have h2 : big = 2 ^ 52 * 2 ^ (971 : ℤ) := by
    unfold big
    rw [show (971 : ℤ) = ((971 : ℕ) : ℤ) by rfl, zpow_natCast, ← pow_add]
  rw [h, h2]
  have := Format.two_zpow_pos 971
  generalize (2 : ℚ) ^ (971 : ℤ) = p at this ⊢
  nlinarith

theorem finD_fin' {a : D} (h : FinD a) : ∃ (q : ℚ) (hq : (B).Rep q), a = (Hw.fin q hq : D) := finD_iff.1 h

theorem two_repU {e : ℚ} (h : (B).RepU e) : (B).RepU (2 * e) := by
  obtain ⟨m, k, hm, hk, rfl⟩ := h
  exact ⟨m, k + 1, hm, by omega, by rw [zpow_add_one₀ (by norm_num)]; ring⟩

theorem sub_fin {a b : ℚ} (ha : (B).Rep a) (hb : (B).Rep b) (h : |a - b| ≤ (B).maxQ) :
    ∃ hm, Rop.sub (Hw.fin a ha : D) (Hw.fin b hb) = Hw.fin ((B).roundQ .near (a - b)) hm := by
  rw [sub_eq_add_neg] at h ⊢
  exact rnd_fin (F := B) .near h

theorem add_fin {a b : ℚ} (ha : (B).Rep a) (hb : (B).Rep b) (h : |a + b| ≤ (B).maxQ) :
    ∃ hm, Rop.add (Hw.fin a ha : D) (Hw.fin b hb) = Hw.fin ((B).roundQ .near (a + b)) hm := rnd_fin (F := B) .near h

theorem rad_fin {a b : ℚ} (ha : (B).Rep a) (hb : (B).Rep b) (h : |b - a| ≤ big) :
    ∃ hm, rad (⟨Hw.fin a ha, Hw.fin b hb⟩ : Interval D) = Hw.fin ((B).roundQ .up ((B).roundQ .up (b - a) * (1 / 2))) hm := by
  have hp := big_repU
  have hm := maxQ_large
  have h2 := big_pos
  obtain ⟨r1, e1⟩ := rnd_fin (F := B) .up (q := b - a) (h.trans (by linarith))
  have b1 := abs_le.1 h
  have b2 : |(B).roundQ .up (b - a)| ≤ big := abs_le.2 ⟨Format.le_roundQ_of_le _ hp.neg b1.1, Format.roundQ_le_of_le _ hp b1.2⟩
  have b3 := abs_le.1 b2
  obtain ⟨r2, e2⟩ := rnd_fin (F := B) .up (q := (B).roundQ .up (b - a) * (1 / 2)) (abs_le.2 ⟨by linarith, by linarith⟩)
  refine ⟨r2, ?_⟩
  have e0 : (lit (1 / 2) : D) = Hw.fin (1 / 2) Format.rep_half := Fl.round_of_rep .near _
  unfold rad
  rw [e0]
  show Fl.mul .up (Fl.round .up (b + -a) : Fl B) (Fl.fin (1 / 2) Format.rep_half) = _
  rw [← sub_eq_add_neg, e1]
  exact e2

theorem ratio_fin : ∃ hm, ratio = Hw.fin ((B).roundQ .near (1 / 10)) hm := by
  obtain ⟨hm, e⟩ := rnd_fin (F := B) .near (q := 1 / 10) (by
    have := maxQ_large
    have := big_pos
    rw [abs_of_pos (by norm_num)]; linarith)
  exact ⟨hm, e⟩

/-- the inflated interval stays inside `J` -/
theorem recover1_room {I J : Interval D} (hI : Bd I) (nI : I.Nonempty) (hJ : Bd J) (hm : Moderate J) (h1 : dbl J.inf ≤ dbl I.inf) (h2 : dbl I.sup ≤ dbl J.sup) :
    Bd (recover1 I J) ∧ dbl J.inf ≤ dbl (recover1 I J).inf ∧ dbl (recover1 I J).sup ≤ dbl J.sup := by
  unfold recover1
  split_ifs with c
  swap
  · exact ⟨hI, h1, h2⟩
  obtain ⟨t, ht, et⟩ := finD_fin' (mid_bd hI nI).1
  have tm := (mem_of_bd hI).1 (mid_bd hI nI).2
  obtain ⟨jl, rl, el⟩ := finD_fin' hJ.1
  obtain ⟨ju, ru, eu⟩ := finD_fin' hJ.2
  rw [et, dbl_fin] at tm
  obtain ⟨m1, m2, m3⟩ := hm
  have eJ : J = ⟨Hw.fin jl rl, Hw.fin ju ru⟩ := by cases J; simp only at el eu; rw [el, eu]
  rw [el, dbl_fin] at h1 m1 m3
  rw [eu, dbl_fin] at h2 m2 m3
  have t1 : jl ≤ t := by have := h1.trans tm.1; exact_mod_cast this
  have t2 : t ≤ ju := by have := tm.2.trans h2; exact_mod_cast this
  have m1 : |jl| ≤ big := by unfold big; exact_mod_cast m1
  have m2 : |ju| ≤ big := by unfold big; exact_mod_cast m2
  have m3 : ju - jl ≤ big := by unfold big; exact_mod_cast m3
  obtain ⟨rr, er⟩ := rad_fin rl ru (abs_le.2 ⟨by have := big_pos
                                                 linarith, m3⟩)
  obtain ⟨rc, ec⟩ := ratio_fin
  obtain ⟨e0, e5⟩ := amount (W := ju - jl) (by linarith)
  set e := (B).roundQ .near ((B).roundQ .up ((B).roundQ .up (ju - jl) * (1 / 2)) * (B).roundQ .near (1 / 10)) with he
  have hmax := maxQ_large
  have hpos := big_pos
  have m1' := abs_le.1 m1
  have m2' := abs_le.1 m2
  obtain ⟨re, ee⟩ : ∃ hm, Rop.mul (rad J) ratio = (Hw.fin e hm : D) := by
    rw [eJ, er, ec]
    have hq : (B).RepU e := Format.roundQ_repU _ _
    have habs : |e| ≤ (B).maxQ := abs_le.2 ⟨by linarith, by linarith⟩
    refine ⟨Format.rep_of_repU hq habs, ?_⟩
    show (Fl.round .near _ : Fl B) = _
    unfold Fl.round Fl.pack
    rw [dif_pos habs]; rfl
  have hte := (abs_le.1 (Format.RepU.near_le (F := B) (q := t - e) ht.repU))
  have hte2 := (abs_le.1 (Format.RepU.near_le (F := B) (q := t + e) ht.repU))
  rw [show t - (t - e) = e by ring, abs_of_nonneg e0] at hte
  rw [show t - (t + e) = -e by ring, abs_neg, abs_of_nonneg e0] at hte2
  obtain ⟨qa, ea⟩ := sub_fin ht re (abs_le.2 ⟨by linarith, by linarith⟩)
  obtain ⟨qb, eb⟩ := add_fin ht re (abs_le.2 ⟨by linarith, by linarith⟩)
  have h1' : (jl : ℝ) ≤ dbl I.inf := h1
  dsimp only
  rw [et, ee, ea, eb, el, eu]
  have c1 : Rop.lt (Hw.fin ((B).roundQ .near (t - e)) qa : D) (Hw.fin jl rl) = true ↔ (B).roundQ .near (t - e) < jl := by
    show Fl.lt (F := B) (Fl.fin _ qa) (Fl.fin jl rl) = true ↔ _
    simp [Fl.lt]
  have c2 : Rop.lt (Hw.fin ju ru : D) (Hw.fin ((B).roundQ .near (t + e)) qb) = true ↔ ju < (B).roundQ .near (t + e) := by
    show Fl.lt (F := B) (Fl.fin ju ru) (Fl.fin _ qb) = true ↔ _
    simp [Fl.lt]
  rw [dbl_fin, dbl_fin]
  by_cases d1 : (B).roundQ .near (t - e) < jl
  · rw [if_pos (c1.2 d1)]
    obtain ⟨s1, s2, s3⟩ := left_room rl.repU ru.repU ht.repU (two_repU re.repU) t1 e0 e5 d1
    obtain ⟨qd, ed⟩ := sub_fin rl qa (abs_le.2 ⟨by linarith, by linarith⟩)
    have d0 : 0 ≤ (B).roundQ .near (jl - (B).roundQ .near (t - e)) := Format.le_roundQ_of_le _ Format.rep_zero.repU (by linarith)
    obtain ⟨qf, ef⟩ := add_fin qb qd (abs_le.2 ⟨by linarith, by linarith⟩)
    rw [ed, ef]
    exact hull_room hI ⟨finD_fin, finD_fin⟩ h1 (by rw [dbl_fin]) h2 (by rw [dbl_fin]; exact_mod_cast s1)
  · rw [if_neg (fun h => d1 (c1.1 h))]
    by_cases d2 : ju < (B).roundQ .near (t + e)
    · rw [if_pos (c2.2 d2)]
      obtain ⟨s1, s2, s3⟩ := right_room rl.repU ru.repU ht.repU (two_repU re.repU) t2 e0 e5 d2
      obtain ⟨qd, ed⟩ := sub_fin qb ru (abs_le.2 ⟨by linarith, by linarith⟩)
      have d0 : 0 ≤ (B).roundQ .near ((B).roundQ .near (t + e) - ju) := Format.le_roundQ_of_le _ Format.rep_zero.repU (by linarith)
      obtain ⟨qf, ef⟩ := sub_fin qa qd (abs_le.2 ⟨by linarith, by linarith⟩)
      rw [ed, ef]
      exact hull_room hI ⟨finD_fin, finD_fin⟩ h1 (by rw [dbl_fin]; exact_mod_cast s1) h2 (by rw [dbl_fin])
    · rw [if_neg (fun h => d2 (c2.1 h))]
      exact hull_room hI ⟨finD_fin, finD_fin⟩ h1 (by rw [dbl_fin]; exact_mod_cast not_lt.1 d1) h2 (by rw [dbl_fin]; exact_mod_cast not_lt.1 d2)

theorem recover1_mem {I J : Interval D} {x : ℝ} (h : x ∈ I) : x ∈ recover1 I J := by
  unfold recover1
  dsimp only
  split_ifs
  · exact hull_mem h
  · exact hull_mem h
  · exact hull_mem h
  · exact h

end Allsol
end Kv
