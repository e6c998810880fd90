import Verif.Double.EmuLemmas

/-!
# Emulated rounding: helper lemmas on the directed operations
-/

set_option exponentiation.threshold 3000

namespace Kv
namespace Emu
open Fl Format

local notation "B" => binary64

/-! ## succ, pred -/

theorem succC_rep : (B).Rep (2 ^ (-53 : ℤ) + 2 ^ (-105 : ℤ)) := by
  have : (B).RepU (((2 ^ 52 + 1 : ℤ) : ℚ) * 2 ^ (-105 : ℤ)) :=
    repU_of_le (by rw [p64]; norm_num) (by rw [emin64]; norm_num)
  have e : (2 : ℚ) ^ (-53 : ℤ) + 2 ^ (-105 : ℤ) = ((2 ^ 52 + 1 : ℤ) : ℚ) * 2 ^ (-105 : ℤ) := by norm_num
  rw [← e] at this
  refine rep64 this ?_
  rw [abs_of_pos (by norm_num)]
  refine le_trans ?_ (pw_le (show (0 : ℤ) ≤ 1023 by norm_num))
  norm_num

theorem succC_eq : succC = fin (2 ^ (-53 : ℤ) + 2 ^ (-105 : ℤ)) succC_rep := by
  unfold succC
  rw [two_eq (by norm_num) (by norm_num), two_eq (by norm_num) (by norm_num)]
  exact pl_exact _ _ _ rfl

theorem round_eq_pack {F : Format} {md : RMode} {q s : ℚ} (hs : F.RepU s) (h : F.roundQ md q = s) :
    (Fl.round md q : Fl F) = pack md s hs := by
  unfold Fl.round; exact pack_congr _ _ _ h

theorem succ_fin {r : ℚ} (hr : (B).Rep r) :
    ∃ (s : ℚ) (hn : IsNext B r s), succ (fin r hr) = pack .near s hn.rep := by
  unfold succ
  simp only
  rw [abs_fin hr (rep_abs hr), two_eq (by norm_num) (by norm_num), two_eq (by norm_num) (by norm_num),
    two_eq (by norm_num) (by norm_num), two_eq (by norm_num) (by norm_num),
    two_eq (by norm_num) (by norm_num), succC_eq]
  by_cases h1 : 2 ^ (-969 : ℤ) ≤ |r|
  · rw [if_pos (show le (fin _ _) (fin |r| _) = true from decide_eq_true h1)]
    have r0 : r ≠ 0 := by
      rintro rfl; rw [abs_zero] at h1; exact absurd h1 (not_le.2 (two_zpow_pos _))
    obtain ⟨l1, l2⟩ := log_bounds r0
    have hj : -969 ≤ Int.log 2 |r| := by
      by_contra hc
      have := (h1.trans_lt l2).trans_le (pw_le (show Int.log 2 |r| + 1 ≤ -969 by omega))
      exact lt_irrefl _ this
    obtain ⟨c0, c1, c2⟩ := succ_core (F := B) p64 hr.repU l1 l2 (by rw [emin64]; omega)
    have hm : |(B).roundQ .near (|r| * (2 ^ (-53 : ℤ) + 2 ^ (-105 : ℤ)))| ≤ (B).maxQ := by
      rw [abs_of_nonneg c0]
      refine c1.trans (le_trans ?_ hr.abs_le)
      exact (pw_le (by omega)).trans l1
    refine ⟨_, nx_isNext p64 hr.repU l1 l2 (by rw [emin64]; omega), ?_⟩
    rw [ti_fin, round_fin_of_le hm, pl_fin]
    exact round_eq_pack _ c2
  · rw [if_neg (show ¬ le (fin _ _) (fin |r| _) = true by
      intro h; exact h1 (of_decide_eq_true h))]
    have h1 := not_le.1 h1
    by_cases h2 : |r| < 2 ^ (-1021 : ℤ)
    · rw [if_pos (show lt (fin |r| _) (fin _ _) = true from decide_eq_true h2)]
      have hn : IsNext B r (r + 2 ^ (-1074 : ℤ)) := by
        apply isNext_sub (F := B) hr.repU
        have g : OnGrid (-1074) |r| := by
          have := onGrid_of_repU hr.repU
          rcases abs_choice r with h | h <;> rw [h]
          · exact this
          · exact this.neg
        exact OnGrid.sep g ((OnGrid.two_zpow (-1021)).mono (show (-1074 : ℤ) ≤ -1021 by norm_num)) h2
      exact ⟨_, hn, by rw [pl_fin]; exact round_eq_pack _ (RepU.roundQ_eq _ hn.rep)⟩
    · rw [if_neg (show ¬ lt (fin |r| _) (fin _ _) = true by
        intro h; exact h2 (of_decide_eq_true h))]
      have h2 := not_lt.1 h2
      have r0 : r ≠ 0 := by
        rintro rfl; rw [abs_zero] at h2; exact absurd h2 (not_le.2 (two_zpow_pos _))
      obtain ⟨l1, l2⟩ := log_bounds r0
      set j := Int.log 2 |r| with hjd
      have hj : -1021 ≤ j := by
        by_contra hc
        have := (h2.trans_lt l2).trans_le (pw_le (show j + 1 ≤ -1021 by omega))
        exact lt_irrefl _ this
      have hj2 : j < -969 := by
        by_contra hc
        have := (pw_le (show -969 ≤ j by omega)).trans l1
        exact absurd h1 (not_lt.2 this)
      have hc : (B).Rep (2 ^ (53 : ℤ) * r) := by
        refine rep64 ?_ ?_
        · rw [mul_comm]; exact hr.repU.scale_up 53
        · rw [abs_mul, abs_of_pos (two_zpow_pos _)]
          calc (2 : ℚ) ^ (53 : ℤ) * |r| ≤ 2 ^ (53 : ℤ) * 2 ^ (-969 : ℤ) :=
                mul_le_mul_of_nonneg_left h1.le (two_zpow_pos _).le
            _ ≤ 2 ^ (1023 : ℤ) := by rw [← zpow_add₀ (by norm_num)]; exact pw_le (by norm_num)
      have hn := nx_isNext (F := B) p64 hr.repU l1 l2 (by rw [emin64]; omega)
      have ec : (2 : ℚ) ^ (53 : ℤ) * r = r * 2 ^ (53 : ℤ) := mul_comm _ _
      have m1 : (2 : ℚ) ^ (j + 53) ≤ |2 ^ (53 : ℤ) * r| := by
        rw [ec, abs_mul, abs_of_pos (two_zpow_pos 53), zpow_add₀ (by norm_num)]
        exact mul_le_mul_of_nonneg_right l1 (two_zpow_pos _).le
      have m2 : |2 ^ (53 : ℤ) * r| < (2 : ℚ) ^ (j + 53 + 1) := by
        rw [ec, abs_mul, abs_of_pos (two_zpow_pos 53), show j + 53 + 1 = j + 1 + 53 by ring,
          zpow_add₀ (by norm_num)]
        exact mul_lt_mul_of_pos_right l2 (two_zpow_pos _)
      obtain ⟨c0, c1, c2⟩ := succ_core (F := B) p64 hc.repU m1 m2 (by rw [emin64]; omega)
      rw [mul_comm |_| _] at c0 c1 c2
      have hm : |(B).roundQ .near ((2 ^ (-53 : ℤ) + 2 ^ (-105 : ℤ)) * |2 ^ (53 : ℤ) * r|)| ≤ (B).maxQ := by
        rw [abs_of_nonneg c0]
        exact (c1.trans (pw_le (show j + 53 - 52 ≤ 1023 by omega))).trans pow_le_maxQ64
      have c2' : nx (2 ^ (53 : ℤ) * r) (j + 53) = nx r j * 2 ^ (53 : ℤ) := by
        rw [ec]; exact nx_scale r j 53
      have hm2 : |(B).roundQ .near (2 ^ (53 : ℤ) * r +
          (B).roundQ .near ((2 ^ (-53 : ℤ) + 2 ^ (-105 : ℤ)) * |2 ^ (53 : ℤ) * r|))| ≤ (B).maxQ := by
        refine le_trans (abs_near_le (M := 2 ^ (1000 : ℤ)) (repU_pow (by rw [emin64]; norm_num)) ?_)
          ((pw_le (by norm_num)).trans pow_le_maxQ64)
        refine (abs_add_le _ _).trans ?_
        rw [abs_of_nonneg c0]
        have i1 := m2.le.trans (pw_le (show j + 53 + 1 ≤ 0 by omega))
        have i2 := c1.trans (pw_le (show j + 53 - 52 ≤ 0 by omega))
        have i3 : (2 : ℚ) ^ (1 : ℤ) ≤ 2 ^ (1000 : ℤ) := pw_le (by norm_num)
        rw [zpow_zero] at i1 i2
        rw [zpow_one] at i3
        linarith
      refine ⟨_, hn, ?_⟩
      rw [ti_exact _ hr hc rfl, abs_fin hc (rep_abs hc), ti_fin, round_fin_of_le hm, pl_fin,
        round_fin_of_le hm2, ti_fin]
      refine round_eq_pack _ ?_
      rw [c2, c2', show nx r j * 2 ^ (53 : ℤ) * 2 ^ (-53 : ℤ) = nx r j by
        rw [mul_assoc, ← zpow_add₀ (by norm_num)]; norm_num]
      exact RepU.roundQ_eq _ hn.rep

theorem mul_comm_near (x y : Dbl) : ti x y = ti y x := by
  unfold ti
  have key : ∀ x y : Dbl, (infOfSign (sgn x * sgn y) : Dbl) = infOfSign (sgn y * sgn x) := by
    intro x y; rw [mul_comm]
  cases x <;> cases y
  case fin.fin a _ b _ =>
    show Fl.round .near (a * b) = Fl.round .near (b * a)
    rw [mul_comm]
  all_goals first | rfl | exact key _ _

theorem pred_eq (x : Dbl) : pred x = neg (succ (neg x)) := by
  unfold pred succ
  simp only [abs_neg']
  have e1 : ∀ z : Dbl, mi x z = neg (pl (neg x) z) := by
    intro z
    unfold mi pl sub
    rw [show z = neg (neg z) from (Fl.neg_neg z).symm, add_neg_neg_near, Fl.neg_neg, Fl.neg_neg]
  have e2 : ti (two 53) (neg x) = neg (ti (two 53) x) := by
    rw [mul_comm_near, mul_comm_near (two 53)]; exact mul_neg_left_near _ _
  have e3 : ∀ w z : Dbl, ti (mi w z) (two (-53)) = neg (ti (pl (neg w) z) (two (-53))) := by
    intro w z
    have : mi w z = neg (pl (neg w) z) := by
      unfold mi pl sub
      rw [show z = neg (neg z) from (Fl.neg_neg z).symm, add_neg_neg_near, Fl.neg_neg, Fl.neg_neg]
    rw [this]; exact mul_neg_left_near _ _
  rw [e1, e1, e2, e3, abs_neg']
  split_ifs <;> rfl

/-! ## faithful results and a correct test give the directed result -/

theorem up_flag {v : ℝ} {r : ℚ} (hr : (B).Rep r) (hf : Faithful B v r) {c : Bool}
    (hc : c = true ↔ (r : ℝ) < v) :
    IsUp (v : EReal) (if c = true then succ (fin r hr) else fin r hr) := by
  by_cases h : (r : ℝ) < v
  · rw [if_pos (hc.2 h)]
    obtain ⟨s, hn, e⟩ := succ_fin hr
    rw [e]
    exact isUp_of_next hr hf h hn
  · rw [if_neg (fun h' => h (hc.1 h'))]
    exact isUp_of_ge hr hf (not_lt.1 h)

theorem down_flag {v : ℝ} {r : ℚ} (hr : (B).Rep r) (hf : Faithful B v r) {c : Bool}
    (hc : c = true ↔ v < (r : ℝ)) :
    IsDown (v : EReal) (if c = true then pred (fin r hr) else fin r hr) := by
  have h := (up_flag hr.neg (Faithful.neg hf) (c := c) (by rw [hc]; push_cast; constructor <;> intro h <;> linarith)).neg
  rw [← EReal.coe_neg, _root_.neg_neg] at h
  rw [pred_eq]
  have e : neg (fin (-r) hr.neg : Dbl) = fin r hr := by simp only [neg, _root_.neg_neg]
  by_cases hcc : c = true
  · rw [if_pos hcc] at h ⊢; exact h
  · rw [if_neg hcc] at h ⊢; rwa [e] at h

theorem up_pinf {F : Format} {q : ℚ} (h : F.maxQ < q) : (Fl.round .up q : Fl F) = pinf := by
  refine IsUp.unique (round_up_isUp q) ⟨by simp, le_top, fun y hy hv => ?_⟩
  cases y with
  | nan => exact absurd rfl hy
  | pinf => exact le_top
  | ninf => simp at hv
  | fin t ht =>
    rw [toE_fin, coeQ_le] at hv
    exact absurd (h.trans_le hv) (not_lt.2 (abs_le.1 ht.abs_le).2)

theorem up_ninf {F : Format} {q : ℚ} (h : q < -F.maxQ) : (Fl.round .up q : Fl F) = neg maxF := by
  refine IsUp.unique (round_up_isUp q) ⟨by simp [neg, maxF], ?_, fun y hy hv => ?_⟩
  · exact coeQ_le.2 h.le
  · cases y with
    | nan => exact absurd rfl hy
    | pinf => exact le_top
    | ninf => simp at hv
    | fin t ht => exact coeQ_le.2 (abs_le.1 ht.abs_le).1

theorem down_pinf {F : Format} {q : ℚ} (h : F.maxQ < q) : (Fl.round .down q : Fl F) = maxF := by
  have := up_ninf (F := F) (q := -q) (by linarith)
  rw [round_neg_up] at this
  rw [← Fl.neg_neg (Fl.round .down q), this, Fl.neg_neg]

theorem down_ninf {F : Format} {q : ℚ} (h : q < -F.maxQ) : (Fl.round .down q : Fl F) = ninf := by
  have := up_pinf (F := F) (q := -q) (by linarith)
  rw [round_neg_up] at this
  rw [← Fl.neg_neg (Fl.round .down q), this]; rfl

/-- the near result together with a correct test gives the rounded-up result -/
theorem near_up {q r : ℚ} (hr : (B).Rep r) (hn : (Fl.round .near q : Dbl) = fin r hr) {c : Bool}
    (hc : c = true ↔ r < q) : (if c = true then succ (fin r hr) else fin r hr) = Fl.round .up q := by
  have hf : Faithful B (q : ℝ) r := by rw [round_fin_val hn]; exact faithful_near q
  exact (up_flag hr hf (by rw [hc]; exact_mod_cast Iff.rfl)).unique (round_up_isUp q)

theorem near_down {q r : ℚ} (hr : (B).Rep r) (hn : (Fl.round .near q : Dbl) = fin r hr) {c : Bool}
    (hc : c = true ↔ q < r) : (if c = true then pred (fin r hr) else fin r hr) = Fl.round .down q := by
  have hf : Faithful B (q : ℝ) r := by rw [round_fin_val hn]; exact faithful_near q
  exact (down_flag hr hf (by rw [hc]; exact_mod_cast Iff.rfl)).unique (round_down_isDown q)

theorem lit0 : (lit 0 : Dbl) = fin 0 rep_zero := lit_eq _

/-! ## addition and subtraction -/

theorem addUp_eq (x y : Dbl) : addUp x y = add .up x y := by
  cases x <;> cases y
  case fin.fin a ha b hb =>
    show _ = Fl.round .up (a + b)
    rcases round_near_cases (F := B) (a + b) with ⟨hx, hr⟩ | ⟨hr, hq⟩ | ⟨hr, hq⟩
    · obtain ⟨h, e⟩ := twosum_fin ha hb hx hr
      unfold addUp
      rw [e, lit0]
      simp only
      rw [if_neg (by simp [eq]), if_neg (by simp [eq])]
      exact near_up hx hr (by
        show decide _ = true ↔ _
        rw [decide_eq_true_iff]; constructor <;> intro h <;> linarith)
    · rw [up_pinf hq]
      have : (twosum (fin a ha) (fin b hb)).1 = pinf := by
        unfold twosum; rw [pl_fin, hr]; split_ifs <;> rfl
      rcases hh : twosum (fin a ha) (fin b hb) with ⟨r, r2⟩
      rw [hh] at this
      obtain rfl : r = pinf := this
      unfold addUp; rw [hh]; simp [eq]
    · rw [up_ninf hq]
      have : (twosum (fin a ha) (fin b hb)).1 = ninf := by
        unfold twosum; rw [pl_fin, hr]; split_ifs <;> rfl
      rcases hh : twosum (fin a ha) (fin b hb) with ⟨r, r2⟩
      rw [hh] at this
      obtain rfl : r = ninf := this
      unfold addUp; rw [hh]; simp [eq]
  all_goals
    first
      | (simp [addUp, twosum, pl, mi, sub, add, neg, eq, lt, Fl.abs, lit0]; done)
      | (rename_i q _; by_cases hq : 0 ≤ q <;> simp [hq, addUp, twosum, pl, mi, sub, add, neg, eq, lt, Fl.abs])

theorem addDown_eq (x y : Dbl) : addDown x y = add .down x y := by
  cases x <;> cases y
  case fin.fin a ha b hb =>
    show _ = Fl.round .down (a + b)
    rcases round_near_cases (F := B) (a + b) with ⟨hx, hr⟩ | ⟨hr, hq⟩ | ⟨hr, hq⟩
    · obtain ⟨h, e⟩ := twosum_fin ha hb hx hr
      unfold addDown
      rw [e, lit0]
      simp only
      rw [if_neg (by simp [eq]), if_neg (by simp [eq])]
      exact near_down hx hr (by
        show decide _ = true ↔ _
        rw [decide_eq_true_iff]; constructor <;> intro h <;> linarith)
    · rw [down_pinf hq]
      have : (twosum (fin a ha) (fin b hb)).1 = pinf := by
        unfold twosum; rw [pl_fin, hr]; split_ifs <;> rfl
      rcases hh : twosum (fin a ha) (fin b hb) with ⟨r, r2⟩
      rw [hh] at this
      obtain rfl : r = pinf := this
      unfold addDown; rw [hh]; simp [eq]
    · rw [down_ninf hq]
      have : (twosum (fin a ha) (fin b hb)).1 = ninf := by
        unfold twosum; rw [pl_fin, hr]; split_ifs <;> rfl
      rcases hh : twosum (fin a ha) (fin b hb) with ⟨r, r2⟩
      rw [hh] at this
      obtain rfl : r = ninf := this
      unfold addDown; rw [hh]; simp [eq]
  all_goals
    first
      | (simp [addDown, twosum, pl, mi, sub, add, neg, eq, lt, Fl.abs, lit0]; done)
      | (rename_i q _; by_cases hq : 0 ≤ q <;> simp [hq, addDown, twosum, pl, mi, sub, add, neg, eq, lt, Fl.abs])

theorem eq_neg_ninf (y : Dbl) : eq (neg y) ninf = eq y pinf := by cases y <;> rfl
theorem eq_neg_pinf (y : Dbl) : eq (neg y) pinf = eq y ninf := by cases y <;> rfl

theorem subUp_eq (x y : Dbl) : subUp x y = sub .up x y := by
  have : subUp x y = addUp x (neg y) := by
    unfold subUp addUp; rw [eq_neg_ninf]
  rw [this, addUp_eq]; rfl

theorem subDown_eq (x y : Dbl) : subDown x y = sub .down x y := by
  have : subDown x y = addDown x (neg y) := by
    unfold subDown addDown; rw [eq_neg_pinf]
  rw [this, addDown_eq]; rfl

end Emu
end Kv
