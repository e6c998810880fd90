import Verif.Interval.ElemExp
import Mathlib.Analysis.SpecialFunctions.Pow.Real

/-! # Helper lemmas: `log`, `log1p` -/

namespace Kv
open RopSem
open Rop (lit)

namespace Interval

/-! ## exact operations on doubles -/

theorem D_cases (x : D) :
    nan x ∨ x = Rop.inf ∨ x = Rop.neg Rop.inf ∨ ∃ q h, x = Hw.fin q h := Hw.cases' x

theorem is_cst {q : ℚ} (m e : ℤ) (hm : |m| < 2 ^ 53) (h1 : -1074 ≤ e) (h2 : e ≤ 971)
    (hq : q = m * 2 ^ e) : Is (lit q : D) q := by
  subst hq; exact Hw.is_lit (rep64 hm h1 h2)

theorem is_log1 : Is (lit Cst.log1 : D) (Cst.log1 : ℚ) :=
  is_cst 1865452045155277 (-50) (by norm_num) (by norm_num) (by norm_num) (by norm_num [Cst.log1])
theorem is_log2 : Is (lit Cst.log2 : D) (Cst.log2 : ℚ) :=
  is_cst 2638147582215219 (-51) (by norm_num) (by norm_num) (by norm_num) (by norm_num [Cst.log2])
theorem is_log3 : Is (lit Cst.log3 : D) (Cst.log3 : ℚ) :=
  is_cst 2638147582215219 (-52) (by norm_num) (by norm_num) (by norm_num) (by norm_num [Cst.log3])
theorem is_log4 : Is (lit Cst.log4 : D) (Cst.log4 : ℚ) :=
  is_cst 1865452045155277 (-51) (by norm_num) (by norm_num) (by norm_num) (by norm_num [Cst.log4])

theorem minQ_eq : binary64.minQ = 2 ^ (-1074 : ℤ) := rfl

/-- range of the positive doubles -/
theorem pos_range {x : D} {s : ℝ} (hx : Is x s) (h : 0 < s) : s ≤ 2 ^ 1024 ∧ 1 / 2 ^ 1074 ≤ s := by
  obtain ⟨q, hq, rfl, rfl⟩ := Hw.is_iff.1 hx
  have h : 0 < q := by exact_mod_cast h
  obtain ⟨m, e, hm, h1, h2, rfl⟩ := hq
  have hp := Format.two_zpow_pos e
  have m0 : 0 < m := by
    have := (mul_pos_iff_of_pos_right hp).1 h
    exact_mod_cast this
  have m1 : (1 : ℚ) ≤ m := by exact_mod_cast m0
  have m2 : (m : ℚ) ≤ 2 ^ 53 := by
    have := (abs_lt.1 hm).2.le; exact_mod_cast this
  have e1 : (2 : ℚ) ^ e ≤ 2 ^ (971 : ℤ) := zpow_le_zpow_right₀ (by norm_num) h2
  have e2 : (2 : ℚ) ^ (-1074 : ℤ) ≤ 2 ^ e := zpow_le_zpow_right₀ (by norm_num) h1
  constructor
  · have : (m : ℚ) * 2 ^ e ≤ 2 ^ 1024 := by
      calc (m : ℚ) * 2 ^ e ≤ 2 ^ 53 * 2 ^ (971 : ℤ) := mul_le_mul m2 e1 hp.le (by positivity)
        _ = 2 ^ 1024 := by rw [show (971 : ℤ) = ((971 : ℕ) : ℤ) from rfl, zpow_natCast, ← pow_add]
    exact_mod_cast this
  · have : 1 / 2 ^ 1074 ≤ (m : ℚ) * 2 ^ e := by
      calc (1 : ℚ) / 2 ^ 1074 = 1 * 2 ^ (-1074 : ℤ) := by
            rw [show (-1074 : ℤ) = -((1074 : ℕ) : ℤ) from rfl, zpow_neg, zpow_natCast, one_mul, one_div]
        _ ≤ m * 2 ^ e := mul_le_mul m1 e2 (Format.two_zpow_pos _).le (by positivity)
    have h3 : ((1 / 2 ^ 1074 : ℚ) : ℝ) ≤ (((m : ℚ) * 2 ^ e : ℚ) : ℝ) := Rat.cast_le.2 this
    rwa [Rat.cast_div, Rat.cast_one, Rat.cast_pow, Rat.cast_ofNat] at h3

theorem is_mul_half {x : D} {s : ℝ} (hx : Is x s) (h : 1 ≤ s) :
    Is (Rop.mul x (lit (1 / 2))) (s * (1 / 2)) := by
  obtain ⟨q, hq, rfl, rfl⟩ := Hw.is_iff.1 hx
  have h : 1 ≤ q := by exact_mod_cast h
  have r := rep_half_mul hq (le_trans h (le_abs_self q))
  rw [Hw.lit_eq Format.rep_half, Hw.mul_eq hq Format.rep_half r]
  have := Hw.is_fin r; push_cast at this; exact this

theorem is_mul_two {x : D} {s : ℝ} (hx : Is x s) (h0 : 0 ≤ s) (h : s ≤ 1) :
    Is (Rop.mul x (lit 2)) (s * 2) := by
  obtain ⟨q, hq, rfl, rfl⟩ := Hw.is_iff.1 hx
  have h : q ≤ 1 := by exact_mod_cast h
  have h0 : 0 ≤ q := by exact_mod_cast h0
  have r : binary64.Rep (q * 2) := by
    rw [mul_comm]
    refine Format.rep_of_repU (RepU.two_mul hq.repU) ?_
    rw [abs_of_nonneg (by linarith)]
    have := two_pow_le_maxQ (F := binary64)
    have : (2 : ℚ) ^ 1 ≤ 2 ^ binary64.p := pow_le_pow_right₀ (by norm_num) (by decide)
    linarith
  rw [Hw.lit_eq rep64_two, Hw.mul_eq hq rep64_two r]
  have := Hw.is_fin r; push_cast at this; exact this

/-- half-integers are exact -/
theorem rep_half_int {k : ℤ} (h : |k| ≤ 2 ^ 50) : binary64.Rep ((k : ℚ) / 2) := by
  have := rep64 (m := k) (e := -1) (by linarith) (by norm_num) (by norm_num)
  convert this using 1
  rw [zpow_neg_one]; ring

theorem is_half_cast {x : D} {k : ℤ} : Is x ((k : ℝ) / 2) ↔ Is x (((k : ℚ) / 2 : ℚ) : ℝ) := by
  push_cast; exact Iff.rfl

theorem is_p_add {p a : D} {k d : ℤ} (hp : Is p ((k : ℝ) / 2)) (ha : Is a ((d : ℝ) / 2))
    (h : |k + d| ≤ 2 ^ 50) : Is (Rop.add p a) (((k + d : ℤ) : ℝ) / 2) := by
  have := Hw.is_add (is_half_cast.1 hp) (is_half_cast.1 ha)
    (by have := rep_half_int h; push_cast at this; rwa [add_div] at this)
  convert this using 1; push_cast; ring

theorem is_p_sub {p a : D} {k d : ℤ} (hp : Is p ((k : ℝ) / 2)) (ha : Is a ((d : ℝ) / 2))
    (h : |k - d| ≤ 2 ^ 50) : Is (Rop.sub p a) (((k - d : ℤ) : ℝ) / 2) := by
  have := Hw.is_sub (is_half_cast.1 hp) (is_half_cast.1 ha)
    (by have := rep_half_int h; push_cast at this; rwa [sub_div] at this)
  convert this using 1; push_cast; ring

theorem is_one' : Is (lit 1 : D) (((2 : ℤ) : ℝ) / 2) := by
  have := is_one (T := D); norm_num at this ⊢; exact this
theorem is_half' : Is (lit (1 / 2) : D) (((1 : ℤ) : ℝ) / 2) := by
  have := is_half (T := D); norm_num at this ⊢; exact this

/-! ## the scaling loops -/

/-- `ln s + (k/2) ln 2` compared with `ln s' + (k'/2) ln 2`: it grows if `up`, otherwise falls -/
def Rel (up : Bool) (s : ℝ) (k : ℤ) (s' : ℝ) (k' : ℤ) : Prop :=
  if up then Real.log s + k / 2 * Real.log 2 ≤ Real.log s' + k' / 2 * Real.log 2
  else Real.log s' + k' / 2 * Real.log 2 ≤ Real.log s + k / 2 * Real.log 2

theorem Rel.refl {up : Bool} {s : ℝ} {k : ℤ} : Rel up s k s k := by
  unfold Rel; split_ifs <;> exact le_rfl

theorem Rel.trans {up : Bool} {s s' s'' : ℝ} {k k' k'' : ℤ} (h : Rel up s k s' k')
    (h' : Rel up s' k' s'' k'') : Rel up s k s'' k'' := by
  unfold Rel at *; split_ifs at * <;> linarith

theorem Rel.of_eq {up : Bool} {s s' : ℝ} {k k' : ℤ}
    (h : Real.log s + k / 2 * Real.log 2 = Real.log s' + k' / 2 * Real.log 2) : Rel up s k s' k' := by
  unfold Rel; split_ifs <;> linarith

theorem logW1_spec (up : Bool) : ∀ (fuel n : ℕ) (x2 p : D) (s : ℝ) (k : ℤ) (w : D × D),
    Is x2 s → 0 < s → s ≤ 2 ^ n → Is p ((k : ℝ) / 2) → |k| + 2 * n ≤ 2 ^ 50 →
    logW1 fuel x2 p = .ok w →
    ∃ (s' : ℝ) (k' : ℤ), Is w.1 s' ∧ Is w.2 ((k' : ℝ) / 2) ∧ 0 < s' ∧ s' ≤ 5 / 3 ∧
      |k'| ≤ |k| + 2 * n ∧ Rel up s k s' k' := by
  intro fuel
  induction fuel with
  | zero => intro n x2 p s k w _ _ _ _ _ h; simp [logW1] at h
  | succ fuel ih =>
    intro n x2 p s k w hx hs hn hp hk h
    rw [logW1] at h
    by_cases h1 : Rop.lt (lit Cst.log1 : D) x2 = true
    · rw [if_pos h1] at h
      have h2 := (lt_of_is is_log1 hx).1 h1
      have h3 : (1 : ℝ) < s := lt_trans (by norm_num [Cst.log1]) h2
      cases n with
      | zero => norm_num at hn; linarith
      | succ n =>
        push_cast at hk
        have hk2 : |k + 2| ≤ |k| + 2 := by
          have := abs_add_le k 2; simpa using this
        obtain ⟨s', k', a1, a2, a3, a4, a5, a6⟩ := ih n _ _ (s * (1 / 2)) (k + 2) w
          (is_mul_half hx h3.le) (by linarith) (by rw [pow_succ] at hn; linarith)
          (is_p_add hp is_one' (by linarith)) (by linarith) h
        refine ⟨s', k', a1, a2, a3, a4, by push_cast; linarith, Rel.trans (Rel.of_eq ?_) a6⟩
        rw [Real.log_mul hs.ne' (by norm_num), one_div, Real.log_inv]; push_cast; ring
    · rw [if_neg h1] at h
      cases h
      rw [lt_of_is is_log1 hx, not_lt] at h1
      exact ⟨s, k, hx, hp, hs, le_trans h1 (by norm_num [Cst.log1]), by linarith, Rel.refl⟩

theorem logW3_spec (up : Bool) : ∀ (fuel n : ℕ) (x2 p : D) (s : ℝ) (k : ℤ) (w : D × D),
    Is x2 s → 1 / 2 ^ n ≤ s → s ≤ 6 / 5 → Is p ((k : ℝ) / 2) → |k| + 2 * n ≤ 2 ^ 50 →
    logW3 fuel x2 p = .ok w →
    ∃ (s' : ℝ) (k' : ℤ), Is w.1 s' ∧ Is w.2 ((k' : ℝ) / 2) ∧ 37 / 64 ≤ s' ∧ s' ≤ 6 / 5 ∧
      |k'| ≤ |k| + 2 * n ∧ Rel up s k s' k' := by
  intro fuel
  induction fuel with
  | zero => intro n x2 p s k w _ _ _ _ _ h; simp [logW3] at h
  | succ fuel ih =>
    intro n x2 p s k w hx hn hs hp hk h
    have s0 : 0 < s := lt_of_lt_of_le (by positivity) hn
    rw [logW3] at h
    by_cases h1 : Rop.lt x2 (lit Cst.log3 : D) = true
    · rw [if_pos h1] at h
      have h2 := (lt_of_is hx is_log3).1 h1
      have h3 : s < 3 / 5 := lt_trans h2 (by norm_num [Cst.log3])
      cases n with
      | zero => norm_num at hn; linarith
      | succ n =>
        push_cast at hk
        have hk2 : |k - 2| ≤ |k| + 2 := by
          have := abs_sub k 2; simpa using this
        obtain ⟨s', k', a1, a2, a3, a4, a5, a6⟩ := ih n _ _ (s * 2) (k - 2) w
          (is_mul_two hx s0.le (by linarith)) (by
            rw [pow_succ, div_le_iff₀ (by positivity)] at hn
            rw [div_le_iff₀ (by positivity)]; linarith) (by linarith)
          (is_p_sub hp is_one' (by linarith)) (by linarith) h
        refine ⟨s', k', a1, a2, a3, a4, by push_cast; linarith, Rel.trans (Rel.of_eq ?_) a6⟩
        rw [Real.log_mul s0.ne' (by norm_num)]; push_cast; ring
    · rw [if_neg h1] at h
      cases h
      rw [lt_of_is hx is_log3, not_lt] at h1
      exact ⟨s, k, hx, hp, le_trans (by norm_num [Cst.log3]) h1, hs, by linarith, Rel.refl⟩

/-! the interval `sqrt(interval(2))` -/

def s2lo : ℚ := 6369051672525772 / 2 ^ 52
def s2hi : ℚ := 6369051672525773 / 2 ^ 52
theorem rep_s2lo : binary64.Rep s2lo := by
  have := rep64 (m := 6369051672525772) (e := -52) (by norm_num) (by norm_num) (by norm_num)
  convert this using 1; norm_num [s2lo]
theorem rep_s2hi : binary64.Rep s2hi := by
  have := rep64 (m := 6369051672525773) (e := -52) (by norm_num) (by norm_num) (by norm_num)
  convert this using 1; norm_num [s2hi]

/-- `sqrt(interval(2))` in double precision -/
def S2 : Interval D := ⟨Hw.fin s2lo rep_s2lo, Hw.fin s2hi rep_s2hi⟩

set_option maxRecDepth 100000 in
theorem sqrt_two_eq : sqrt (point two : Interval D) = .ok S2 := by
  have : sqrt (point two : Interval D) = .ok ⟨lit s2lo, lit s2hi⟩ := by decide +kernel
  rw [this, Hw.lit_eq rep_s2lo, Hw.lit_eq rep_s2hi]; rfl

theorem sqrt2_mem : Real.sqrt 2 ∈ S2 := sqrt_mem sqrt_two_eq (point_mem is_two)

theorem log_sqrt2 : Real.log (Real.sqrt 2) = 1 / 2 * Real.log 2 := by
  rw [Real.log_sqrt (by norm_num)]; ring

theorem rep_b {m : ℤ} {k : ℕ} (hm : |m| < 2 ^ 53) (hk : k ≤ 1074) : binary64.Rep ((m : ℚ) / 2 ^ k) := by
  have := rep64 (m := m) (e := -k) hm (by omega) (by omega)
  rwa [zpow_neg, zpow_natCast, ← div_eq_mul_inv] at this

theorem divUp_between {a b : ℚ} (ha : binary64.Rep a) (hb : binary64.Rep b) (h0 : b ≠ 0) {l u : ℚ}
    (hl : binary64.Rep l) (hu : binary64.Rep u) (h1 : l ≤ a / b) (h2 : a / b ≤ u) :
    ∃ m : ℚ, Is (Rop.divUp (Hw.fin a ha) (Hw.fin b hb) : D) m ∧ l ≤ m ∧ m ≤ u := by
  have e : (Rop.divUp (Hw.fin a ha) (Hw.fin b hb) : D) = Fl.round .up (a / b) := by
    show Fl.div .up (Fl.fin a ha) (Fl.fin b hb) = _
    simp [Fl.div, h0]
  obtain ⟨m, hm, e', h3, h4⟩ := round_eq_fin .up hl hu h1 h2
  exact ⟨m, by rw [e, e']; exact Hw.is_fin hm, h3, h4⟩

theorem divDown_between {a b : ℚ} (ha : binary64.Rep a) (hb : binary64.Rep b) (h0 : b ≠ 0) {l u : ℚ}
    (hl : binary64.Rep l) (hu : binary64.Rep u) (h1 : l ≤ a / b) (h2 : a / b ≤ u) :
    ∃ m : ℚ, Is (Rop.divDown (Hw.fin a ha) (Hw.fin b hb) : D) m ∧ l ≤ m ∧ m ≤ u := by
  have e : (Rop.divDown (Hw.fin a ha) (Hw.fin b hb) : D) = Fl.neg (Fl.round .up (-a / b)) := by
    show Fl.neg (Fl.div .up (Fl.neg (Fl.fin a ha)) (Fl.fin b hb)) = _
    simp [Fl.div, Fl.neg, h0]
  obtain ⟨m, hm, e', h3, h4⟩ := round_eq_fin .up hu.neg hl.neg (q := -a / b)
    (by rw [neg_div]; linarith) (by rw [neg_div]; linarith)
  exact ⟨-m, by rw [e, e']; exact Hw.is_fin hm.neg, by linarith, by linarith⟩

theorem mulUp_between {a b : ℚ} (ha : binary64.Rep a) (hb : binary64.Rep b) {l u : ℚ}
    (hl : binary64.Rep l) (hu : binary64.Rep u) (h1 : l ≤ a * b) (h2 : a * b ≤ u) :
    ∃ m : ℚ, Is (Rop.mulUp (Hw.fin a ha) (Hw.fin b hb) : D) m ∧ l ≤ m ∧ m ≤ u := by
  have e : (Rop.mulUp (Hw.fin a ha) (Hw.fin b hb) : D) = Fl.round .up (a * b) := rfl
  obtain ⟨m, hm, e', h3, h4⟩ := round_eq_fin .up hl hu h1 h2
  exact ⟨m, by rw [e, e']; exact Hw.is_fin hm, h3, h4⟩

theorem mulDown_between {a b : ℚ} (ha : binary64.Rep a) (hb : binary64.Rep b) {l u : ℚ}
    (hl : binary64.Rep l) (hu : binary64.Rep u) (h1 : l ≤ a * b) (h2 : a * b ≤ u) :
    ∃ m : ℚ, Is (Rop.mulDown (Hw.fin a ha) (Hw.fin b hb) : D) m ∧ l ≤ m ∧ m ≤ u := by
  have e : (Rop.mulDown (Hw.fin a ha) (Hw.fin b hb) : D) = Fl.neg (Fl.round .up (-a * b)) := rfl
  obtain ⟨m, hm, e', h3, h4⟩ := round_eq_fin .up hu.neg hl.neg (q := -a * b)
    (by rw [neg_mul]; linarith) (by rw [neg_mul]; linarith)
  exact ⟨-m, by rw [e, e']; exact Hw.is_fin hm.neg, by linarith, by linarith⟩

theorem rep_half' : binary64.Rep (1 / 2) := Format.rep_half

/-- one division by `sqrt 2` -/
theorem w2_step (up : Bool) {x2 : D} {s : ℝ} {t : Interval D} {k : ℤ} (hx : Is x2 s) (h1 : 1 ≤ s)
    (ht : sDiv x2 S2 = .ok t) {b : ℚ} (hb : binary64.Rep b) (hsb : s ≤ 7 / 5 * b) :
    ∃ s' : ℝ, Is (if up then t.sup else t.inf) s' ∧ s' ≤ b ∧ 1 / 2 ≤ s' ∧ Rel up s k s' (k + 1) := by
  have hmem := sDiv_mem ht sqrt2_mem hx
  have sq0 : 0 < Real.sqrt 2 := Real.sqrt_pos.2 (by norm_num)
  have s0 : 0 < s := by linarith
  have hlog : Real.log (s / Real.sqrt 2) = Real.log s - 1 / 2 * Real.log 2 := by
    rw [Real.log_div s0.ne' sq0.ne', log_sqrt2]
  have hpos : 0 < s / Real.sqrt 2 := div_pos s0 sq0
  have key : ∃ s1 s2 : ℝ, Is t.sup s1 ∧ Is t.inf s2 ∧ s1 ≤ b ∧ s2 ≤ b ∧ 1 / 2 ≤ s1 ∧ 1 / 2 ≤ s2 := by
    obtain ⟨q, hq, rfl, rfl⟩ := Hw.is_iff.1 hx
    have h1 : 1 ≤ q := by exact_mod_cast h1
    have hsb : q ≤ 7 / 5 * b := by
      have : (q : ℝ) ≤ ((7 / 5 * b : ℚ) : ℝ) := by push_cast; exact hsb
      exact_mod_cast this
    have e : t = ⟨Rop.divDown (Hw.fin q hq) S2.sup, Rop.divUp (Hw.fin q hq) S2.inf⟩ := by
      unfold sDiv at ht
      have c1 : Rop.lt (lit 0 : D) S2.inf = true := by
        show Rop.lt (lit 0 : D) (Hw.fin s2lo rep_s2lo) = true
        rw [Hw.lit_eq Format.rep_zero, Hw.lt_fin]; norm_num [s2lo]
      have c2 : Rop.le (lit 0 : D) (Hw.fin q hq) = true := by
        rw [Hw.lit_eq Format.rep_zero, Hw.le_fin]; linarith
      rw [if_pos (by rw [c1]; rfl), if_pos c2] at ht
      cases ht; rfl
    have g1 : (1 : ℚ) / 2 ≤ q / s2lo := by rw [le_div_iff₀ (by norm_num [s2lo])]; norm_num [s2lo]; linarith
    have g2 : q / s2lo ≤ b := by
      rw [div_le_iff₀ (by norm_num [s2lo])]
      have : (7 : ℚ) / 5 ≤ s2lo := by norm_num [s2lo]
      nlinarith
    have g3 : (1 : ℚ) / 2 ≤ q / s2hi := by rw [le_div_iff₀ (by norm_num [s2hi])]; norm_num [s2hi]; linarith
    have g4 : q / s2hi ≤ b := by
      rw [div_le_iff₀ (by norm_num [s2hi])]
      have : (7 : ℚ) / 5 ≤ s2hi := by norm_num [s2hi]
      nlinarith
    obtain ⟨m, e1, e2, e3⟩ := divUp_between hq rep_s2lo (by norm_num [s2lo]) rep_half' hb g1 g2
    obtain ⟨n, f1, f2, f3⟩ := divDown_between hq rep_s2hi (by norm_num [s2hi]) rep_half' hb g3 g4
    refine ⟨m, n, by rw [e]; exact e1, by rw [e]; exact f1, by exact_mod_cast e3, by exact_mod_cast f3, ?_, ?_⟩
    · have : ((1 / 2 : ℚ) : ℝ) ≤ m := by exact_mod_cast e2
      push_cast at this; exact this
    · have : ((1 / 2 : ℚ) : ℝ) ≤ n := by exact_mod_cast f2
      push_cast at this; exact this
  obtain ⟨s1, s2, i1, i2, b1, b2, l1, l2⟩ := key
  cases up with
  | true =>
    refine ⟨s1, i1, b1, l1, ?_⟩
    have h3 : s / Real.sqrt 2 ≤ s1 := by have := hmem.2.2; rw [i1.2] at this; exact_mod_cast this
    have := Real.log_le_log hpos h3
    simp only [Rel, if_true]; push_cast
    rw [hlog] at this; linarith
  | false =>
    refine ⟨s2, i2, b2, l2, ?_⟩
    have h3 : s2 ≤ s / Real.sqrt 2 := by have := hmem.1.2; rw [i2.2] at this; exact_mod_cast this
    have := Real.log_le_log (by linarith) h3
    simp only [Rel]; push_cast
    rw [hlog] at this; linarith

/-- one multiplication by `sqrt 2` -/
theorem w4_step (up : Bool) {x2 : D} {s : ℝ} {k : ℤ} (hx : Is x2 s) (h1 : 1 / 2 ≤ s) (h2 : s ≤ 5 / 6)
    {b : ℚ} (hb : binary64.Rep b) (hsb : b ≤ 141 / 100 * s) (hb0 : 1 / 2 ≤ b) :
    ∃ s' : ℝ, Is (if up then (sMul x2 S2).sup else (sMul x2 S2).inf) s' ∧ b ≤ s' ∧ s' ≤ 5 / 4 ∧
      Rel up s k s' (k - 1) := by
  have hmem := sMul_mem sqrt2_mem hx
  have sq0 : 0 < Real.sqrt 2 := Real.sqrt_pos.2 (by norm_num)
  have s0 : 0 < s := by linarith
  have hlog : Real.log (s * Real.sqrt 2) = Real.log s + 1 / 2 * Real.log 2 := by
    rw [Real.log_mul s0.ne' sq0.ne', log_sqrt2]
  have hpos : 0 < s * Real.sqrt 2 := mul_pos s0 sq0
  have r54 : binary64.Rep (5 / 4) := by
    have := rep_b (m := 5) (k := 2) (by norm_num) (by norm_num); norm_num at this ⊢; exact this
  have key : ∃ s1 s2 : ℝ, Is (sMul x2 S2).sup s1 ∧ Is (sMul x2 S2).inf s2 ∧ b ≤ s1 ∧ b ≤ s2 ∧
      s1 ≤ 5 / 4 ∧ s2 ≤ 5 / 4 := by
    obtain ⟨q, hq, rfl, rfl⟩ := Hw.is_iff.1 hx
    have h1 : 1 / 2 ≤ q := by
      have : ((1 / 2 : ℚ) : ℝ) ≤ q := by push_cast; exact h1
      exact_mod_cast this
    have h2 : q ≤ 5 / 6 := by
      have : (q : ℝ) ≤ ((5 / 6 : ℚ) : ℝ) := by push_cast; exact h2
      exact_mod_cast this
    have hsb : b ≤ 141 / 100 * q := by
      have : (b : ℝ) ≤ ((141 / 100 * q : ℚ) : ℝ) := by push_cast; exact hsb
      exact_mod_cast this
    have e : sMul (Hw.fin q hq) S2 = ⟨Rop.mulDown (Hw.fin q hq) S2.inf, Rop.mulUp (Hw.fin q hq) S2.sup⟩ := by
      unfold sMul
      have c1 : Rop.lt (lit 0 : D) (Hw.fin q hq) = true := by
        rw [Hw.lit_eq Format.rep_zero, Hw.lt_fin]; linarith
      rw [if_pos c1]
    have t1 : (141 : ℚ) / 100 ≤ s2lo := by norm_num [s2lo]
    have t2 : s2hi ≤ 3 / 2 := by norm_num [s2hi]
    have t3 : s2lo ≤ s2hi := by norm_num [s2lo, s2hi]
    obtain ⟨m, e1, e2, e3⟩ := mulUp_between hq rep_s2hi hb r54 (by nlinarith) (by nlinarith)
    obtain ⟨n, f1, f2, f3⟩ := mulDown_between hq rep_s2lo hb r54 (by nlinarith) (by nlinarith)
    refine ⟨m, n, by rw [e]; exact e1, by rw [e]; exact f1, by exact_mod_cast e2, by exact_mod_cast f2, ?_, ?_⟩
    · have : (m : ℝ) ≤ ((5 / 4 : ℚ) : ℝ) := by exact_mod_cast e3
      push_cast at this; exact this
    · have : (n : ℝ) ≤ ((5 / 4 : ℚ) : ℝ) := by exact_mod_cast f3
      push_cast at this; exact this
  obtain ⟨s1, s2, i1, i2, b1, b2, l1, l2⟩ := key
  have hb0' : (0 : ℝ) < b := by
    have : (0 : ℚ) < b := by linarith
    exact_mod_cast this
  cases up with
  | true =>
    refine ⟨s1, i1, b1, l1, ?_⟩
    have h3 : s * Real.sqrt 2 ≤ s1 := by have := hmem.2.2; rw [i1.2] at this; exact_mod_cast this
    have := Real.log_le_log hpos h3
    simp only [Rel, if_true]; push_cast
    rw [hlog] at this; linarith
  | false =>
    refine ⟨s2, i2, b2, l2, ?_⟩
    have h3 : s2 ≤ s * Real.sqrt 2 := by have := hmem.1.2; rw [i2.2] at this; exact_mod_cast this
    have := Real.log_le_log (by linarith) h3
    simp only [Rel]; push_cast
    rw [hlog] at this; linarith

/-- bounds on `x2` with `n` divisions left -/
def w2b : ℕ → ℚ
  | 0 => 9 / 8
  | 1 => 3 / 2
  | _ => 27 / 16
/-- bounds on `x2` with `n` multiplications left -/
def w4b : ℕ → ℚ
  | 0 => 7 / 8
  | 1 => 13 / 16
  | _ => 37 / 64

theorem rep_w2b (n : ℕ) : binary64.Rep (w2b n) := by
  match n with
  | 0 => have := rep_b (m := 9) (k := 3) (by norm_num) (by norm_num); norm_num at this; exact this
  | 1 => have := rep_b (m := 3) (k := 1) (by norm_num) (by norm_num); norm_num at this; exact this
  | _ + 2 => have := rep_b (m := 27) (k := 4) (by norm_num) (by norm_num); norm_num at this; exact this
theorem rep_w4b (n : ℕ) : binary64.Rep (w4b n) := by
  match n with
  | 0 => have := rep_b (m := 7) (k := 3) (by norm_num) (by norm_num); norm_num at this; exact this
  | 1 => have := rep_b (m := 13) (k := 4) (by norm_num) (by norm_num); norm_num at this; exact this
  | _ + 2 => have := rep_b (m := 37) (k := 6) (by norm_num) (by norm_num); norm_num at this; exact this
theorem w2b_succ (n : ℕ) : w2b (n + 1) ≤ 7 / 5 * w2b n := by
  match n with
  | 0 => norm_num [w2b]
  | 1 => norm_num [w2b]
  | n + 2 => show (27 / 16 : ℚ) ≤ 7 / 5 * (27 / 16); norm_num
theorem w4b_succ (n : ℕ) : w4b n ≤ 141 / 100 * w4b (n + 1) := by
  match n with
  | 0 => norm_num [w4b]
  | 1 => norm_num [w4b]
  | n + 2 => show (37 / 64 : ℚ) ≤ 141 / 100 * (37 / 64); norm_num
theorem w4b_half (n : ℕ) : 1 / 2 ≤ w4b n := by
  match n with
  | 0 => norm_num [w4b]
  | 1 => norm_num [w4b]
  | n + 2 => show (1 / 2 : ℚ) ≤ 37 / 64; norm_num

theorem logW2_spec (up : Bool) : ∀ (fuel n : ℕ) (x2 p : D) (s : ℝ) (k : ℤ) (w : D × D),
    Is x2 s → 0 < s → s ≤ w2b n → Is p ((k : ℝ) / 2) → |k| + n ≤ 2 ^ 50 →
    logW2 up S2 fuel x2 p = .ok w →
    ∃ (s' : ℝ) (k' : ℤ), Is w.1 s' ∧ Is w.2 ((k' : ℝ) / 2) ∧ 0 < s' ∧ s' ≤ 6 / 5 ∧
      |k'| ≤ |k| + n ∧ Rel up s k s' k' := by
  intro fuel
  induction fuel with
  | zero => intro n x2 p s k w _ _ _ _ _ h; simp [logW2] at h
  | succ fuel ih =>
    intro n x2 p s k w hx hs hn hp hk h
    rw [logW2] at h
    by_cases h1 : Rop.lt (lit Cst.log2 : D) x2 = true
    · rw [if_pos h1] at h
      obtain ⟨t, ht, h⟩ := bind_ok.1 h
      have h2 := (lt_of_is is_log2 hx).1 h1
      have h3 : (9 / 8 : ℝ) < s := lt_trans (by norm_num [Cst.log2]) h2
      cases n with
      | zero => simp only [w2b] at hn; push_cast at hn; linarith
      | succ n =>
        push_cast at hk
        have hk2 : |k + 1| ≤ |k| + 1 := by
          have := abs_add_le k 1; simpa using this
        obtain ⟨s1, b1, b2, b3, b4⟩ := w2_step up (k := k) hx (by linarith) ht (rep_w2b n) (by
          have := w2b_succ n
          have : ((w2b (n + 1) : ℚ) : ℝ) ≤ ((7 / 5 * w2b n : ℚ) : ℝ) := by exact_mod_cast this
          push_cast at this; linarith)
        obtain ⟨s', k', a1, a2, a3, a4, a5, a6⟩ := ih n _ _ s1 (k + 1) w b1 (by linarith) b2
          (is_p_add hp is_half' (by linarith)) (by linarith) h
        exact ⟨s', k', a1, a2, a3, a4, by push_cast; linarith, b4.trans a6⟩
    · rw [if_neg h1] at h
      cases h
      rw [lt_of_is is_log2 hx, not_lt] at h1
      exact ⟨s, k, hx, hp, hs, le_trans h1 (by norm_num [Cst.log2]), by linarith, Rel.refl⟩

theorem logW4_spec (up : Bool) : ∀ (fuel n : ℕ) (x2 p : D) (s : ℝ) (k : ℤ) (w : D × D),
    Is x2 s → w4b n ≤ s → s ≤ 5 / 4 → Is p ((k : ℝ) / 2) → |k| + n ≤ 2 ^ 50 →
    logW4 up S2 fuel x2 p = .ok w →
    ∃ (s' : ℝ) (k' : ℤ), Is w.1 s' ∧ Is w.2 ((k' : ℝ) / 2) ∧ 1 / 2 ≤ s' ∧ s' ≤ 5 / 4 ∧
      |k'| ≤ |k| + n ∧ Rel up s k s' k' := by
  intro fuel
  induction fuel with
  | zero => intro n x2 p s k w _ _ _ _ _ h; simp [logW4] at h
  | succ fuel ih =>
    intro n x2 p s k w hx hn hs hp hk h
    have hh : (1 / 2 : ℝ) ≤ s := by
      have := w4b_half n
      have : ((1 / 2 : ℚ) : ℝ) ≤ ((w4b n : ℚ) : ℝ) := by exact_mod_cast this
      push_cast at this; linarith
    rw [logW4] at h
    by_cases h1 : Rop.lt x2 (lit Cst.log4 : D) = true
    · rw [if_pos h1] at h
      have h2 := (lt_of_is hx is_log4).1 h1
      have h3 : s < 5 / 6 := lt_trans h2 (by norm_num [Cst.log4])
      cases n with
      | zero => simp only [w4b] at hn; push_cast at hn; linarith
      | succ n =>
        push_cast at hk
        have hk2 : |k - 1| ≤ |k| + 1 := by
          have := abs_sub k 1; simpa using this
        obtain ⟨s1, b1, b2, b3, b4⟩ := w4_step up (k := k) hx (by linarith) h3.le (rep_w4b n) (by
          have := w4b_succ n
          have : ((w4b n : ℚ) : ℝ) ≤ ((141 / 100 * w4b (n + 1) : ℚ) : ℝ) := by exact_mod_cast this
          push_cast at this; linarith) (w4b_half n)
        obtain ⟨s', k', a1, a2, a3, a4, a5, a6⟩ := ih n _ _ s1 (k - 1) w b1 b2 b3
          (is_p_sub hp is_half' (by linarith)) (by linarith) h
        exact ⟨s', k', a1, a2, a3, a4, by push_cast; linarith, b4.trans a6⟩
    · rw [if_neg h1] at h
      cases h
      exact ⟨s, k, hx, hp, hh, hs, by linarith, Rel.refl⟩

/-! ## loops that do not end -/

/-- doubling a non-positive number leaves it non-positive -/
theorem mul_two_nonpos {x : D} (hn : ¬ nan x) (h : val x ≤ 0) :
    ¬ nan (Rop.mul x (lit 2)) ∧ val (Rop.mul x (lit 2)) ≤ 0 := by
  rw [Hw.lit_eq rep64_two]
  rcases D_cases x with h1 | rfl | rfl | ⟨q, hq, rfl⟩
  · exact absurd h1 hn
  · rw [inf_val.2] at h; simp at h
  · have : Rop.mul (Rop.neg Rop.inf : D) (Hw.fin 2 rep64_two) = (Rop.neg Rop.inf : D) := by decide +kernel
    rw [this]; exact ⟨hn, h⟩
  · have hq0 : q ≤ 0 := by
      have : ((q : ℝ) : EReal) ≤ 0 := h
      exact_mod_cast this
    have e : Rop.mul (Hw.fin q hq) (Hw.fin 2 rep64_two) = (Fl.round .near (q * 2) : Fl binary64) := rfl
    rw [e]
    rcases le_or_gt (-binary64.maxQ) (q * 2) with hq2 | hq2
    · obtain ⟨m, hm, e', -, h2⟩ := round_eq_fin .near Format.maxQ_rep.neg Format.rep_zero hq2
        (by linarith : q * 2 ≤ 0)
      rw [e']
      refine ⟨Hw.not_nan_fin _ hm, ?_⟩
      show ((m : ℝ) : EReal) ≤ 0
      exact_mod_cast h2
    · have h1 : binary64.roundQ .near (q * 2) ≤ -binary64.maxQ :=
        Format.roundQ_le_of_le .near Format.maxQ_rep.neg.repU hq2.le
      have hm : (0 : ℚ) < binary64.maxQ := Format.maxQ_pos
      unfold Fl.round Fl.pack
      split_ifs with h2 <;> first
        | (refine ⟨by rintro ⟨⟩, ?_⟩
           show (((_ : ℚ) : ℝ) : EReal) ≤ 0
           exact_mod_cast le_trans h1 (by linarith))
        | (rw [decide_eq_false (by linarith)]; exact ⟨by rintro ⟨⟩, bot_le⟩)

theorem logW3_diverge : ∀ (fuel : ℕ) (x2 p : D) (w : D × D), ¬ nan x2 → val x2 ≤ 0 →
    logW3 fuel x2 p ≠ .ok w := by
  intro fuel
  induction fuel with
  | zero => intro x2 p w _ _ h; simp [logW3] at h
  | succ fuel ih =>
    intro x2 p w hn h0 h
    rw [logW3, if_pos] at h
    · obtain ⟨a, b⟩ := mul_two_nonpos hn h0
      exact ih _ _ _ a b h
    · rw [lt_iff, is_log3.2]
      refine ⟨hn, is_log3.1, lt_of_le_of_lt h0 ?_⟩
      have : (0 : ℝ) < (Cst.log3 : ℚ) := by norm_num [Cst.log3]
      exact_mod_cast this

theorem logW1_diverge : ∀ (fuel : ℕ) (p : D) (w : D × D), logW1 fuel (Rop.inf : D) p ≠ .ok w := by
  intro fuel
  induction fuel with
  | zero => intro p w h; simp [logW1] at h
  | succ fuel ih =>
    intro p w h
    have e : Rop.mul (Rop.inf : D) half = (Rop.inf : D) := by decide +kernel
    rw [logW1, if_pos, e] at h
    · exact ih _ _ h
    · rw [lt_iff, is_log1.2]
      exact ⟨is_log1.1, inf_val.1, by rw [inf_val.2]; exact EReal.coe_lt_top _⟩

theorem logW1_skip {fuel : ℕ} {x2 p : D} {w : D × D} (h0 : val x2 ≤ 0)
    (h : logW1 fuel x2 p = .ok w) : w = (x2, p) := by
  cases fuel with
  | zero => simp [logW1] at h
  | succ fuel =>
    rw [logW1, if_neg] at h
    · cases h; rfl
    · rw [lt_iff, is_log1.2]
      rintro ⟨-, -, h2⟩
      have : ((Cst.log1 : ℚ) : ℝ) < 0 := by
        have := lt_of_lt_of_le h2 h0; exact_mod_cast this
      norm_num [Cst.log1] at this

theorem logW2_skip {up : Bool} {s2 : Interval D} {fuel : ℕ} {x2 p : D} {w : D × D} (h0 : val x2 ≤ 0)
    (h : logW2 up s2 fuel x2 p = .ok w) : w = (x2, p) := by
  cases fuel with
  | zero => simp [logW2] at h
  | succ fuel =>
    rw [logW2, if_neg] at h
    · cases h; rfl
    · rw [lt_iff, is_log2.2]
      rintro ⟨-, -, h2⟩
      have : ((Cst.log2 : ℚ) : ℝ) < 0 := by
        have := lt_of_lt_of_le h2 h0; exact_mod_cast this
      norm_num [Cst.log2] at this

/-! ## `log_point` -/

theorem hullSS_mem {T : Type} [RopSem T] {a b : T} {x y t : ℝ} (ha : Is a x) (hb : Is b y)
    (ht : t ∈ Set.uIcc x y) : t ∈ hullSS a b := by
  rw [Set.mem_uIcc] at ht
  unfold hullSS
  split_ifs with h
  · rw [lt_of_is ha hb] at h
    rcases ht with h1 | h1
    · exact ⟨ha.lo.mono h1.1, hb.hi.mono h1.2⟩
    · exact ⟨ha.lo.mono (by linarith), hb.hi.mono (by linarith)⟩
  · rw [lt_of_is ha hb, not_lt] at h
    rcases ht with h1 | h1
    · exact ⟨hb.lo.mono (by linarith), ha.hi.mono (by linarith)⟩
    · exact ⟨hb.lo.mono h1.1, ha.hi.mono h1.2⟩

theorem frexp_bound {x : D} {v : ℝ} (hx : Is x v) (h : 0 < v) :
    -2000 ≤ RopX.frexpE x ∧ RopX.frexpE x ≤ 2000 := by
  obtain ⟨r1, r2⟩ := pos_range hx h
  obtain ⟨q, hq, rfl, rfl⟩ := Hw.is_iff.1 hx
  have h : 0 < q := by exact_mod_cast h
  have r1 : q ≤ 2 ^ 1024 := by exact_mod_cast r1
  have r2 : 1 / 2 ^ 1074 ≤ q := by
    have : ((1 / 2 ^ 1074 : ℚ) : ℝ) ≤ q := by
      rw [Rat.cast_div, Rat.cast_one, Rat.cast_pow, Rat.cast_ofNat]; exact r2
    exact_mod_cast this
  have e : RopX.frexpE (Hw.fin q hq) = Int.log 2 q + 1 := by
    show (if q = 0 then 0 else Int.log 2 |q| + 1) = _
    rw [if_neg h.ne', abs_of_pos h]
  rw [e]
  have l1 := Int.zpow_log_le_self (b := 2) (by norm_num) h
  have l2 := Int.lt_zpow_succ_log_self (b := 2) (by norm_num) q
  push_cast at l1 l2
  have a1 : (2 : ℚ) ^ Int.log 2 q ≤ 2 ^ (1024 : ℤ) := by
    refine l1.trans (r1.trans_eq ?_)
    rw [show (1024 : ℤ) = ((1024 : ℕ) : ℤ) from rfl, zpow_natCast]
  have a2 : (2 : ℚ) ^ (-1074 : ℤ) < 2 ^ (Int.log 2 q + 1) := by
    refine lt_of_le_of_lt ?_ l2
    refine le_trans (le_of_eq ?_) r2
    rw [show (-1074 : ℤ) = -((1074 : ℕ) : ℤ) from rfl, zpow_neg, zpow_natCast, one_div]
  have b1 := (zpow_le_zpow_iff_right₀ (by norm_num : (1 : ℚ) < 2)).1 a1
  have b2 := (zpow_lt_zpow_iff_right₀ (by norm_num : (1 : ℚ) < 2)).1 a2
  constructor <;> omega

/-- the part of `log_point` after the scaling loops -/
theorem log_tail {x2 p : D} {s : ℝ} {k : ℤ} (hx : Is x2 s) (hp : Is p ((k : ℝ) / 2))
    (h1 : 1 / 2 ≤ s) (h2 : s ≤ 5 / 4) {fuel : ℕ} {C R L : Interval D}
    (hC : sDiv one (hullSS x2 one) = .ok C)
    (hR : logLoop (Rop.sub x2 one) C fuel 1 (point (lit 0)) (point (lit (-1))) (point (lit (-1))) = .ok R)
    (hL : constLn2 fuel = .ok L) : Real.log s + k / 2 * Real.log 2 ∈ add R (mulS L p) := by
  have hd := sub_one_spec hx h1 (by linarith)
  have e : 1 + (s - 1) = s := by ring
  refine add_mem ?_ (by rw [mul_comm]; exact mulS_mem (constLn2_mem hL) hp)
  have := logSeries_mem (fuel := fuel) hd (by rw [e]; linarith) (cinv := C) (Z := R) ?_ hR
  · rwa [e] at this
  · intro c hc
    rw [e, Set.uIcc_comm] at hc
    exact sDiv_mem hC (hullSS_mem hx is_one hc) is_one

/-- specification of `log_point` with outward rounding -/
theorem logPoint_spec {fuel : ℕ} {x : D} {up : Bool} {t : D} (hn : ¬ nan x) (h0 : 0 ≤ val x)
    (h : logPoint fuel x up = .ok t) :
    if up then ∀ c : ℝ, 0 < c → (c : EReal) ≤ val x → Hi t (Real.log c)
    else ∀ c : ℝ, 0 < c → val x ≤ c → Lo t (Real.log c) := by
  unfold logPoint at h
  obtain ⟨S, hS, h⟩ := bind_ok.1 h
  rw [sqrt_two_eq] at hS
  cases hS
  by_cases hinf : Rop.eq x Rop.inf = true
  · rw [if_pos hinf] at h
    obtain ⟨-, hv⟩ := eq_inf_iff.1 hinf
    cases h
    rw [hv]
    cases up with
    | true => exact fun c _ _ => hi_inf _
    | false => intro c _ hc; simp at hc
  rw [if_neg hinf] at h
  by_cases hz : Rop.eq x (lit 0) = true
  · rw [if_pos hz] at h
    have hv : val x = 0 := by rw [eq_iff, lit_zero.2] at hz; exact hz.2.2
    cases h
    rw [hv]
    cases up with
    | true =>
      intro c h1 h2
      have : c ≤ 0 := by exact_mod_cast h2
      linarith
    | false =>
      intro c _ _
      exact ⟨not_nan_neg_inf, by rw [show (if false = true then _ else _) = (Rop.neg Rop.inf : D) from rfl, val_neg_inf]; exact bot_le⟩
  rw [if_neg hz] at h
  -- `x` is a positive number `v`
  obtain ⟨v, hv⟩ : ∃ v : ℝ, Is x v := by
    rcases cases_val hn with hx | hx | hx
    · exact absurd (eq_inf_iff.2 ⟨hn, hx⟩) hinf
    · rw [hx] at h0; simp at h0
    · exact hx
  have v0 : 0 < v := by
    rw [hv.2] at h0
    have h0 : 0 ≤ v := by exact_mod_cast h0
    rcases h0.lt_or_eq with h1 | h1
    · exact h1
    · exact absurd ((eq_of_is hv is_zero).2 h1.symm) hz
  obtain ⟨pb1, pb2⟩ := frexp_bound hv v0
  set e := RopX.frexpE x
  obtain ⟨Q, hQ, h⟩ := bind_ok.1 h
  have hm : v * 2 ^ (-e) ∈ sMul x Q := sMul_mem (powInt_mem hQ (point_mem is_two)) hv
  have vz : 0 < v * (2 : ℝ) ^ (-e) := mul_pos v0 (by positivity)
  have hlv : Real.log (v * (2 : ℝ) ^ (-e)) + e * Real.log 2 = Real.log v := by
    rw [Real.log_mul v0.ne' (by positivity), Real.log_zpow]; push_cast; ring
  have hpe : Is (lit (e : ℚ) : D) (((2 * e : ℤ) : ℝ) / 2) := by
    have := Is.lit_int (T := D) e (by rw [abs_le]; constructor <;> linarith)
    convert this using 1; push_cast; ring
  dsimp only at h
  generalize sMul x Q = I at h hm
  obtain ⟨w1, hw1, h⟩ := bind_ok.1 h
  obtain ⟨w2, hw2, h⟩ := bind_ok.1 h
  obtain ⟨w3, hw3, h⟩ := bind_ok.1 h
  obtain ⟨w4, hw4, h⟩ := bind_ok.1 h
  obtain ⟨C, hC, h⟩ := bind_ok.1 h
  obtain ⟨R, hR, h⟩ := bind_ok.1 h
  obtain ⟨L, hL, h⟩ := bind_ok.1 h
  cases h
  -- the start value is a positive number
  have start : ∃ s : ℝ, Is (if up then I.sup else I.inf) s ∧ 0 < s ∧
      (if up then v * (2 : ℝ) ^ (-e) ≤ s else s ≤ v * (2 : ℝ) ^ (-e)) := by
    cases up with
    | true =>
      simp only [if_true] at hw1 ⊢
      rcases cases_val hm.2.1 with hx | hx | ⟨s, hs⟩
      · rcases D_cases I.sup with h | h | h | ⟨q, hq, h⟩
        · exact absurd h hm.2.1
        · rw [h] at hw1; exact absurd hw1 (logW1_diverge _ _ _)
        · rw [h, val_neg_inf] at hx; cases hx
        · rw [h] at hx; simp at hx
      · exact absurd hx hm.2.ne_bot
      · have : v * (2 : ℝ) ^ (-e) ≤ s := by have := hm.2.2; rw [hs.2] at this; exact_mod_cast this
        exact ⟨s, hs, by linarith, this⟩
    | false =>
      simp only [Bool.false_eq_true, if_false] at hw1 hw2 ⊢
      by_cases hneg : val I.inf ≤ 0
      · have e1 := logW1_skip hneg hw1
        subst e1
        have e2 := logW2_skip hneg hw2
        subst e2
        exact absurd hw3 (logW3_diverge _ _ _ _ hm.1.1 hneg)
      · rcases cases_val hm.1.1 with hx | hx | ⟨s, hs⟩
        · exact absurd hx hm.1.ne_top
        · rw [hx] at hneg; simp at hneg
        · have : s ≤ v * (2 : ℝ) ^ (-e) := by have := hm.1.2; rw [hs.2] at this; exact_mod_cast this
          refine ⟨s, hs, ?_, this⟩
          rw [hs.2] at hneg
          rw [not_le] at hneg
          exact_mod_cast hneg
  obtain ⟨s, hs, s0, hsr⟩ := start
  have ke : |2 * e| ≤ 4000 := by rw [abs_le]; constructor <;> linarith
  obtain ⟨s1, k1, i1, j1, p1, b1, c1, r1⟩ := logW1_spec up fuel 1024 _ _ s (2 * e) w1 hs s0
    (pos_range hs s0).1 hpe (by push_cast; linarith) hw1
  push_cast at c1
  obtain ⟨s2, k2, i2, j2, p2, b2, c2, r2⟩ := logW2_spec up fuel 2 _ _ s1 k1 w2 i1 p1
    (by simp only [w2b]; push_cast; linarith) j1 (by push_cast; linarith) hw2
  push_cast at c2
  obtain ⟨s3, k3, i3, j3, p3, b3, c3, r3⟩ := logW3_spec up fuel 1074 _ _ s2 k2 w3 i2
    (pos_range i2 p2).2 b2 j2 (by push_cast; linarith) hw3
  push_cast at c3
  obtain ⟨s4, k4, i4, j4, p4, b4, c4, r4⟩ := logW4_spec up fuel 2 _ _ s3 k3 w4 i3
    (by simp only [w4b]; push_cast; linarith) (by linarith) j3 (by push_cast; linarith) hw4
  have tail := log_tail i4 j4 p4 b4 hC hR hL
  have rel := ((r1.trans r2).trans r3).trans r4
  unfold Rel at rel
  push_cast at rel
  cases up with
  | true =>
    simp only [if_true] at hsr rel ⊢
    intro c hc hcx
    rw [hv.2] at hcx
    have hcv : c ≤ v := by exact_mod_cast hcx
    refine tail.2.mono ?_
    have l1 := Real.log_le_log hc hcv
    have l2 := Real.log_le_log vz hsr
    linarith
  | false =>
    simp only [Bool.false_eq_true, if_false] at hsr rel ⊢
    intro c hc hcx
    rw [hv.2] at hcx
    have hcv : v ≤ c := by exact_mod_cast hcx
    refine tail.1.mono ?_
    have l1 := Real.log_le_log v0 hcv
    have l2 := Real.log_le_log s0 hsr
    linarith

theorem log_mem {fuel : ℕ} {X Z : Interval D} {x : ℝ} (h : log fuel X = .ok Z) (hx : x ∈ X)
    (h0 : 0 < x) : Real.log x ∈ Z := by
  unfold log at h
  by_cases hd : Rop.lt X.inf (lit 0) = true
  · rw [if_pos hd] at h; cases h
  rw [if_neg hd] at h
  obtain ⟨a, ha, h⟩ := bind_ok.1 h
  obtain ⟨b, hb, h⟩ := bind_ok.1 h
  cases h
  have h1 : 0 ≤ val X.inf := by
    rw [lt_zero_right] at hd
    by_contra hc; exact hd ⟨hx.1.1, not_le.1 hc⟩
  have h2 : 0 ≤ val X.sup := by
    refine le_trans ?_ hx.2.2; exact_mod_cast h0.le
  exact ⟨logPoint_spec (up := false) hx.1.1 h1 ha x h0 hx.1.2,
    logPoint_spec (up := true) hx.2.1 h2 hb x h0 hx.2.2⟩

/-! ## `log1p` -/

theorem is_log1p : Is (lit Cst.log1p : D) (Cst.log1p : ℚ) :=
  is_cst 386347768529971 (-51) (by norm_num) (by norm_num) (by norm_num) (by norm_num [Cst.log1p])
theorem is_neg_log1p : Is (lit (-Cst.log1p) : D) ((-Cst.log1p : ℚ)) :=
  is_cst (-386347768529971) (-51) (by norm_num) (by norm_num) (by norm_num) (by norm_num [Cst.log1p])

theorem log1pOrigin_mem {fuel : ℕ} {x : D} {c : ℝ} {Z : Interval D} (hx : Is x c) (hc : 0 < 1 + c)
    (h : log1pOrigin fuel x = .ok Z) : Real.log (1 + c) ∈ Z := by
  unfold log1pOrigin at h
  obtain ⟨C, hC, h⟩ := bind_ok.1 h
  refine logSeries_mem hx hc (fun t ht => ?_) h
  refine sDiv_mem hC (hullS_mem ?_ is_one ht) is_one
  have := sAdd_mem (point_mem (T := D) is_one) hx
  rwa [add_comm] at this

theorem log1pPoint_spec {fuel : ℕ} {x : D} {up : Bool} {t : D} (hn : ¬ nan x) (h0 : (-1 : ℝ) ≤ val x)
    (h : log1pPoint fuel x up = .ok t) :
    if up then ∀ c : ℝ, -1 < c → (c : EReal) ≤ val x → Hi t (Real.log (1 + c))
    else ∀ c : ℝ, -1 < c → val x ≤ c → Lo t (Real.log (1 + c)) := by
  unfold log1pPoint at h
  by_cases hb : (Rop.le (lit (-Cst.log1p)) x && Rop.le x (lit Cst.log1p)) = true
  · rw [if_pos hb] at h
    obtain ⟨R, hR, h⟩ := bind_ok.1 h
    cases h
    rw [Bool.and_eq_true, le_iff, le_iff, is_log1p.2, is_neg_log1p.2] at hb
    obtain ⟨⟨-, -, h1⟩, -, -, h2⟩ := hb
    rcases cases_val hn with hx | hx | ⟨v, hx⟩
    · rw [hx] at h2; simp at h2
    · rw [hx] at h1; simp at h1
    rw [hx.2, EReal.coe_le_coe_iff] at h1
    have v1 : 0 < 1 + v := by
      have : (-1 : ℝ) < ((-Cst.log1p : ℚ) : ℝ) := by norm_num [Cst.log1p]
      linarith
    have m := log1pOrigin_mem hx v1 hR
    rw [hx.2]
    cases up with
    | true =>
      intro c hc hcv
      have hcv : c ≤ v := by exact_mod_cast hcv
      exact m.2.mono (Real.log_le_log (by linarith) (by linarith))
    | false =>
      intro c hc hcv
      have hcv : v ≤ c := by exact_mod_cast hcv
      exact m.1.mono (Real.log_le_log v1 (by linarith))
  · rw [if_neg hb] at h
    dsimp only at h
    cases up with
    | true =>
      intro c hc hcv
      have hh : Hi (sAdd x (point one) : Interval D).sup (c + 1) := Hi.add ⟨hn, hcv⟩ is_one.hi
      have h3 : 0 ≤ val (sAdd x (point one) : Interval D).sup := by
        refine le_trans ?_ hh.2
        have : 0 ≤ c + 1 := by linarith
        exact_mod_cast this
      have := logPoint_spec (up := true) hh.1 h3 h (c + 1) (by linarith) hh.2
      rwa [add_comm] at this
    | false =>
      intro c hc hcv
      have hh : Lo (sAdd x (point one) : Interval D).inf (c + 1) := Lo.add ⟨hn, hcv⟩ is_one.lo
      have h3 : 0 ≤ val (sAdd x (point one) : Interval D).inf := by
        have h4 := Fl.add_down_isDown (F := binary64) (x := x) (y := Fl.fin 1 Format.rep_one) hn
          (by simp) (by rw [Fl.toE_fin]; rintro ⟨-, h⟩; exact EReal.coe_ne_bot _ h)
          (by rw [Fl.toE_fin]; rintro ⟨-, h⟩; exact EReal.coe_ne_top _ h)
        have h5 := h4.2.2 (Fl.fin 0 Format.rep_zero) (by simp) (by
          have h0 : ((-1 : ℝ) : EReal) ≤ Fl.toE x := h0
          have := add_le_add_left h0 ((1 : ℝ) : EReal)
          rw [← EReal.coe_add] at this
          simpa using this)
        have e : (sAdd x (point one) : Interval D).inf =
            Fl.neg (Fl.add .up (Fl.neg x) (Fl.neg (Fl.fin 1 Format.rep_one))) := by
          show Rop.addDown x (lit 1) = _
          rw [Hw.lit_eq Format.rep_one]; rfl
        rw [e]
        have e0 : Fl.toE (Fl.fin 0 Format.rep_zero : Fl binary64) = 0 := by simp
        rw [e0] at h5
        exact h5
      have := logPoint_spec (up := false) hh.1 h3 h (c + 1) (by linarith) hh.2
      rwa [add_comm] at this

theorem log1p_mem {fuel : ℕ} {X Z : Interval D} {x : ℝ} (h : log1p fuel X = .ok Z) (hx : x ∈ X)
    (h0 : -1 < x) : Real.log (1 + x) ∈ Z := by
  unfold log1p at h
  by_cases hd : Rop.lt X.inf (lit (-1)) = true
  · rw [if_pos hd] at h; cases h
  rw [if_neg hd] at h
  obtain ⟨a, ha, h⟩ := bind_ok.1 h
  obtain ⟨b, hb, h⟩ := bind_ok.1 h
  cases h
  have h1 : ((-1 : ℝ) : EReal) ≤ val X.inf := by
    rw [lt_iff, is_neg_one.2] at hd
    by_contra hc; exact hd ⟨hx.1.1, is_neg_one.1, not_le.1 hc⟩
  have h2 : ((-1 : ℝ) : EReal) ≤ val X.sup := by
    refine le_trans ?_ hx.2.2; exact_mod_cast h0.le
  exact ⟨log1pPoint_spec (up := false) hx.1.1 h1 ha x h0 hx.1.2,
    log1pPoint_spec (up := true) hx.2.1 h2 hb x h0 hx.2.2⟩

/-! ## `pow(x, y)` -/

theorem exp_mem {fuel : ℕ} {X Z : Interval D} {x : ℝ} (h : exp fuel X = .ok Z) (hx : x ∈ X) :
    Real.exp x ∈ Z := by
  unfold exp at h
  obtain ⟨a, ha, h⟩ := bind_ok.1 h
  obtain ⟨b, hb, h⟩ := bind_ok.1 h
  cases h
  exact PtEnc.join hx (expPoint_enc hx.1.1 ha) (expPoint_enc hx.2.1 hb)

theorem pow_mem {fuel : ℕ} {X Y Z : Interval D} {x y : ℝ} (h : pow fuel X Y = .ok Z) (hx : x ∈ X)
    (hy : y ∈ Y) (h0 : 0 < x) : x ^ y ∈ Z := by
  unfold pow at h
  obtain ⟨L, hL, h⟩ := bind_ok.1 h
  have := exp_mem h (mul_mem hy (log_mem hL hx h0))
  rwa [Real.rpow_def_of_pos h0, mul_comm]

end Interval
end Kv
