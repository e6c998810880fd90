import Verif.Interval.ElemSin

/-!
# C47, C48: elementary functions that never return

`log` and `sin`/`cos` contain loops without an iteration limit.  For some finite arguments inside
the domain these loops do not end.  `outOfFuel` for *every* amount of fuel is an infinite loop.
-/

namespace Kv
open RopSem Kv.Interval
open Rop (lit)

namespace Interval

/-- the third loop of `log_point` (`while (x2 < 2-√2) x2 *= 2`) started from zero runs for ever -/
theorem logW3_zero : ∀ (fuel : ℕ) (p : D), logW3 fuel (lit 0 : D) p = .error .outOfFuel := by
  intro fuel
  induction fuel with
  | zero => intro p; rfl
  | succ fuel ih =>
    intro p
    rw [logW3, if_pos (by decide +kernel), show Rop.mul (lit 0 : D) two = lit 0 by decide +kernel]
    exact ih _

theorem logW1_inf : ∀ (fuel : ℕ) (p : D), logW1 fuel (Rop.inf : D) p = .error .outOfFuel := by
  intro fuel
  induction fuel with
  | zero => intro p; rfl
  | succ fuel ih =>
    intro p
    rw [logW1, if_pos (by decide +kernel), show Rop.mul (Rop.inf : D) half = Rop.inf by decide +kernel]
    exact ih _

theorem frexp_of_bounds {q : ℚ} {hq : binary64.Rep q} {e : ℤ} (h1 : 2 ^ (e - 1) ≤ q) (h2 : q < 2 ^ e) :
    RopX.frexpE (Hw.fin q hq) = e := by
  have h0 : 0 < q := lt_of_lt_of_le (by positivity) h1
  have e1 : RopX.frexpE (Hw.fin q hq) = Int.log 2 q + 1 := by
    show (if q = 0 then 0 else Int.log 2 |q| + 1) = _
    rw [if_neg h0.ne', abs_of_pos h0]
  rw [e1]
  have a1 : e - 1 ≤ Int.log 2 q := (Int.zpow_le_iff_le_log (by norm_num) h0).1 (by exact_mod_cast h1)
  have a2 : Int.log 2 q < e := (Int.lt_zpow_iff_log_lt (by norm_num) h0).1 (by exact_mod_cast h2)
  omega

set_option maxRecDepth 100000 in
theorem pow_two_neg_1024 : (powInt (point two) (-1024) : Res (Interval D)) =
    .ok ⟨lit 0, lit (1125899906842625 / 2 ^ 1074)⟩ := by decide +kernel

set_option maxRecDepth 100000 in
theorem pow_two_big : ∀ i : Fin 51, (powInt (point two) ((1024 + i.val : ℕ) : ℤ) : Res (Interval D)) =
    .ok ⟨Rop.maxv, Rop.inf⟩ := by decide +kernel

theorem mulDown_zero {q : ℚ} (hq : binary64.Rep q) : Rop.mulDown (Hw.fin q hq) (lit 0 : D) = lit 0 := by
  have e : (lit 0 : D) = (Fl.zero : Fl binary64) := by
    show Fl.round .near 0 = _
    exact (by decide +kernel : (Fl.round .near 0 : Fl binary64) = Fl.zero)
  rw [e]
  show Fl.neg (Fl.mul .up (Fl.neg (Fl.fin q hq)) (Fl.fin 0 _)) = Fl.zero
  simp only [Fl.neg, Fl.mul, mul_zero]
  decide +kernel

theorem mulUp_inf {q : ℚ} (hq : binary64.Rep q) (h0 : 0 < q) :
    Rop.mulUp (Hw.fin q hq) (Rop.inf : D) = Rop.inf := by
  show Fl.mul .up (Fl.fin q hq) Fl.pinf = Fl.pinf
  simp [Fl.mul, Fl.infOfSign, Fl.sgn, h0]

theorem not_special {q : ℚ} (hq : binary64.Rep q) (h0 : 0 < q) :
    ¬ Rop.eq (Hw.fin q hq) (Rop.inf : D) = true ∧ ¬ Rop.eq (Hw.fin q hq) (lit 0 : D) = true ∧
      Rop.lt (lit 0 : D) (Hw.fin q hq) = true := by
  have hx : Is (Hw.fin q hq) (q : ℝ) := Hw.is_iff.2 ⟨q, hq, rfl, rfl⟩
  have h0' : (0 : ℝ) < q := by exact_mod_cast h0
  refine ⟨fun h => ?_, fun h => ?_, (lt_of_is is_zero hx).2 h0'⟩
  · have := (eq_inf_iff.1 h).2; rw [hx.2] at this; exact EReal.coe_ne_top _ this
  · exact h0'.ne' ((eq_of_is hx is_zero).1 h)

theorem ok_bind {α β : Type} (a : α) (f : α → Res β) : ((Except.ok a : Res α) >>= f) = f a := rfl
theorem err_bind {α β : Type} (e : Err) (f : α → Res β) : ((Except.error e : Res α) >>= f) = .error e := rfl

theorem logPoint_huge {x : D} {c : ℝ} (hx : Is x c) (h : 2 ^ 1023 ≤ c) (fuel : ℕ) :
    logPoint fuel x false = .error .outOfFuel := by
  obtain ⟨q, hq, rfl, rfl⟩ := Hw.is_iff.1 hx
  have h1 : (2 : ℚ) ^ 1023 ≤ q := by exact_mod_cast h
  have h0 : 0 < q := lt_of_lt_of_le (by positivity) h1
  have h2 : q < 2 ^ (1024 : ℤ) := by
    refine lt_of_le_of_lt ((le_abs_self q).trans hq.abs_le) ?_
    decide +kernel
  obtain ⟨s1, s2, s3⟩ := not_special hq h0
  have e : RopX.frexpE (Hw.fin q hq) = 1024 := by
    refine frexp_of_bounds ?_ h2
    rw [show (1024 - 1 : ℤ) = ((1023 : ℕ) : ℤ) by norm_num, zpow_natCast]; exact h1
  have ht : sMul (Hw.fin q hq) (⟨lit 0, lit (1125899906842625 / 2 ^ 1074)⟩ : Interval D) =
      ⟨lit 0, Rop.mulUp (Hw.fin q hq) (lit (1125899906842625 / 2 ^ 1074))⟩ := by
    unfold sMul; rw [if_pos s3]; dsimp only; rw [mulDown_zero]
  unfold logPoint
  rw [sqrt_two_eq, ok_bind, if_neg s1, if_neg s2]
  dsimp only
  rw [e, pow_two_neg_1024, ok_bind, ht, if_neg (by decide)]
  cases fuel with
  | zero => rfl
  | succ f =>
    rw [logW1, if_neg (show ¬ Rop.lt (lit Cst.log1) (lit 0 : D) = true by decide +kernel), ok_bind,
      logW2, if_neg (show ¬ Rop.lt (lit Cst.log2) (lit 0 : D) = true by decide +kernel), ok_bind,
      logW3_zero, err_bind]

theorem logPoint_tiny {x : D} {c : ℝ} (hx : Is x c) (h0 : 0 < c) (h : c < 1 / 2 ^ 1024) (fuel : ℕ) :
    logPoint fuel x true = .error .outOfFuel := by
  have hr := (pos_range hx h0).2
  obtain ⟨q, hq, rfl, rfl⟩ := Hw.is_iff.1 hx
  have h0 : 0 < q := by exact_mod_cast h0
  obtain ⟨s1, s2, s3⟩ := not_special hq h0
  have hr' : (1 / 2 ^ 1074 : ℚ) ≤ q := by
    have : (((1 / 2 ^ 1074 : ℚ) : ℚ) : ℝ) ≤ q := by push_cast; exact hr
    exact_mod_cast this
  have h' : q < (1 / 2 ^ 1024 : ℚ) := by
    have : (q : ℝ) < (((1 / 2 ^ 1024 : ℚ) : ℚ) : ℝ) := by push_cast; exact h
    exact_mod_cast this
  obtain ⟨i, hi⟩ : ∃ i : Fin 51, - RopX.frexpE (Hw.fin q hq) = ((1024 + i.val : ℕ) : ℤ) := by
    have e1 : RopX.frexpE (Hw.fin q hq) = Int.log 2 q + 1 := by
      show (if q = 0 then 0 else Int.log 2 |q| + 1) = _
      rw [if_neg h0.ne', abs_of_pos h0]
    have a1 : -1074 ≤ Int.log 2 q := by
      refine (Int.zpow_le_iff_le_log (b := 2) (by norm_num) h0).1 ?_
      rw [zpow_neg, ← one_div]; exact_mod_cast hr'
    have a2 : Int.log 2 q < -1024 := by
      refine (Int.lt_zpow_iff_log_lt (b := 2) (by norm_num) h0).1 ?_
      rw [zpow_neg, ← one_div]; exact_mod_cast h'
    exact ⟨⟨(-(Int.log 2 q) - 1025).toNat, by omega⟩, by rw [e1]; push_cast; omega⟩
  have ht : (sMul (Hw.fin q hq) (⟨Rop.maxv, Rop.inf⟩ : Interval D)).sup = Rop.inf := by
    unfold sMul; rw [if_pos s3]; exact mulUp_inf hq h0
  unfold logPoint
  rw [sqrt_two_eq, ok_bind, if_neg s1, if_neg s2]
  dsimp only
  rw [hi, pow_two_big, ok_bind, if_pos rfl, ht, logW1_inf, err_bind]

set_option maxRecDepth 100000 in
/-- two range-reduction steps from `DBL_MAX` lead to a lower bound `-∞`, the third to NaN -/
theorem reduce_max {fuel : ℕ} {R : Interval D} (h : reduce P0.sup (mulS P0 two) fuel (point Rop.maxv) = .ok R) :
    R.inf = NN := by
  match fuel with
  | 0 => simp [reduce] at h
  | 1 => rw [reduce, if_pos (by decide +kernel)] at h; simp [reduce] at h
  | 2 =>
    rw [reduce, if_pos (by decide +kernel)] at h
    dsimp only at h
    rw [reduce, if_pos (by decide +kernel)] at h; simp [reduce] at h
  | f + 3 =>
    rw [reduce, if_pos (by decide +kernel)] at h
    dsimp only at h
    rw [reduce, if_pos (by decide +kernel)] at h
    dsimp only at h
    rw [reduce, if_neg (by decide +kernel)] at h
    cases h
    decide +kernel

theorem width_NN {R : Interval D} {b : D} (h : R.inf = NN) :
    ¬ Rop.le b (subS (point R.sup) R.inf).inf = true := by
  have e : (subS (point R.sup) R.inf).inf = NN := by
    show Rop.subDown R.sup R.inf = NN
    rw [h]
    rcases D_cases R.sup with h1 | h1 | h1 | ⟨q, hq, h1⟩
    · rw [nan_eq h1]; decide +kernel
    · rw [h1]; decide +kernel
    · rw [h1]; decide +kernel
    · rw [h1]; rfl
  rw [e, le_iff]
  exact fun h => h.2.1 nan_NN

end Interval

/-- C47 (violated): for every interval of doubles whose lower endpoint is finite and at least
`2^1023`, `log` runs for ever. -/
theorem C47_log_huge_hangs {X : Interval D} {c : ℝ} (hX : ¬ nan X.inf ∧ val X.inf = c)
    (hc : 2 ^ 1023 ≤ c) (fuel : ℕ) : log fuel X = .error .outOfFuel := by
  unfold log
  rw [if_neg, logPoint_huge hX hc]; · rfl
  rw [lt_of_is hX is_zero]
  exact not_lt.2 ((by positivity : (0 : ℝ) ≤ 2 ^ 1023).trans hc)

/-- C47 (violated): for every interval `[0, c]` of doubles with `0 < c < 2^-1024`, `log` runs for
ever. -/
theorem C47_log_tiny_hangs {X : Interval D} {c : ℝ} (hX : ¬ nan X.inf ∧ val X.inf = (0 : ℝ))
    (hX' : ¬ nan X.sup ∧ val X.sup = c) (h0 : 0 < c) (hc : c < 1 / 2 ^ 1024) (fuel : ℕ) :
    log fuel X = .error .outOfFuel := by
  have hl : logPoint fuel X.inf false = .ok (Rop.neg Rop.inf) := by
    unfold logPoint
    rw [sqrt_two_eq, ok_bind, if_neg, if_pos]; · rfl
    · exact (eq_of_is hX is_zero).2 rfl
    · rw [eq_inf_iff, hX.2]; rintro ⟨-, h⟩; exact EReal.coe_ne_top _ h
  unfold log
  rw [if_neg, hl]
  · show (do let b ← logPoint fuel X.sup true; _ : Res (Interval D)) = _
    rw [logPoint_tiny hX' h0 hc]; rfl
  · rw [lt_of_is hX is_zero]; exact lt_irrefl _

/-- `[DBL_MAX, DBL_MAX]` is such an interval -/
example : ∃ c : ℝ, (¬ nan (Rop.maxv : D) ∧ val (Rop.maxv : D) = c) ∧ 2 ^ 1023 ≤ c := by
  have e : (Rop.maxv : D) = lit binary64.maxQ := by decide +kernel
  have hr : binary64.Rep binary64.maxQ := by decide +kernel
  have : Is (Rop.maxv : D) (binary64.maxQ : ℝ) := by
    rw [e, Hw.lit_eq hr]; exact Hw.is_iff.2 ⟨_, hr, rfl, rfl⟩
  refine ⟨_, this, ?_⟩
  have : (2 : ℚ) ^ 1023 ≤ binary64.maxQ := by decide +kernel
  exact_mod_cast this

/-- C47: `log` does return for ordinary arguments, and just below the bad range -/
example : (log 100 (point (lit 2)) : Res (Interval D)).isOk = true := by
  set_option maxRecDepth 100000 in decide +kernel

/-- C48 (violated): `sin` and `cos` of the largest finite double return nothing, however long one
waits. -/
theorem C48_sin_max_never_returns (fuel : ℕ) (Z : Interval D) :
    sin fuel (point Rop.maxv) ≠ .ok Z ∧ cos fuel (point Rop.maxv) ≠ .ok Z := by
  refine ⟨fun h => ?_, fun h => ?_⟩
  · unfold sin at h
    obtain ⟨P, hP, h⟩ := bind_ok.1 h
    rw [constPi_eq hP] at h
    rw [if_neg (by decide +kernel), if_neg (by decide +kernel)] at h
    obtain ⟨R, hR, h⟩ := bind_ok.1 h
    have hR := reduce_max hR
    rw [if_neg] at h
    · obtain ⟨A, hA, h⟩ := bind_ok.1 h
      rw [hR] at hA
      exact sinPoint_NN hA
    · exact width_NN hR
  · unfold cos at h
    obtain ⟨P, hP, h⟩ := bind_ok.1 h
    rw [constPi_eq hP] at h
    rw [if_neg (by decide +kernel), if_neg (by decide +kernel)] at h
    obtain ⟨R, hR, h⟩ := bind_ok.1 h
    have hR := reduce_max hR
    rw [if_neg (width_NN hR)] at h
    obtain ⟨A, hA, h⟩ := bind_ok.1 h
    rw [hR] at hA
    exact cosPoint_NN hA

end Kv
