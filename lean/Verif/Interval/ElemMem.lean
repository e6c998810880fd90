import Verif.Interval.Elem
import Verif.Interval.DivPow
import Verif.Analysis.Taylor
import Mathlib.Analysis.SpecialFunctions.Trigonometric.Arctan
import Mathlib.Analysis.Complex.ExponentialBounds

/-! # Helper lemmas: the series loops of the elementary functions enclose their limits -/

namespace Kv
open RopSem Finset
open Rop (lit)

/-- The scalar `a` is the real number `c`. -/
abbrev Is {T : Type} [RopSem T] (a : T) (c : ℝ) : Prop := ¬ nan a ∧ val a = (c : EReal)

/-- Laws of the additional operations used by the elementary functions. -/
class RopXSem (T : Type) [RopSem T] [RopX T] : Prop where
  /-- integers up to `2^31`, also divided by 2, 4, 8, 16, are converted exactly -/
  lit_exact : ∀ (m : ℤ) (k : ℕ), |m| ≤ 2 ^ 31 → k ≤ 4 →
    Is (lit ((m : ℚ) / 2 ^ k) : T) ((m : ℝ) / 2 ^ k)
  toNat_some : ∀ (a : T) (n : ℕ), RopX.toNat a = some n → Is a n
  strUp_spec : ∀ q : ℚ, Hi (RopX.strUp q : T) q
  strDown_spec : ∀ q : ℚ, Lo (RopX.strDown q : T) q

theorem Is.lo {T : Type} [RopSem T] {a : T} {c : ℝ} (h : Is a c) : Lo a c := ⟨h.1, h.2.le⟩
theorem Is.hi {T : Type} [RopSem T] {a : T} {c : ℝ} (h : Is a c) : Hi a c := ⟨h.1, h.2.ge⟩

theorem bind_ok {α β : Type} {x : Res α} {f : α → Res β} {b : β} :
    (x >>= f) = .ok b ↔ ∃ a, x = .ok a ∧ f a = .ok b := by
  cases x with
  | error e => simp [bind, Except.bind]
  | ok a => simp [bind, Except.bind]

theorem map_ok {α β : Type} {x : Res α} {f : α → β} {b : β} :
    x.map f = .ok b ↔ ∃ a, x = .ok a ∧ f a = b := by
  cases x with
  | error e => simp [Except.map]
  | ok a => simp [Except.map]

namespace Interval
variable {T : Type} [RopSem T] [RopX T] [RopXSem T]
set_option linter.unusedSectionVars false

theorem Is.lit_int (m : ℤ) (h : |m| ≤ 2 ^ 31) : Is (lit (m : ℚ) : T) m := by
  have := RopXSem.lit_exact (T := T) m 0 h (by norm_num)
  simpa using this

theorem Is.lit_nat {n : ℕ} (h : n ≤ 2 ^ 31) : Is (lit (n : ℚ) : T) n := by
  have := Is.lit_int (T := T) (n : ℤ) (by rw [abs_of_nonneg (by positivity)]; exact_mod_cast h)
  simpa using this

theorem add_mem {X Y : Interval T} {x y : ℝ} (hx : x ∈ X) (hy : y ∈ Y) : x + y ∈ add X Y :=
  ⟨hx.1.add hy.1, hx.2.add hy.2⟩
theorem sub_mem {X Y : Interval T} {x y : ℝ} (hx : x ∈ X) (hy : y ∈ Y) : x - y ∈ sub X Y :=
  ⟨hx.1.sub hy.2, hx.2.sub hy.1⟩
theorem neg_mem {X : Interval T} {x : ℝ} (hx : x ∈ X) : -x ∈ neg X := ⟨hx.2.neg, hx.1.neg⟩
theorem addS_mem {X : Interval T} {k : T} {x c : ℝ} (hx : x ∈ X) (hk : Is k c) :
    x + c ∈ addS X k := ⟨hx.1.add hk.lo, hx.2.add hk.hi⟩
theorem sAdd_mem {X : Interval T} {k : T} {x c : ℝ} (hx : x ∈ X) (hk : Is k c) :
    c + x ∈ sAdd k X := ⟨hk.lo.add hx.1, hk.hi.add hx.2⟩
theorem subS_mem {X : Interval T} {k : T} {x c : ℝ} (hx : x ∈ X) (hk : Is k c) :
    x - c ∈ subS X k := ⟨hx.1.sub hk.hi, hx.2.sub hk.lo⟩
theorem sSub_mem {X : Interval T} {k : T} {x c : ℝ} (hx : x ∈ X) (hk : Is k c) :
    c - x ∈ sSub k X := ⟨hk.lo.sub hx.2, hk.hi.sub hx.1⟩

theorem is_zero : Is (lit 0 : T) 0 := ⟨lit_zero.1, by rw [lit_zero.2]; simp⟩
theorem is_one : Is (lit 1 : T) 1 := ⟨lit_one.1, by rw [lit_one.2]; simp⟩
theorem is_half : Is (lit (1 / 2) : T) (1 / 2) := lit_half
theorem is_two : Is (lit 2 : T) 2 := by
  have := Is.lit_nat (T := T) (n := 2) (by norm_num); simpa using this
theorem is_neg_one : Is (lit (-1) : T) (-1) := by
  have := Is.lit_int (T := T) (-1) (by norm_num); simpa using this

theorem unit_mem {r : ℝ} (h1 : -1 ≤ r) (h2 : r ≤ 1) : r ∈ (⟨lit (-1), one⟩ : Interval T) :=
  ⟨is_neg_one.lo.mono h1, is_one.hi.mono h2⟩

/-! ## `e` -/

theorem exp_one_lt : Real.exp 1 < 271828182845904524 / 100000000000000000 := by
  obtain ⟨r, h1, h2, e⟩ := exp_taylor_one 22
  have h3 := Real.exp_one_lt_d9
  rw [e]
  have : (1 : ℝ) / (Nat.factorial 22 : ℝ) * r ≤ 1 / (Nat.factorial 22 : ℝ) * 2.7182818286 := by
    apply mul_le_mul_of_nonneg_left (h2.trans h3.le); positivity
  refine lt_of_le_of_lt (add_le_add le_rfl this) ?_
  simp only [sum_range_succ, sum_range_zero, Nat.factorial]
  norm_num

theorem eLoop_mem {rem : Interval T} (hrem : ∀ r : ℝ, 1 ≤ r → r ≤ Real.exp 1 → r ∈ rem) :
    ∀ (fuel i : ℕ) (R Y Z : Interval T), 1 ≤ i → i ≤ intMax →
      (∑ k ∈ range i, 1 / (k.factorial : ℝ)) ∈ R → 1 / ((i - 1).factorial : ℝ) ∈ Y →
      eLoop rem fuel i R Y = .ok Z → Real.exp 1 ∈ Z := by
  intro fuel
  induction fuel with
  | zero => intro i R Y Z _ _ _ _ h; simp [eLoop] at h
  | succ fuel ih =>
    intro i R Y Z hi hi' hR hY h
    rw [eLoop] at h
    split_ifs at h with h1
    obtain ⟨Y', hY', h⟩ := bind_ok.1 h
    have y' : 1 / (i.factorial : ℝ) ∈ Y' := by
      have := divS_mem hY' hY (Is.lit_nat (T := T) (n := i) (by unfold intMax at hi'; omega))
      convert this using 1
      obtain ⟨j, rfl⟩ : ∃ j, i = j + 1 := ⟨i - 1, by omega⟩
      rw [Nat.factorial_succ, Nat.add_sub_cancel]
      push_cast; field_simp
    split_ifs at h with h2
    · cases h
      obtain ⟨r, r1, r2, e⟩ := exp_taylor_one i
      rw [e]
      exact add_mem hR (mul_mem y' (hrem r r1 r2))
    · refine ih (i + 1) _ _ Z (by omega) (by omega) ?_ (by simpa using y') h
      rw [sum_range_succ]
      exact add_mem hR y'

theorem constE_mem {fuel : ℕ} {Z : Interval T} (h : constE fuel = .ok Z) : Real.exp 1 ∈ Z := by
  refine eLoop_mem (fun r h1 h2 => ⟨?_, ?_⟩) fuel 1 _ _ Z le_rfl (by decide) ?_ ?_ h
  · refine (RopXSem.strDown_spec (T := T) 1).mono ?_
    simpa using h1
  · refine (RopXSem.strUp_spec (T := T) _).mono (h2.trans ?_)
    push_cast
    exact exp_one_lt.le
  · simpa using one_mem
  · simpa using one_mem

/-! ## `exp` series -/

theorem expRem_mem {fuel : ℕ} {Z : Interval T} (h : expRem fuel = .ok Z) {r : ℝ}
    (h1 : Real.exp (-(1 / 2)) ≤ r) (h2 : r ≤ Real.exp (1 / 2)) : r ∈ Z := by
  unfold expRem at h
  obtain ⟨E, hE, h⟩ := bind_ok.1 h
  obtain ⟨S, hS, h⟩ := bind_ok.1 h
  obtain ⟨Q, hQ, h⟩ := bind_ok.1 h
  cases h
  have e1 := sqrt_mem hS (constE_mem hE)
  have e2 : Real.sqrt (Real.exp 1) = Real.exp (1 / 2) := (Real.exp_half 1).symm
  rw [e2] at e1
  have e3 := sDiv_mem hQ e1 is_one
  refine ⟨e3.1.mono (le_trans (le_of_eq ?_) h1), e1.2.mono h2⟩
  rw [Real.exp_neg, one_div]

theorem expLoop_mem {rem : Interval T} {xf : T} {f d : ℝ} (hf : Is xf f) (hb : |f| ≤ 1 / 2)
    (hrem : ∀ r : ℝ, Real.exp (-(1 / 2)) ≤ r → r ≤ Real.exp (1 / 2) → r ∈ rem) :
    ∀ (fuel i : ℕ) (R Y Z : Interval T), 1 ≤ i → i ≤ intMax →
      (∑ k ∈ range i, f ^ k / (k.factorial : ℝ)) + d ∈ R →
      f ^ (i - 1) / ((i - 1).factorial : ℝ) ∈ Y →
      expLoop xf rem fuel i R Y = .ok Z → Real.exp f + d ∈ Z := by
  intro fuel
  induction fuel with
  | zero => intro i R Y Z _ _ _ _ h; simp [expLoop] at h
  | succ fuel ih =>
    intro i R Y Z hi hi' hR hY h
    rw [expLoop] at h
    split_ifs at h with h1
    obtain ⟨Y', hY', h⟩ := bind_ok.1 h
    have y' : f ^ i / (i.factorial : ℝ) ∈ Y' := by
      have := divS_mem hY' (mulS_mem hY hf) (Is.lit_nat (T := T) (n := i) (by unfold intMax at hi'; omega))
      convert this using 1
      obtain ⟨j, rfl⟩ : ∃ j, i = j + 1 := ⟨i - 1, by omega⟩
      rw [Nat.factorial_succ, Nat.add_sub_cancel]
      push_cast; field_simp
      ring
    split_ifs at h with h2
    · cases h
      obtain ⟨r, r1, r2, e⟩ := exp_taylor hb i
      rw [e]
      have := add_mem hR (mul_mem y' (hrem r r1 r2))
      convert this using 1; ring
    · refine ih (i + 1) _ _ Z (by omega) (by omega) ?_ (by simpa using y') h
      rw [sum_range_succ]
      have := add_mem hR y'
      convert this using 1; ring

/-! ## `sin`, `cos`, `atan`, `sinh` series -/

theorem sinLoop_mem {I : Interval T} {x : ℝ} (hx : x ∈ I) :
    ∀ (fuel i : ℕ) (R Y Z : Interval T), 1 ≤ i → i ≤ intMax →
      (∑ k ∈ range i, sinC k * (x ^ k / (k.factorial : ℝ))) ∈ R →
      x ^ (i - 1) / ((i - 1).factorial : ℝ) ∈ Y →
      sinLoop I fuel i R Y = .ok Z → Real.sin x ∈ Z := by
  intro fuel
  induction fuel with
  | zero => intro i R Y Z _ _ _ _ h; simp [sinLoop] at h
  | succ fuel ih =>
    intro i R Y Z hi hi' hR hY h
    rw [sinLoop] at h
    by_cases h1 : i = intMax
    · rw [if_pos h1] at h; cases h
    rw [if_neg h1] at h
    obtain ⟨Y', hY', h⟩ := bind_ok.1 h
    have y' : x ^ i / (i.factorial : ℝ) ∈ Y' := by
      have := divS_mem hY' (mul_mem hY hx) (Is.lit_nat (T := T) (n := i) (by unfold intMax at hi'; omega))
      convert this using 1
      obtain ⟨j, rfl⟩ : ∃ j, i = j + 1 := ⟨i - 1, by omega⟩
      rw [Nat.factorial_succ, Nat.add_sub_cancel]
      push_cast; field_simp
      ring
    rcases Classical.em (Rop.lt (mag Y') (Rop.eps : T) = true) with h2 | h2
    · rw [if_pos h2] at h
      cases h
      obtain ⟨r, r1, r2, e⟩ := sin_taylor x i
      rw [e]
      exact add_mem hR (mul_mem y' (unit_mem r1 r2))
    · rw [if_neg h2] at h
      refine ih (i + 1) _ _ Z (by omega) (by omega) ?_ (by simpa using y') h
      rw [sum_range_succ]
      split_ifs with h3 h4
      · have := add_mem hR y'
        convert this using 1; simp [sinC, h3, h4]
      · have := sub_mem hR y'
        convert this using 1; simp [sinC, h3, h4]; ring
      · convert hR using 1; simp [sinC, show i % 2 = 0 by omega]

theorem sinOrigin_mem {fuel : ℕ} {I Z : Interval T} {x : ℝ} (h : sinOrigin fuel I = .ok Z)
    (hx : x ∈ I) : Real.sin x ∈ Z := by
  refine sinLoop_mem hx fuel 1 _ _ Z le_rfl (by decide) ?_ ?_ h
  · simpa [sinC] using point_mem (T := T) is_zero
  · simpa using one_mem

theorem cosLoop_mem {I : Interval T} {x : ℝ} (hx : x ∈ I) :
    ∀ (fuel i : ℕ) (R Y Z : Interval T), 1 ≤ i → i ≤ intMax →
      (∑ k ∈ range i, cosC k * (x ^ k / (k.factorial : ℝ))) ∈ R →
      x ^ (i - 1) / ((i - 1).factorial : ℝ) ∈ Y →
      cosLoop I fuel i R Y = .ok Z → Real.cos x ∈ Z := by
  intro fuel
  induction fuel with
  | zero => intro i R Y Z _ _ _ _ h; simp [cosLoop] at h
  | succ fuel ih =>
    intro i R Y Z hi hi' hR hY h
    rw [cosLoop] at h
    by_cases h1 : i = intMax
    · rw [if_pos h1] at h; cases h
    rw [if_neg h1] at h
    obtain ⟨Y', hY', h⟩ := bind_ok.1 h
    have y' : x ^ i / (i.factorial : ℝ) ∈ Y' := by
      have := divS_mem hY' (mul_mem hY hx) (Is.lit_nat (T := T) (n := i) (by unfold intMax at hi'; omega))
      convert this using 1
      obtain ⟨j, rfl⟩ : ∃ j, i = j + 1 := ⟨i - 1, by omega⟩
      rw [Nat.factorial_succ, Nat.add_sub_cancel]
      push_cast; field_simp
      ring
    rcases Classical.em (Rop.lt (mag Y') (Rop.eps : T) = true) with h2 | h2
    · rw [if_pos h2] at h
      cases h
      obtain ⟨r, r1, r2, e⟩ := cos_taylor x i
      rw [e]
      exact add_mem hR (mul_mem y' (unit_mem r1 r2))
    · rw [if_neg h2] at h
      refine ih (i + 1) _ _ Z (by omega) (by omega) ?_ (by simpa using y') h
      rw [sum_range_succ]
      split_ifs with h3 h4
      · have := add_mem hR y'
        convert this using 1; simp [cosC, h3, h4]
      · have := sub_mem hR y'
        convert this using 1; simp [cosC, h3, h4]; ring
      · convert hR using 1; simp [cosC, show i % 2 = 1 by omega]

theorem cosOrigin_mem {fuel : ℕ} {I Z : Interval T} {x : ℝ} (h : cosOrigin fuel I = .ok Z)
    (hx : x ∈ I) : Real.cos x ∈ Z := by
  refine cosLoop_mem hx fuel 1 _ _ Z le_rfl (by decide) ?_ ?_ h
  · simpa [cosC] using one_mem
  · simpa using one_mem

theorem atanLoop_mem {I : Interval T} {x : ℝ} (hx : x ∈ I) :
    ∀ (fuel i : ℕ) (R Y Z : Interval T), 1 ≤ i → i ≤ intMax →
      atanS i x ∈ R → x ^ (i - 1) ∈ Y →
      atanLoop I fuel i R Y = .ok Z → Real.arctan x ∈ Z := by
  intro fuel
  induction fuel with
  | zero => intro i R Y Z _ _ _ _ h; simp [atanLoop] at h
  | succ fuel ih =>
    intro i R Y Z hi hi' hR hY h
    rw [atanLoop] at h
    by_cases h1 : i = intMax
    · rw [if_pos h1] at h; cases h
    rw [if_neg h1] at h
    have y' : x ^ i ∈ mul Y I := by
      have := mul_mem hY hx
      convert this using 1
      obtain ⟨j, rfl⟩ : ∃ j, i = j + 1 := ⟨i - 1, by omega⟩
      rw [Nat.add_sub_cancel, pow_succ]
    have hlit := Is.lit_nat (T := T) (n := i) (by unfold intMax at hi'; omega)
    have hi0 : (0 : ℝ) < i := by exact_mod_cast hi
    generalize mul Y I = Y' at h y'
    obtain ⟨t, ht, h⟩ := bind_ok.1 h
    rcases Classical.em (Rop.lt (mag t) (Rop.eps : T) = true) with h2 | h2
    · rw [if_pos h2] at h
      cases h
      have ha := atan_taylor x i hi
      by_cases hx0 : x = 0
      · subst hx0
        have : Real.arctan 0 = atanS i 0 + 0 ^ i * 0 / i := by
          rw [abs_zero, zero_pow (by omega), zero_div] at ha
          have := abs_nonpos_iff.1 ha
          rw [mul_zero, zero_div]
          linarith [this]
        rw [this]
        exact add_mem hR (divS_mem ht (mul_mem y' (unit_mem (by norm_num) (by norm_num))) hlit)
      have hxi : x ^ i ≠ 0 := pow_ne_zero _ hx0
      obtain ⟨r, r1, r2, e⟩ : ∃ r : ℝ, -1 ≤ r ∧ r ≤ 1 ∧
          Real.arctan x = atanS i x + x ^ i * r / i := by
        refine ⟨(Real.arctan x - atanS i x) * i / x ^ i, ?_, ?_, by field_simp; ring⟩
        all_goals
          have hb : |(Real.arctan x - atanS i x) * i / x ^ i| ≤ 1 := by
            rw [abs_div, abs_mul, abs_pow, abs_of_pos hi0, div_le_one (by positivity)]
            rwa [le_div_iff₀ hi0] at ha
        · exact (abs_le.1 hb).1
        · exact (abs_le.1 hb).2
      rw [e]
      exact add_mem hR (divS_mem ht (mul_mem y' (unit_mem r1 r2)) hlit)
    · rw [if_neg h2] at h
      have es : atanS (i + 1) x = atanS i x + atanC i * (x ^ i / i) := by
        unfold atanS; rw [sum_range_succ]
      by_cases h3 : i % 2 = 0
      · rw [if_neg (by simp [h3])] at h
        refine ih (i + 1) _ _ Z (by omega) (by omega) ?_ (by simpa using y') h
        rw [es]; convert hR using 1; simp [atanC, h3]
      · rw [if_pos h3] at h
        by_cases h4 : i % 4 = 1
        · rw [if_pos h4] at h
          obtain ⟨q, hq, h⟩ := bind_ok.1 h
          refine ih (i + 1) _ _ Z (by omega) (by omega) ?_ (by simpa using y') h
          rw [es]
          have := add_mem hR (divS_mem hq y' hlit)
          convert this using 1; simp [atanC, h3, h4]
        · rw [if_neg h4] at h
          obtain ⟨q, hq, h⟩ := bind_ok.1 h
          refine ih (i + 1) _ _ Z (by omega) (by omega) ?_ (by simpa using y') h
          rw [es]
          have := sub_mem hR (divS_mem hq y' hlit)
          convert this using 1; simp [atanC, h3, h4]; ring

theorem atanOrigin_mem {fuel : ℕ} {I Z : Interval T} {x : ℝ} (h : atanOrigin fuel I = .ok Z)
    (hx : x ∈ I) : Real.arctan x ∈ Z := by
  refine atanLoop_mem hx fuel 1 _ _ Z le_rfl (by decide) ?_ ?_ h
  · simpa [atanS, atanC] using point_mem (T := T) is_zero
  · simpa using one_mem

theorem sinhLoop_mem {xf c : T} {x : ℝ} (hx : Is xf x) (hb : |x| ≤ 1 / 2)
    (hc : Hi c (Real.cosh (1 / 2))) :
    ∀ (fuel i : ℕ) (R Y Z : Interval T), 1 ≤ i → i ≤ intMax →
      (∑ k ∈ range i, (if k % 2 = 0 then 0 else 1) * (x ^ k / (k.factorial : ℝ))) ∈ R →
      x ^ (i - 1) / ((i - 1).factorial : ℝ) ∈ Y →
      sinhLoop xf c fuel i R Y = .ok Z → Real.sinh x ∈ Z := by
  intro fuel
  induction fuel with
  | zero => intro i R Y Z _ _ _ _ h; simp [sinhLoop] at h
  | succ fuel ih =>
    intro i R Y Z hi hi' hR hY h
    rw [sinhLoop] at h
    by_cases h1 : i = intMax
    · rw [if_pos h1] at h; cases h
    rw [if_neg h1] at h
    obtain ⟨Y', hY', h⟩ := bind_ok.1 h
    have y' : x ^ i / (i.factorial : ℝ) ∈ Y' := by
      have := divS_mem hY' (mulS_mem hY hx) (Is.lit_nat (T := T) (n := i) (by unfold intMax at hi'; omega))
      convert this using 1
      obtain ⟨j, rfl⟩ : ∃ j, i = j + 1 := ⟨i - 1, by omega⟩
      rw [Nat.factorial_succ, Nat.add_sub_cancel]
      push_cast; field_simp
      ring
    dsimp only at h
    split at h
    · cases h
      obtain ⟨r, r1, r2, e⟩ := sinh_taylor hb i
      rw [e]
      exact add_mem hR (mul_mem y' ⟨hc.neg.mono r1, hc.mono r2⟩)
    · refine ih (i + 1) _ _ Z (by omega) (by omega) ?_ (by simpa using y') h
      rw [sum_range_succ]
      by_cases h3 : i % 2 = 0
      · rw [if_neg (by simp [h3]), if_pos h3, zero_mul, add_zero]; exact hR
      · rw [if_pos h3, if_neg h3, one_mul]; exact add_mem hR y'

theorem sinhOrigin_mem {fuel : ℕ} {xf : T} {Z : Interval T} {x : ℝ} (hx : Is xf x)
    (hb : |x| ≤ 1 / 2) (h : sinhOrigin fuel xf = .ok Z) : Real.sinh x ∈ Z := by
  unfold sinhOrigin at h
  obtain ⟨E, hE, h⟩ := bind_ok.1 h
  obtain ⟨S, hS, h⟩ := bind_ok.1 h
  obtain ⟨Q, hQ, h⟩ := bind_ok.1 h
  have e1 := sqrt_mem hS (constE_mem hE)
  have e2 : Real.sqrt (Real.exp 1) = Real.exp (1 / 2) := (Real.exp_half 1).symm
  rw [e2] at e1
  have e3 := sDiv_mem hQ e1 is_one
  have e4 := (mulS_mem (add_mem e1 e3) is_half).2
  refine sinhLoop_mem hx hb ?_ fuel 1 _ _ Z le_rfl (by decide) ?_ ?_ h
  · convert e4 using 1
    rw [Real.cosh_eq, Real.exp_neg]; ring
  · simpa using point_mem (T := T) is_zero
  · simpa using one_mem

/-! ## `log` series -/

theorem logLoop_mem {xm : T} {cinv : Interval T} {d : ℝ} (hd : Is xm d) (hd1 : 0 < 1 + d)
    (hc : ∀ c ∈ Set.uIcc 1 (1 + d), 1 / c ∈ cinv) :
    ∀ (fuel i : ℕ) (R X X2 Z : Interval T), 1 ≤ i → i ≤ intMax →
      (∑ k ∈ range i, (if k = 0 then 0 else -(-d) ^ k / (k : ℝ))) ∈ R →
      -(-d) ^ (i - 1) ∈ X → (∀ c ∈ Set.uIcc 1 (1 + d), -(-d / c) ^ (i - 1) ∈ X2) →
      logLoop xm cinv fuel i R X X2 = .ok Z → Real.log (1 + d) ∈ Z := by
  intro fuel
  induction fuel with
  | zero => intro i R X X2 Z _ _ _ _ _ h; simp [logLoop] at h
  | succ fuel ih =>
    intro i R X X2 Z hi hi' hR hX hX2 h
    rw [logLoop] at h
    by_cases h1 : i = intMax
    · rw [if_pos h1] at h; cases h
    rw [if_neg h1] at h
    have hlit := Is.lit_nat (T := T) (n := i) (by unfold intMax at hi'; omega)
    obtain ⟨j, hj⟩ : ∃ j, i = j + 1 := ⟨i - 1, by omega⟩
    have x' : -(-d) ^ i ∈ mulS (neg X) xm := by
      have := mulS_mem (neg_mem hX) hd
      convert this using 1
      rw [hj, Nat.add_sub_cancel, pow_succ]; ring
    have x2' : ∀ c ∈ Set.uIcc 1 (1 + d), -(-d / c) ^ i ∈ mulS (mul (neg X2) cinv) xm := by
      intro c hcc
      have := mulS_mem (mul_mem (neg_mem (hX2 c hcc)) (hc c hcc)) hd
      convert this using 1
      rw [hj, Nat.add_sub_cancel, pow_succ]; ring
    dsimp only at h
    generalize mulS (neg X) xm = X' at h x'
    generalize mulS (mul (neg X2) cinv) xm = X2' at h x2'
    obtain ⟨t, ht, h⟩ := bind_ok.1 h
    rcases Classical.em (Rop.lt (mag t) (Rop.eps : T) = true) with h2 | h2
    · rw [if_pos h2] at h
      cases h
      obtain ⟨c, hcc, c0, e⟩ := log_taylor hd1 i hi
      rw [e]
      have e1 : 1 + d - 1 = d := by ring
      rw [e1]
      exact add_mem hR (divS_mem ht (x2' c hcc) hlit)
    · rw [if_neg h2] at h
      obtain ⟨q, hq, h⟩ := bind_ok.1 h
      refine ih (i + 1) _ _ _ Z (by omega) (by omega) ?_ (by simpa using x')
        (by simpa using x2') h
      rw [sum_range_succ, if_neg (by omega)]
      exact add_mem hR (divS_mem hq x' hlit)

theorem logSeries_mem {xm : T} {cinv Z : Interval T} {d : ℝ} {fuel : ℕ} (hd : Is xm d)
    (hd1 : 0 < 1 + d) (hc : ∀ c ∈ Set.uIcc 1 (1 + d), 1 / c ∈ cinv)
    (h : logLoop xm cinv fuel 1 (point (lit 0)) (point (lit (-1))) (point (lit (-1))) = .ok Z) :
    Real.log (1 + d) ∈ Z := by
  refine logLoop_mem hd hd1 hc fuel 1 _ _ _ Z le_rfl (by decide) ?_ ?_ ?_ h
  · simpa using point_mem (T := T) is_zero
  · simpa using point_mem (T := T) is_neg_one
  · simpa using fun _ _ => point_mem (T := T) is_neg_one

theorem ln2Loop_mem {xm cinv : Interval T} {d : ℝ} (hd : d ∈ xm) (hd1 : 0 < 1 + d)
    (hc : ∀ c ∈ Set.uIcc 1 (1 + d), 1 / c ∈ cinv) :
    ∀ (fuel i : ℕ) (R X X2 Z : Interval T), 1 ≤ i → i ≤ intMax →
      (∑ k ∈ range i, (if k = 0 then 0 else -(-d) ^ k / (k : ℝ))) ∈ R →
      -(-d) ^ (i - 1) ∈ X → (∀ c ∈ Set.uIcc 1 (1 + d), -(-d / c) ^ (i - 1) ∈ X2) →
      ln2Loop xm cinv fuel i R X X2 = .ok Z → Real.log (1 + d) ∈ Z := by
  intro fuel
  induction fuel with
  | zero => intro i R X X2 Z _ _ _ _ _ h; simp [ln2Loop] at h
  | succ fuel ih =>
    intro i R X X2 Z hi hi' hR hX hX2 h
    rw [ln2Loop] at h
    by_cases h1 : i = intMax
    · rw [if_pos h1] at h; cases h
    rw [if_neg h1] at h
    have hlit := Is.lit_nat (T := T) (n := i) (by unfold intMax at hi'; omega)
    obtain ⟨j, hj⟩ : ∃ j, i = j + 1 := ⟨i - 1, by omega⟩
    have x' : -(-d) ^ i ∈ mul (neg X) xm := by
      have := mul_mem (neg_mem hX) hd
      convert this using 1
      rw [hj, Nat.add_sub_cancel, pow_succ]; ring
    have x2' : ∀ c ∈ Set.uIcc 1 (1 + d), -(-d / c) ^ i ∈ mul (mul (neg X2) cinv) xm := by
      intro c hcc
      have := mul_mem (mul_mem (neg_mem (hX2 c hcc)) (hc c hcc)) hd
      convert this using 1
      rw [hj, Nat.add_sub_cancel, pow_succ]; ring
    dsimp only at h
    generalize mul (neg X) xm = X' at h x'
    generalize mul (mul (neg X2) cinv) xm = X2' at h x2'
    obtain ⟨t, ht, h⟩ := bind_ok.1 h
    rcases Classical.em (Rop.lt (mag t) (Rop.eps : T) = true) with h2 | h2
    · rw [if_pos h2] at h
      cases h
      obtain ⟨c, hcc, c0, e⟩ := log_taylor hd1 i hi
      rw [e]
      have e1 : 1 + d - 1 = d := by ring
      rw [e1]
      exact add_mem hR (divS_mem ht (x2' c hcc) hlit)
    · rw [if_neg h2] at h
      obtain ⟨q, hq, h⟩ := bind_ok.1 h
      refine ih (i + 1) _ _ _ Z (by omega) (by omega) ?_ (by simpa using x')
        (by simpa using x2') h
      rw [sum_range_succ, if_neg (by omega)]
      exact add_mem hR (divS_mem hq x' hlit)

theorem hullS_mem {X : Interval T} {k : T} {x c t : ℝ} (hx : x ∈ X) (hk : Is k c)
    (ht : t ∈ Set.uIcc c x) : t ∈ hullS X k := by
  rw [Set.mem_uIcc] at ht
  refine ⟨lo_ite_min ?_ hk.1 hx.1.1, hi_ite_max ?_ hx.2.1 hk.1⟩
  · rcases ht with ⟨h1, h2⟩ | ⟨h1, h2⟩
    · exact Or.inl (hk.lo.mono h1)
    · exact Or.inr (hx.1.mono h1)
  · rcases ht with ⟨h1, h2⟩ | ⟨h1, h2⟩
    · exact Or.inl (hx.2.mono h2)
    · exact Or.inr (hk.hi.mono h2)

theorem constLn2_mem {fuel : ℕ} {Z : Interval T} (h : constLn2 fuel = .ok Z) : Real.log 2 ∈ Z := by
  unfold constLn2 at h
  obtain ⟨S, hS, h⟩ := bind_ok.1 h
  obtain ⟨X2, hX2, h⟩ := bind_ok.1 h
  obtain ⟨C, hC, h⟩ := bind_ok.1 h
  obtain ⟨R, hR, h⟩ := bind_ok.1 h
  cases h
  have e2 := sqrt_mem hX2 (sqrt_mem hS (point_mem (T := T) is_two))
  set s : ℝ := Real.sqrt (Real.sqrt 2) with hs
  have s0 : 0 < s := Real.sqrt_pos.2 (Real.sqrt_pos.2 (by norm_num))
  have e3 : s - 1 ∈ subS X2 one := subS_mem e2 is_one
  have es : 1 + (s - 1) = s := by ring
  have e4 : Real.log s ∈ R := by
    rw [← es]
    refine ln2Loop_mem e3 (by rw [es]; exact s0) ?_ fuel 1 _ _ _ R le_rfl (by decide) ?_ ?_ ?_ hR
    · intro c hc
      rw [es] at hc
      exact sDiv_mem hC (hullS_mem e2 is_one hc) is_one
    · simpa using point_mem (T := T) is_zero
    · simpa using point_mem (T := T) is_neg_one
    · simpa using fun _ _ => point_mem (T := T) is_neg_one
  have h4 : Is (lit 4 : T) 4 := by
    have := Is.lit_nat (T := T) (n := 4) (by norm_num); simpa using this
  have := mulS_mem e4 h4
  convert this using 1
  rw [hs, Real.log_sqrt (by positivity), Real.log_sqrt (by norm_num)]; ring

/-! ## `pi` -/

theorem machin : Real.pi = 16 * Real.arctan (1 / 5) - 4 * Real.arctan (1 / 239) := by
  have := Real.four_mul_arctan_inv_5_sub_arctan_inv_239
  rw [one_div, one_div]; linarith

theorem constPi_mem {fuel : ℕ} {Z : Interval T} (h : constPi fuel = .ok Z) : Real.pi ∈ Z := by
  unfold constPi at h
  obtain ⟨A, hA, h⟩ := bind_ok.1 h
  obtain ⟨A', hA', h⟩ := bind_ok.1 h
  obtain ⟨B, hB, h⟩ := bind_ok.1 h
  obtain ⟨B', hB', h⟩ := bind_ok.1 h
  cases h
  have l : ∀ n : ℕ, n ≤ 2 ^ 31 → Is (lit n : T) n := fun n hn => Is.lit_nat hn
  have a := atanOrigin_mem hA' (sDiv_mem hA (point_mem (by simpa using l 5 (by norm_num))) is_one)
  have b := atanOrigin_mem hB' (sDiv_mem hB (point_mem (by simpa using l 239 (by norm_num))) is_one)
  rw [machin]
  exact sub_mem (sMul_mem a (by simpa using l 16 (by norm_num)))
    (sMul_mem b (by simpa using l 4 (by norm_num)))

end Interval
end Kv
