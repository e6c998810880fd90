import Verif.Double.Fin

/-!
# C01, C02, C03, C05, C11, C12, C13: interval arithmetic encloses

The specification is only: "the exact real result belongs to the returned set".
`x ∈ X` means: neither endpoint of `X` is NaN and `X.inf ≤ x ≤ X.sup` in the extended reals.
-/

namespace Kv
open RopSem Kv.Interval
open Rop (sqrtUp sqrtDown)

variable {T : Type} [RopSem T]

/-! ## C01 -/

theorem C01_add {X Y : Interval T} {x y : ℝ} (hx : x ∈ X) (hy : y ∈ Y) : x + y ∈ add X Y :=
  ⟨hx.1.add hy.1, hx.2.add hy.2⟩

theorem C01_sub {X Y : Interval T} {x y : ℝ} (hx : x ∈ X) (hy : y ∈ Y) : x - y ∈ sub X Y :=
  ⟨hx.1.sub hy.2, hx.2.sub hy.1⟩

theorem C01_neg {X : Interval T} {x : ℝ} (hx : x ∈ X) : -x ∈ neg X := ⟨hx.2.neg, hx.1.neg⟩

/-- The four mixed forms with a scalar `k` of real value `c`. -/
theorem C01_mixed {X : Interval T} {k : T} {x c : ℝ} (hx : x ∈ X) (hk : ¬ nan k ∧ val k = c) :
    x + c ∈ addS X k ∧ c + x ∈ sAdd k X ∧ x - c ∈ subS X k ∧ c - x ∈ sSub k X := by
  have l : Lo k c := ⟨hk.1, hk.2.le⟩
  have h : Hi k c := ⟨hk.1, hk.2.ge⟩
  exact ⟨⟨hx.1.add l, hx.2.add h⟩, ⟨l.add hx.1, h.add hx.2⟩, ⟨hx.1.sub h, hx.2.sub l⟩,
    ⟨l.sub hx.2, h.sub hx.1⟩⟩

/-- The mixed forms compute the same interval as the point interval of the scalar. -/
theorem C01_mixed_eq (X : Interval T) (k : T) :
    addS X k = add X (point k) ∧ sAdd k X = add (point k) X ∧
    subS X k = sub X (point k) ∧ sSub k X = sub (point k) X := ⟨rfl, rfl, rfl, rfl⟩

/-- an interval of doubles with an infinite endpoint and a real number in it -/
theorem half_line_mem : (1 : ℝ) ∈ (⟨Hw.fin 0 Format.rep_zero, Fl.pinf⟩ : Interval D) :=
  ⟨Hw.lo_fin.2 (by norm_num), by show ¬ _ = _; simp, by show _ ≤ (⊤ : EReal); exact le_top⟩

example : (1 + 1 : ℝ) ∈ add (⟨Hw.fin 0 Format.rep_zero, Fl.pinf⟩ : Interval D)
    ⟨Hw.fin 0 Format.rep_zero, Fl.pinf⟩ := C01_add half_line_mem half_line_mem

/-! ## C02 -/

theorem C02_mul {X Y : Interval T} {x y : ℝ} (hx : x ∈ X) (hy : y ∈ Y) : x * y ∈ mul X Y :=
  mul_mem hx hy

theorem C02_mul_scalar {X : Interval T} {k : T} {x c : ℝ} (hx : x ∈ X) (hk : ¬ nan k ∧ val k = c) :
    x * c ∈ mulS X k ∧ c * x ∈ sMul k X := ⟨mulS_mem hx hk, sMul_mem hx hk⟩

/-- zero times an unbounded interval -/
example : (0 * 1 : ℝ) ∈ mul (⟨Hw.fin 0 Format.rep_zero, Hw.fin 0 Format.rep_zero⟩ : Interval D)
    ⟨Hw.fin 0 Format.rep_zero, Fl.pinf⟩ :=
  C02_mul ⟨Hw.lo_fin.2 (by norm_num), Hw.hi_fin.2 (by norm_num)⟩ half_line_mem

/-! ## C03 -/

theorem C03_div {X Y Z : Interval T} {x y : ℝ} (h : div X Y = .ok Z) (hx : x ∈ X) (hy : y ∈ Y) :
    x / y ∈ Z := div_mem h hx hy

/-- Division throws `domain_error` exactly when the (nonempty) denominator contains zero. -/
theorem C03_div_error_iff (X : Interval T) {Y : Interval T} {y : ℝ} (hy : y ∈ Y) :
    div X Y = .error .domainError ↔ (0 : ℝ) ∈ Y := by
  obtain ⟨b1, b2⟩ := hy
  have e : (0 : ℝ) ∈ Y ↔ val Y.inf ≤ 0 ∧ 0 ≤ val Y.sup := by
    rw [mem_iff]; simp [b1.1, b2.1]
  rw [e]
  unfold div
  simp only [O, lt_zero_left, lt_zero_right, b1.1, b2.1, not_false_iff, true_and]
  split_ifs with h1 h2 h3 h4 h5 h6 <;> simp
  · intro h; exact absurd h (not_le.2 h1)
  · intro h; exact absurd h (not_le.2 h1)
  · intro h; exact absurd h (not_le.2 h1)
  · intro _; exact h4
  · intro _; exact h4
  · intro _; exact h4
  · exact ⟨not_lt.1 h1, not_lt.1 h4⟩

/-- An error is always `domain_error`. -/
theorem C03_div_only_error {X Y : Interval T} {e : Err} (h : div X Y = .error e) :
    e = .domainError := by
  unfold div at h
  split_ifs at h
  injection h with h; exact h.symm

theorem C03_div_scalar {X Z : Interval T} {k : T} {x c : ℝ} (hk : ¬ nan k ∧ val k = c) :
    (divS X k = .ok Z → x ∈ X → x / c ∈ Z) ∧ (sDiv k X = .ok Z → x ∈ X → c / x ∈ Z) :=
  ⟨fun h hx => divS_mem h hx hk, fun h hx => sDiv_mem h hx hk⟩

theorem C03_divS_error_iff (X : Interval T) {k : T} {c : ℝ} (hk : ¬ nan k ∧ val k = c) :
    divS X k = .error .domainError ↔ c = 0 := by
  unfold divS
  simp only [O, lt_zero_left, lt_zero_right, hk.1, hk.2, not_false_iff, true_and]
  have h1 : ((0 : EReal) < (c : EReal)) ↔ 0 < c := by exact_mod_cast Iff.rfl
  have h2 : ((c : EReal) < 0) ↔ c < 0 := by exact_mod_cast Iff.rfl
  simp only [h1, h2]
  split_ifs with h3 h4 <;> simp
  · exact h3.ne'
  · exact h4.ne
  · exact le_antisymm (not_lt.1 h3) (not_lt.1 h4)

theorem C03_sDiv_error_iff (k : T) {Y : Interval T} {y : ℝ} (hy : y ∈ Y) :
    sDiv k Y = .error .domainError ↔ (0 : ℝ) ∈ Y := by
  obtain ⟨b1, b2⟩ := hy
  have e : (0 : ℝ) ∈ Y ↔ val Y.inf ≤ 0 ∧ 0 ≤ val Y.sup := by
    rw [mem_iff]; simp [b1.1, b2.1]
  rw [e]
  unfold sDiv
  simp only [O, Bool.or_eq_true, lt_zero_left, lt_zero_right, b1.1, b2.1, not_false_iff, true_and]
  split_ifs with h1 h2 <;> simp
  · intro h; rcases h1 with h1 | h1
    · exact absurd h (not_le.2 h1)
    · exact h1
  · intro h; rcases h1 with h1 | h1
    · exact absurd h (not_le.2 h1)
    · exact h1
  · push Not at h1; exact h1

theorem rep1 : binary64.Rep 1 := Format.rep_one
theorem rep2 : binary64.Rep 2 := by decide +kernel
theorem rep3 : binary64.Rep 3 := by decide +kernel

/-- `[1,2] / [2,3]` returns, and contains `1/3` -/
example : ∃ Z, div (Hw.ivl 1 2 rep1 rep2) (Hw.ivl 2 3 rep2 rep3 : Interval D) = .ok Z ∧
    (1 / 3 : ℝ) ∈ Z := by
  have h2 : (2 : ℝ) ∈ (Hw.ivl 2 3 rep2 rep3 : Interval D) := Hw.mem_ivl.2 (by norm_num)
  cases h : div (Hw.ivl 1 2 rep1 rep2) (Hw.ivl 2 3 rep2 rep3 : Interval D) with
  | ok Z => exact ⟨Z, rfl, C03_div h (Hw.mem_ivl.2 (by norm_num)) (Hw.mem_ivl.2 (by norm_num))⟩
  | error e =>
    have he := C03_div_only_error h
    subst he
    have := (C03_div_error_iff _ h2).1 h
    rw [Hw.mem_ivl] at this
    norm_num at this

/-! ## C05 (enclosure and error; correct rounding is in `Props/Optimal.lean`) -/

theorem C05_sqrt {X Z : Interval T} {x : ℝ} (h : sqrt X = .ok Z) (hx : x ∈ X) :
    Real.sqrt x ∈ Z := sqrt_mem h hx

/-- `sqrt` throws exactly when the lower endpoint is negative. -/
theorem C05_sqrt_error_iff (X : Interval T) :
    sqrt X = .error .domainError ↔ ¬ nan X.inf ∧ val X.inf < 0 := by
  unfold sqrt
  rw [← lt_zero_right]
  split_ifs with h <;> simp_all [O]

example : (Real.sqrt 2) ∈ (⟨sqrtDown (Hw.fin 1 rep1), sqrtUp (Hw.fin 2 rep2)⟩ : Interval D) := by
  refine C05_sqrt (X := Hw.ivl 1 2 rep1 rep2) ?_ (Hw.mem_ivl.2 (by norm_num))
  unfold sqrt
  rw [if_neg]
  · rfl
  · rw [lt_zero_right]; simp [Hw.ivl]

/-! ## C11 -/

theorem C11_pow {X Z : Interval T} {x : ℝ} {n : ℤ} (h : powInt X n = .ok Z) (hx : x ∈ X) :
    x ^ n ∈ Z := powInt_mem h hx

/-- For nonnegative exponents (not `INT_MIN`) nothing is thrown. -/
theorem C11_pow_returns (X : Interval T) {n : ℤ} (hn : 0 ≤ n) : ∃ Z, powInt X n = .ok Z := by
  unfold powInt
  have h1 : n ≠ -2147483648 := by omega
  have h2 : ¬ n < 0 := by omega
  simp only [h1, h2, if_false]
  split_ifs <;> exact ⟨_, rfl⟩

/-- A negative power of an interval containing zero throws. -/
theorem C11_pow_zero_throws {X : Interval T} {n : ℤ} (hn : n < 0) (hmin : n ≠ -2147483648)
    (h0 : (0 : ℝ) ∈ X) : powInt X n = .error .domainError := by
  have hm : n.natAbs ≠ 0 := by omega
  have := powAbs_mem h0 hm
  rw [zero_pow hm] at this
  unfold powInt
  rw [if_neg (by omega), if_neg hmin]
  dsimp only
  rw [if_pos hn]
  exact (C03_sDiv_error_iff _ this).2 this

example : ∃ Z, powInt (Hw.ivl 1 2 rep1 rep2 : Interval D) 10 = .ok Z ∧ (2 : ℝ) ^ (10 : ℤ) ∈ Z := by
  obtain ⟨Z, hZ⟩ := C11_pow_returns (Hw.ivl 1 2 rep1 rep2 : Interval D) (n := 10) (by norm_num)
  exact ⟨Z, hZ, C11_pow hZ (Hw.mem_ivl.2 (by norm_num))⟩

/-! ## C12 -/

/-- Every quotient is in the first part, or the result is flagged as parted and it is in the
second part. -/
theorem C12_division_part {X Y Z1 Z2 : Interval T} {p : Bool} {x y : ℝ}
    (h1 : divisionPart1 X Y = .ok (Z1, p)) (h2 : divisionPart2 X Y = .ok Z2)
    (hx : x ∈ X) (hy : y ∈ Y) (hy0 : y ≠ 0) : x / y ∈ Z1 ∨ (p = true ∧ x / y ∈ Z2) :=
  divisionPart_mem h1 h2 hx hy hy0

/-- Both functions throw exactly when `Y = [0,0]`. -/
theorem C12_error_iff (X : Interval T) {Y : Interval T} {y : ℝ} (hy : y ∈ Y) :
    (divisionPart1 X Y = .error .domainError ↔ val Y.inf = 0 ∧ val Y.sup = 0) ∧
    (divisionPart2 X Y = .error .domainError ↔ val Y.inf = 0 ∧ val Y.sup = 0) := by
  have hy' := hy
  obtain ⟨b1, b2⟩ := hy
  have hd := C03_div_error_iff X hy'
  have e : (0 : ℝ) ∈ Y ↔ val Y.inf ≤ 0 ∧ 0 ≤ val Y.sup := by
    rw [mem_iff]; simp [b1.1, b2.1]
  rw [e] at hd
  have key : 0 < val Y.inf ∨ val Y.sup < 0 → ¬ (val Y.inf ≤ 0 ∧ 0 ≤ val Y.sup) := by
    rintro (h | h) ⟨h1, h2⟩
    · exact absurd h1 (not_le.2 h)
    · exact absurd h2 (not_le.2 h)
  have key2 : 0 < val Y.inf ∨ val Y.sup < 0 → ¬ (val Y.inf = 0 ∧ val Y.sup = 0) :=
    fun h h' => key h ⟨h'.1.le, h'.2.ge⟩
  constructor
  · unfold divisionPart1
    simp only [O, Bool.or_eq_true, Bool.and_eq_true, lt_zero_left, lt_zero_right, eq_zero_right,
      b1.1, b2.1, not_false_iff, true_and]
    split_ifs with c1 c2 <;> simp_all
    cases hdv : div X Y with
    | ok Z => simpa [Except.map] using key2
    | error err =>
      have := C03_div_only_error hdv
      subst this
      exact absurd hdv (by tauto)
  · unfold divisionPart2
    simp only [O, Bool.or_eq_true, Bool.and_eq_true, lt_zero_left, lt_zero_right, eq_zero_right,
      b1.1, b2.1, not_false_iff, true_and]
    split_ifs with c1 c2 <;> simp_all

/-! ## C13: violated when the numerator is exactly `[0,0]` -/

theorem repm1 : binary64.Rep (-1) := by decide +kernel

/-- `X = [0,0]`, `Y = [-1,1]`: both parts are `[0,0]`, although `z = 1` satisfies `y*z = x` with
`y = 0`, `x = 0`. -/
theorem C13_violated : ∃ (X Y Z1 Z2 : Interval D) (p : Bool) (x y z : ℝ),
    divisionPart1 X Y = .ok (Z1, p) ∧ divisionPart2 X Y = .ok Z2 ∧ x ∈ X ∧ y ∈ Y ∧
    y * z = x ∧ z ∉ Z1 ∧ z ∉ Z2 := by
  refine ⟨Hw.ivl 0 0 Format.rep_zero Format.rep_zero, Hw.ivl (-1) 1 repm1 rep1,
    ⟨Fl.lit 0, Fl.lit 0⟩, ⟨Fl.lit 0, Fl.lit 0⟩, false, 0, 0, 1, ?_, ?_, ?_, ?_, by norm_num, ?_, ?_⟩
  · decide +kernel
  · decide +kernel
  · exact Hw.mem_ivl.2 (by norm_num)
  · exact Hw.mem_ivl.2 (by norm_num)
  all_goals
    rintro ⟨-, h⟩
    have : (1 : ℝ) ≤ 0 := hi_zero_iff (T := D).1 h
    norm_num at this

/-- A second way to lose solutions: `X = [0,1]`, `Y = [0,2]`, `z = -1` (`y = x = 0`). -/
theorem C13_violated_half : ∃ (X Y Z1 Z2 : Interval D) (p : Bool) (x y z : ℝ),
    ¬ (val X.inf = 0 ∧ val X.sup = 0) ∧
    divisionPart1 X Y = .ok (Z1, p) ∧ divisionPart2 X Y = .ok Z2 ∧ x ∈ X ∧ y ∈ Y ∧
    y * z = x ∧ z ∉ Z1 ∧ z ∉ Z2 := by
  refine ⟨Hw.ivl 0 1 Format.rep_zero rep1, Hw.ivl 0 2 Format.rep_zero rep2,
    ⟨Fl.lit 0, Fl.pinf⟩, ⟨Fl.lit 0, Fl.pinf⟩, false, 0, 0, -1, ?_, ?_, ?_, ?_, ?_, by norm_num,
    ?_, ?_⟩
  · simp [Hw.ivl]
  · decide +kernel
  · decide +kernel
  · exact Hw.mem_ivl.2 (by norm_num)
  · exact Hw.mem_ivl.2 (by norm_num)
  all_goals
    rintro ⟨h, -⟩
    have : (0 : ℝ) ≤ -1 := lo_zero_iff (T := D).1 h
    norm_num at this

/-- What is true (full statement: without `hX`).  Every solution `z` of `y*z = x` is found if the
numerator does not contain zero, or contains it strictly inside, or is not `[0,0]` and the
denominator contains zero strictly inside. -/
theorem C13_solutions_partial {X Y Z1 Z2 : Interval T} {p : Bool} {x y z : ℝ}
    (h1 : divisionPart1 X Y = .ok (Z1, p)) (h2 : divisionPart2 X Y = .ok Z2)
    (hx : x ∈ X) (hy : y ∈ Y) (hz : y * z = x)
    (hX : (0 : ℝ) ∉ X ∨ (val X.inf < 0 ∧ 0 < val X.sup) ∨
      (val Y.inf < 0 ∧ 0 < val Y.sup ∧ ¬ (val X.inf = 0 ∧ val X.sup = 0))) :
    z ∈ Z1 ∨ (p = true ∧ z ∈ Z2) := by
  rcases eq_or_ne y 0 with rfl | hy0
  · -- then `x = 0`, so `0` is in both, and the result is the whole line
    have hx0 : x = 0 := by simpa using hz.symm
    subst hx0
    have ⟨a1, a2⟩ := hx
    have ⟨b1, b2⟩ := hy
    have a1' : val X.inf ≤ 0 := a1.2
    have a2' : 0 ≤ val X.sup := a2.2
    have b1' : val Y.inf ≤ 0 := b1.2
    have b2' : 0 ≤ val Y.sup := b2.2
    left
    unfold divisionPart1 at h1
    simp only [O, Bool.or_eq_true, Bool.and_eq_true, lt_zero_left, lt_zero_right, eq_zero_right,
      le_zero_left, le_zero_right, a1.1, a2.1, b1.1, b2.1, not_false_iff, true_and] at h1
    have whole : z ∈ (⟨Rop.neg Rop.inf, Rop.inf⟩ : Interval T) := ⟨lo_neg_inf _, hi_inf _⟩
    have c1 : ¬ (0 < val Y.inf ∨ val Y.sup < 0) := by
      rintro (h | h)
      · exact absurd b1' (not_le.2 h)
      · exact absurd b2' (not_le.2 h)
    rw [if_neg c1] at h1
    rcases hX with hX | hX | hX
    · exact absurd hx hX
    · have d1 : ¬ (val X.inf = 0 ∧ val X.sup = 0) := fun h => hX.1.ne h.1
      have d2 : ¬ 0 ≤ val X.inf := not_le.2 hX.1
      have d3 : ¬ val X.sup ≤ 0 := not_le.2 hX.2
      have d4 : ¬ 0 < val X.inf := not_lt.2 a1'
      have d5 : ¬ val X.sup < 0 := not_lt.2 a2'
      simp only [d1, d2, d3, d4, d5, if_false] at h1
      split_ifs at h1 <;> cases h1 <;> exact whole
    · have d1 : ¬ (val Y.inf = 0 ∧ val Y.sup = 0) := fun h => hX.1.ne h.1
      have d2 : ¬ (val Y.inf < 0 ∧ val Y.sup = 0) := fun h => hX.2.1.ne' h.2
      have d3 : ¬ (val Y.inf = 0 ∧ 0 < val Y.sup) := fun h => hX.1.ne h.1
      have d4 : ¬ 0 < val X.inf := not_lt.2 a1'
      have d5 : ¬ val X.sup < 0 := not_lt.2 a2'
      simp only [d1, d2, d3, d4, d5, hX.2.2, if_false] at h1
      cases h1; exact whole
  · have : z = x / y := by field_simp; linarith
    rw [this]; exact C12_division_part h1 h2 hx hy hy0

/-- the hypotheses of `C12_division_part` and `C13_solutions_partial` are met by
`X = [1,2]`, `Y = [-1,1]` -/
example : ∃ (Z1 Z2 : Interval D) (p : Bool),
    divisionPart1 (Hw.ivl 1 2 rep1 rep2) (Hw.ivl (-1) 1 repm1 rep1) = .ok (Z1, p) ∧
    divisionPart2 (Hw.ivl 1 2 rep1 rep2) (Hw.ivl (-1) 1 repm1 rep1) = .ok Z2 ∧ p = true ∧
    (2 : ℝ) ∈ (Hw.ivl 1 2 rep1 rep2 : Interval D) ∧ (1 : ℝ) ∈ (Hw.ivl (-1) 1 repm1 rep1 : Interval D) ∧
    (0 : ℝ) ∉ (Hw.ivl 1 2 rep1 rep2 : Interval D) := by
  refine ⟨⟨Fl.ninf, Fl.lit (-1)⟩, ⟨Fl.lit 1, Fl.pinf⟩, true, ?_, ?_, rfl, Hw.mem_ivl.2 (by norm_num),
    Hw.mem_ivl.2 (by norm_num), fun h => ?_⟩
  · decide +kernel
  · decide +kernel
  · rw [Hw.mem_ivl] at h; norm_num at h

end Kv
