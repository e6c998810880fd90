import Verif.Double.DDSqrt

/-!
# C22, C51, C52: double-double arithmetic with directed rounding

Properties of `kv::dd` and `kv::rop<kv::dd>` (hardware rounding).
-/

set_option exponentiation.threshold 3000

namespace Kv
namespace DD
open Fl Format Emu

local notation "B" => binary64

/-! ## specification -/

/-- a `dd` with the two finite components `a` and `b`; its value is `a + b` -/
def ofQ (a b : ℚ) (ha : (B).Rep a) (hb : (B).Rep b) : DD := ⟨fin a ha, fin b hb⟩

/-- the pair is normalised: the leading component is the sum rounded to nearest -/
def Normal (x : DD) : Prop := Fl.add .near x.a1 x.a2 = x.a1

/-- `r` is an upper bound of `v`: either `(+∞, 0)`, or a finite normalised pair whose sum is not
below `v` -/
def Above (r : DD) (v : ℝ) : Prop :=
  (r.a1 = pinf ∧ r.a2 = Fl.zero) ∨
    ∃ a b ha hb, r = ofQ a b ha hb ∧ Normal r ∧ v ≤ (a : ℝ) + b

/-- `r` is a lower bound of `v` -/
def Below (r : DD) (v : ℝ) : Prop :=
  (r.a1 = ninf ∧ r.a2 = Fl.zero) ∨
    ∃ a b ha hb, r = ofQ a b ha hb ∧ Normal r ∧ (a : ℝ) + b ≤ v

theorem normal_of {a b : ℚ} (ha : (B).Rep a) (hb : (B).Rep b) (n : a = (B).roundQ .near (a + b)) :
    Normal (ofQ a b ha hb) := by
  show Fl.round .near (a + b) = fin a ha
  unfold Fl.round
  rw [pack_congr _ (roundQ_repU _ _) ha.repU n.symm]
  unfold pack; rw [dif_pos ha.abs_le]

theorem of_normal {a b : ℚ} {ha : (B).Rep a} {hb : (B).Rep b} (h : Normal (ofQ a b ha hb)) :
    a = (B).roundQ .near (a + b) := round_fin_val h

theorem above_of {r : DD} {v : ℝ} (h : DBd true r v) : Above r v := by
  cases h with
  | inf => exact Or.inl ⟨rfl, lit0⟩
  | fin ha hb n hv => exact Or.inr ⟨_, _, ha, hb, rfl, normal_of ha hb n, hv⟩

theorem below_of {r : DD} {v : ℝ} (h : DBd false r v) : Below r v := by
  have h' : DUB (neg r) (-v) := h
  have e := neg_neg' r
  generalize neg r = r' at h' e
  cases h' with
  | inf =>
    rw [← e]
    left
    exact ⟨rfl, by show Fl.neg (lit 0) = _; rw [neg_lit0]; exact lit0⟩
  | fin ha hb n hv =>
    rename_i a b
    rw [← e]
    refine Or.inr ⟨-a, -b, ha.neg, hb.neg, rfl, ?_, ?_⟩
    · exact normal_of ha.neg hb.neg (by rw [← neg_add, roundQ_neg_near, ← n])
    · push_cast; linarith

section
variable {x1 x2 y1 y2 : ℚ} (hx1 : (B).Rep x1) (hx2 : (B).Rep x2) (hy1 : (B).Rep y1) (hy2 : (B).Rep y2)

/-- **C22** (addition).  `add_down` and `add_up` of arbitrary finite pairs enclose the exact sum;
the results are normalised. -/
theorem C22_add :
    Below (addDown (ofQ x1 x2 hx1 hx2) (ofQ y1 y2 hy1 hy2)) ((x1 : ℝ) + x2 + (y1 + y2)) ∧
    Above (addUp (ofQ x1 x2 hx1 hx2) (ofQ y1 y2 hy1 hy2)) ((x1 : ℝ) + x2 + (y1 + y2)) :=
  ⟨below_of (addR_bd hx1 hx2 hy1 hy2 false), above_of (addR_bd hx1 hx2 hy1 hy2 true)⟩

/-- **C22** (subtraction). -/
theorem C22_sub :
    Below (subDown (ofQ x1 x2 hx1 hx2) (ofQ y1 y2 hy1 hy2)) ((x1 : ℝ) + x2 - (y1 + y2)) ∧
    Above (subUp (ofQ x1 x2 hx1 hx2) (ofQ y1 y2 hy1 hy2)) ((x1 : ℝ) + x2 - (y1 + y2)) :=
  ⟨below_of (subR_bd hx1 hx2 hy1 hy2 false), above_of (subR_bd hx1 hx2 hy1 hy2 true)⟩

/-- **C22** (multiplication), with and without a fused multiply-add; overflow and underflow included. -/
theorem C22_mul (fma : Bool) :
    Below (mulDown fma (ofQ x1 x2 hx1 hx2) (ofQ y1 y2 hy1 hy2)) (((x1 : ℝ) + x2) * (y1 + y2)) ∧
    Above (mulUp fma (ofQ x1 x2 hx1 hx2) (ofQ y1 y2 hy1 hy2)) (((x1 : ℝ) + x2) * (y1 + y2)) :=
  ⟨below_of (mulR_bd hx1 hx2 hy1 hy2 false fma), above_of (mulR_bd hx1 hx2 hy1 hy2 true fma)⟩

/-- **C22** (division), partial.  The divisor is normalised and not zero.  The full property has no
other hypothesis; what is missing is the case that the low component of the divisor is an odd
multiple of the smallest subnormal number while the dividend is above `2^1022`, where the property
is false (`C22_div_up_fails`). -/
theorem C22_div_partial (fma : Bool) (n : Normal (ofQ y1 y2 hy1 hy2)) (h0 : y1 ≠ 0)
    (hh : (B).Rep (y2 * (1 / 2)) ∨ |x1| ≤ 2 ^ (1022 : ℤ)) :
    Below (divDown fma (ofQ x1 x2 hx1 hx2) (ofQ y1 y2 hy1 hy2)) (((x1 : ℝ) + x2) / (y1 + y2)) ∧
    Above (divUp fma (ofQ x1 x2 hx1 hx2) (ofQ y1 y2 hy1 hy2)) (((x1 : ℝ) + x2) / (y1 + y2)) :=
  have hlt := norm_lt hy1 hy2 (of_normal n) h0
  ⟨below_of (divR_bd false fma hx1 hx2 hy1 hy2 hlt hh), above_of (divR_bd true fma hx1 hx2 hy1 hy2 hlt hh)⟩

/-- **C22** (square root) of a normalised number with positive leading component. -/
theorem C22_sqrt (fma : Bool) (n : Normal (ofQ x1 x2 hx1 hx2)) (h0 : 0 < x1) :
    Below (sqrtDown fma (ofQ x1 x2 hx1 hx2)) (Real.sqrt ((x1 : ℝ) + x2)) ∧
    Above (sqrtUp fma (ofQ x1 x2 hx1 hx2)) (Real.sqrt ((x1 : ℝ) + x2)) :=
  ⟨below_of (sqrtR_bd false fma hx1 hx2 h0 (of_normal n)), above_of (sqrtR_bd true fma hx1 hx2 h0 (of_normal n))⟩

end

/-- **C22** (square root of zero and of infinity). -/
theorem C22_sqrt_special (fma : Bool) :
    sqrtDown fma ⟨Fl.zero, Fl.zero⟩ = ⟨Fl.zero, Fl.zero⟩ ∧ sqrtUp fma ⟨Fl.zero, Fl.zero⟩ = ⟨Fl.zero, Fl.zero⟩ ∧
    sqrtDown fma ⟨pinf, Fl.zero⟩ = ⟨pinf, Fl.zero⟩ ∧ sqrtUp fma ⟨pinf, Fl.zero⟩ = ⟨pinf, Fl.zero⟩ := by
  have e : Fl.eq (Fl.zero : Dbl) (lit 0) = true := by rw [lit0]; rfl
  have e2 : Fl.eq (pinf : Dbl) (lit 0) = false := by rw [lit0]; rfl
  have e3 : (lit 0 : Dbl) = Fl.zero := lit0
  refine ⟨?_, ?_, ?_, ?_⟩ <;> simp only [sqrtDown, sqrtUp, e, e2, Bool.and_self, if_true, Bool.false_and,
    Bool.false_eq_true, if_false] <;> simp only [e3] <;> rfl

theorem rep_small : (B).Rep (-2 ^ (-1074 : ℤ)) := (rep_pow (by norm_num) (by norm_num) : (B).Rep (2 ^ (-1074 : ℤ))).neg
theorem rep_one_half : (B).Rep (3 / 2) := ⟨3, -1, by decide, by decide, by decide, by norm_num⟩
theorem rep968 : (B).Rep (2 ^ (968 : ℤ)) := rep_pow (by norm_num) (by norm_num)

/-- the dividend and the divisors of the counterexamples -/
def badX : DD := ofQ (B).maxQ (2 ^ (968 : ℤ)) maxQ_rep rep968
/-- see `badX` -/
def badY : DD := ofQ (3 / 2) (-2 ^ (-1074 : ℤ)) rep_one_half rep_small
/-- see `badX` -/
def badY' : DD := ofQ (3 / 2) (- -2 ^ (-1074 : ℤ)) rep_one_half rep_small.neg

/-- the value of a finite pair -/
def valQ (x : DD) : ℚ :=
  match x with
  | ⟨fin a _, fin b _⟩ => a + b
  | _ => 0

/-- both components are finite -/
def isFin (x : DD) : Bool :=
  match x with
  | ⟨fin _ _, fin _ _⟩ => true
  | _ => false

/-- **C22** fails for `div_up`: with normalised operands the result is finite and strictly below the
exact quotient. -/
theorem C22_div_up_fails (fma : Bool) : Normal badX ∧ Normal badY ∧ isFin (divUp fma badX badY) = true ∧
    valQ (divUp fma badX badY) < valQ badX / valQ badY := by
  refine ⟨?_, ?_, ?_⟩
  · show Fl.add .near _ _ = _; decide +kernel
  · show Fl.add .near _ _ = _; decide +kernel
  · cases fma <;> decide +kernel

/-- **C22** fails for `div_down`. -/
theorem C22_div_down_fails (fma : Bool) : Normal badX ∧ Normal badY' ∧ isFin (divDown fma badX badY') = true ∧
    valQ badX / valQ badY' < valQ (divDown fma badX badY') := by
  refine ⟨?_, ?_, ?_⟩
  · show Fl.add .near _ _ = _; decide +kernel
  · show Fl.add .near _ _ = _; decide +kernel
  · cases fma <;> decide +kernel

/-! ## exactness: the enclosures are not vacuous -/

theorem finishR_exact (s : Bool) {z e : ℚ} (hz : (B).Rep z) (he : (B).Rep e) (n : z = (B).roundQ .near (z + e)) :
    finishR s (fin z hz) (fin e he) = ofQ z e hz he := by
  have er : (Fl.round .near (z + e) : Dbl) = fin z hz := normal_of hz he n
  obtain ⟨h, e'⟩ := twosum_fin hz he hz er
  have e1 : Fl.eq (fin z hz) pinf = false := rfl
  have e2 : Fl.eq (fin z hz) ninf = false := rfl
  have e3 : (⟨fin z hz, fin (z + e - z) h⟩ : DD) = ofQ z e hz he := by
    unfold ofQ; congr 1; exact fin_congr _ _ (by ring)
  cases s <;> simp only [finishR, finishUp, finishDown, e', e1, e2, Bool.false_eq_true, if_false, e3]

theorem tailR_exact (s : Bool) {z e : ℚ} (hz : (B).Rep z) (he : (B).Rep e) (n : z = (B).roundQ .near (z + e)) :
    tailR s (fin z hz, fin e he) (fin 0 rep_zero) = ofQ z e hz he := by
  unfold tailR
  rw [if_neg (by cases s <;> simp [Fl.eq, infS]), if_neg (by cases s <;> simp [Fl.eq, infS])]
  simp only
  rw [add_exact _ he rep_zero he (add_zero e), finishR_exact s hz he n]

/-- **C22**: the sum of two doubles is exact and both directions agree, whenever it does not overflow. -/
theorem C22_add_exact {x y : ℚ} (hx : (B).Rep x) (hy : (B).Rep y) (hs : |x + y| ≤ (B).maxQ) :
    ∃ a b ha hb, addDown (ofQ x 0 hx rep_zero) (ofQ y 0 hy rep_zero) = ofQ a b ha hb ∧
      addUp (ofQ x 0 hx rep_zero) (ofQ y 0 hy rep_zero) = ofQ a b ha hb ∧ a + b = x + y := by
  have er := round_fin_of_le (abs_near_le maxQ_rep.repU hs)
  obtain ⟨h, e⟩ := twosum_fin hx hy (rep_of_repU (roundQ_repU _ _) (abs_near_le maxQ_rep.repU hs)) er
  refine ⟨_, _, rep_of_repU (roundQ_repU _ _) (abs_near_le maxQ_rep.repU hs), h, ?_, ?_, by ring⟩
  · refine (addR_eq hx rep_zero hy rep_zero false).trans ?_
    rw [e, add_exact _ rep_zero rep_zero rep_zero (add_zero 0)]
    exact tailR_exact _ _ _ (by congr 1; ring)
  · refine (addR_eq hx rep_zero hy rep_zero true).trans ?_
    rw [e, add_exact _ rep_zero rep_zero rep_zero (add_zero 0)]
    exact tailR_exact _ _ _ (by congr 1; ring)

/-- **C22**: the product of two doubles of magnitude at most `2^996` is exact and both directions
agree, unless it is smaller than `2^-968`. -/
theorem C22_mul_exact (fma : Bool) {x y : ℚ} (hx : (B).Rep x) (hy : (B).Rep y) (hs : |x * y| ≤ (B).maxQ)
    (h1 : |x| ≤ 2 ^ (996 : ℤ)) (h2 : |y| ≤ 2 ^ (996 : ℤ)) (h3 : 2 ^ (-968 : ℤ) ≤ |x * y|) :
    ∃ a b ha hb, mulDown fma (ofQ x 0 hx rep_zero) (ofQ y 0 hy rep_zero) = ofQ a b ha hb ∧
      mulUp fma (ofQ x 0 hx rep_zero) (ofQ y 0 hy rep_zero) = ofQ a b ha hb ∧ a + b = x * y := by
  have er := round_fin_of_le (abs_near_le maxQ_rep.repU hs)
  have h0 : x * y ≠ 0 := by
    intro h; rw [h, abs_zero] at h3; exact absurd h3 (not_le.2 (two_zpow_pos _))
  have hbig : 2 ^ (-969 : ℤ) ≤ |(B).roundQ .near (x * y)| := by
    have hp : (B).RepU (2 ^ (-968 : ℤ)) := repU_pow (by rw [emin64]; norm_num)
    refine (pw_le (by norm_num) : (2 : ℚ) ^ (-969 : ℤ) ≤ 2 ^ (-968 : ℤ)).trans ?_
    rcases abs_choice (x * y) with h | h
    · rw [h] at h3
      exact (le_roundQ_of_le .near hp h3).trans (le_abs_self _)
    · rw [h] at h3
      have := roundQ_le_of_le (F := B) .near hp.neg (q := x * y) (by linarith)
      have h4 := neg_le_abs ((B).roundQ .near (x * y))
      linarith
  have hR := rep_of_repU (roundQ_repU .near (x * y)) (abs_near_le maxQ_rep.repU hs)
  have key : ∀ s, ∃ h : (B).Rep (x * y - (B).roundQ .near (x * y)),
      mulR s fma (ofQ x 0 hx rep_zero) (ofQ y 0 hy rep_zero) =
      ofQ ((B).roundQ .near (x * y)) (x * y - (B).roundQ .near (x * y)) hR h := by
    intro s
    obtain ⟨h, e⟩ := twoproductR_fin (dir s) fma hx hy h1 h2 hR er h0 (gridOk_of_le hx hy hbig)
    refine ⟨h, ?_⟩
    refine (mulR_eq hx rep_zero hy rep_zero s fma).trans ?_
    rw [e, mul_exact _ hx rep_zero rep_zero (mul_zero x), mul_exact _ rep_zero hy rep_zero (zero_mul y),
      mul_exact _ rep_zero rep_zero rep_zero (zero_mul 0), add_exact _ rep_zero rep_zero rep_zero (add_zero 0),
      add_exact _ rep_zero rep_zero rep_zero (add_zero 0)]
    exact tailR_exact _ _ _ (by congr 1; ring)
  obtain ⟨h, e1⟩ := key false
  obtain ⟨_, e2⟩ := key true
  exact ⟨_, _, hR, h, e1, e2, by ring⟩

/-! ## C51: comparison, C52: floor and ceil -/

/-- **C51**.  Comparisons of finite normalised numbers agree with the order of the values. -/
theorem C51_compare {x1 x2 y1 y2 : ℚ} {hx1 : (B).Rep x1} {hx2 : (B).Rep x2} {hy1 : (B).Rep y1} {hy2 : (B).Rep y2}
    (nx : Normal (ofQ x1 x2 hx1 hx2)) (ny : Normal (ofQ y1 y2 hy1 hy2)) :
    (lt (ofQ x1 x2 hx1 hx2) (ofQ y1 y2 hy1 hy2) = true ↔ x1 + x2 < y1 + y2) ∧
    (le (ofQ x1 x2 hx1 hx2) (ofQ y1 y2 hy1 hy2) = true ↔ x1 + x2 ≤ y1 + y2) ∧
    (eq (ofQ x1 x2 hx1 hx2) (ofQ y1 y2 hy1 hy2) = true ↔ x1 + x2 = y1 + y2) := by
  have nx := of_normal nx
  have ny := of_normal ny
  have m1 : x1 < y1 → x1 + x2 < y1 + y2 := by
    intro h; by_contra hc
    have := roundQ_mono (F := B) .near (not_lt.1 hc)
    rw [← nx, ← ny] at this; linarith
  have m2 : y1 < x1 → y1 + y2 < x1 + x2 := by
    intro h; by_contra hc
    have := roundQ_mono (F := B) .near (not_lt.1 hc)
    rw [← nx, ← ny] at this; linarith
  have L : ∀ {a b : ℚ} (ha : (B).Rep a) (hb : (B).Rep b), Fl.lt (fin a ha) (fin b hb) = decide (a < b) := fun _ _ => rfl
  have L2 : ∀ {a b : ℚ} (ha : (B).Rep a) (hb : (B).Rep b), Fl.le (fin a ha) (fin b hb) = decide (a ≤ b) := fun _ _ => rfl
  have L3 : ∀ {a b : ℚ} (ha : (B).Rep a) (hb : (B).Rep b), Fl.eq (fin a ha) (fin b hb) = decide (a = b) := fun _ _ => rfl
  unfold lt le eq ofQ
  simp only [L, L2, L3]
  rcases lt_trichotomy x1 y1 with h | h | h
  · have := m1 h
    simp [h, h.ne, this, this.le, this.ne]
  · subst h
    simp
  · have := m2 h
    simp [h, not_lt.2 h.le, h.ne', not_lt.2 this.le, not_le.2 this, this.ne']

/-- **C51** fails for values that are not numbers: a NaN compares less than a number, because the
comparison then looks at the second components.  `(nan, 0)` is the result of `∞ - ∞`. -/
theorem C51_nan_fails : subUp ⟨pinf, Fl.zero⟩ ⟨pinf, Fl.zero⟩ = ⟨nan, Fl.zero⟩ ∧
    lt ⟨nan, Fl.zero⟩ (ofQ (3 / 2) (- -2 ^ (-1074 : ℤ)) rep_one_half rep_small.neg) = true := by
  constructor <;> decide +kernel

theorem int_of_large {q : ℚ} (hq : (B).Rep q) (h : 2 ^ (60 : ℤ) ≤ |q|) : ((⌊q⌋ : ℤ) : ℚ) = q ∧ ((⌈q⌉ : ℤ) : ℚ) = q := by
  obtain ⟨n, hn⟩ := (onGrid_of_large p64 hq.repU h).mono (show (0 : ℤ) ≤ 60 - 52 by norm_num)
  rw [zpow_zero, mul_one] at hn
  rw [hn]; simp

theorem intpart_fin {a1 a2 : ℚ} (h1 : (B).Rep a1) (n : a1 = (B).roundQ .near (a1 + a2)) {m : ℤ}
    (hm : |(m : ℚ) - a2| < 1) (hm' : 2 ^ (60 : ℤ) ≤ |a2| → (m : ℚ) = a2) :
    |(B).roundQ .near (a1 + m)| ≤ (B).maxQ := by
  rcases le_or_gt (2 ^ (60 : ℤ)) |a2| with h | h
  · rw [hm' h, ← n]; exact h1.abs_le
  · by_contra hc
    have h3 := ovf hc
    have h4 := abs_add_le a1 (m : ℚ)
    have h5 : |(m : ℚ)| ≤ |(m : ℚ) - a2| + |a2| := by
      have := abs_add_le ((m : ℚ) - a2) a2
      rwa [sub_add_cancel] at this
    have h6 := h1.abs_le
    have h7 : (2 : ℚ) ^ (60 : ℤ) + 1 < 2 ^ (970 : ℤ) := by norm_num
    linarith

/-- **C52**.  `floor` of a finite normalised number is exact: a normalised pair whose value is the
greatest integer not above. -/
theorem C52_floor {x1 x2 : ℚ} {hx1 : (B).Rep x1} {hx2 : (B).Rep x2} (n : Normal (ofQ x1 x2 hx1 hx2)) :
    ∃ a b ha hb, floor (ofQ x1 x2 hx1 hx2) = ofQ a b ha hb ∧ Normal (ofQ a b ha hb) ∧
      a + b = (⌊x1 + x2⌋ : ℤ) := by
  have n' := of_normal n
  have e1 : Fl.floor (fin x1 hx1) = fin _ hx1.floor := round_of_rep _ _
  have e2 : Fl.floor (fin x2 hx2) = fin _ hx2.floor := round_of_rep _ _
  have e3 : Fl.eq (fin _ hx1.floor) (fin x1 hx1) = decide (((⌊x1⌋ : ℤ) : ℚ) = x1) := rfl
  unfold floor
  simp only [ofQ, e1, e2, e3]
  by_cases h : ((⌊x1⌋ : ℤ) : ℚ) = x1
  · simp only [h, decide_true, Bool.not_true, Bool.false_eq_true, if_false]
    have hm := intpart_fin hx1 n' (m := ⌊x2⌋)
      (by rw [abs_lt]; constructor <;> linarith [Int.floor_le x2, Int.lt_floor_add_one x2])
      (fun hl => (int_of_large hx2 hl).1)
    have er := round_fin_of_le hm
    obtain ⟨h', e'⟩ := twosum_fin hx1 hx2.floor (rep_of_repU (roundQ_repU _ _) hm) er
    have e4 : twosum (fin ((⌊x1⌋ : ℤ) : ℚ) hx1.floor) (fin ((⌊x2⌋ : ℤ) : ℚ) hx2.floor) = _ :=
      (congrArg (fun t => twosum t (fin ((⌊x2⌋ : ℤ) : ℚ) hx2.floor)) (fin_congr hx1.floor hx1 h)).trans e'
    refine ⟨_, _, rep_of_repU (roundQ_repU _ _) hm, h', ?_, ?_, ?_⟩
    · rw [e']
    · exact normal_of _ _ (by congr 1; ring)
    · rw [show (B).roundQ .near (x1 + (⌊x2⌋ : ℤ)) + (x1 + (⌊x2⌋ : ℤ) - (B).roundQ .near (x1 + (⌊x2⌋ : ℤ))) =
        x1 + (⌊x2⌋ : ℤ) by ring]
      rw [← h, Int.floor_intCast_add]
      push_cast; ring
  · simp only [h, decide_false, Bool.not_false, if_true]
    refine ⟨_, _, hx1.floor, rep_zero, by rw [lit0], normal_of _ _ ?_, ?_⟩
    · rw [add_zero, hx1.floor.repU.roundQ_eq]
    · rw [add_zero]
      congr 1
      symm
      rw [Int.floor_eq_iff]
      have l1 : ((⌊x1⌋ : ℤ) : ℚ) < x1 := lt_of_le_of_ne (Int.floor_le x1) h
      constructor
      · by_contra hc
        have := roundQ_le_of_le (F := B) .near hx1.floor.repU (not_le.1 hc).le
        rw [← n'] at this; linarith
      · by_contra hc
        have hce : ((⌈x1⌉ : ℤ) : ℚ) = ⌊x1⌋ + 1 := by
          have : ⌈x1⌉ = ⌊x1⌋ + 1 := by
            rw [Int.ceil_eq_iff]; push_cast
            exact ⟨by linarith, (Int.lt_floor_add_one x1).le⟩
          rw [this]; push_cast; ring
        have := le_roundQ_of_le (F := B) .near hx1.ceil.repU (q := x1 + x2) (by rw [hce]; exact not_lt.1 hc)
        rw [← n', hce] at this
        linarith [Int.lt_floor_add_one x1]

/-- **C52** for `ceil`. -/
theorem C52_ceil {x1 x2 : ℚ} {hx1 : (B).Rep x1} {hx2 : (B).Rep x2} (n : Normal (ofQ x1 x2 hx1 hx2)) :
    ∃ a b ha hb, ceil (ofQ x1 x2 hx1 hx2) = ofQ a b ha hb ∧ Normal (ofQ a b ha hb) ∧
      a + b = (⌈x1 + x2⌉ : ℤ) := by
  have n' := of_normal n
  have e1 : Fl.ceil (fin x1 hx1) = fin _ hx1.ceil := round_of_rep _ _
  have e2 : Fl.ceil (fin x2 hx2) = fin _ hx2.ceil := round_of_rep _ _
  have e3 : Fl.eq (fin _ hx1.ceil) (fin x1 hx1) = decide (((⌈x1⌉ : ℤ) : ℚ) = x1) := rfl
  unfold ceil
  simp only [ofQ, e1, e2, e3]
  by_cases h : ((⌈x1⌉ : ℤ) : ℚ) = x1
  · simp only [h, decide_true, Bool.not_true, Bool.false_eq_true, if_false]
    have hm := intpart_fin hx1 n' (m := ⌈x2⌉)
      (by rw [abs_lt]; constructor <;> linarith [Int.le_ceil x2, Int.ceil_lt_add_one x2])
      (fun hl => (int_of_large hx2 hl).2)
    have er := round_fin_of_le hm
    obtain ⟨h', e'⟩ := twosum_fin hx1 hx2.ceil (rep_of_repU (roundQ_repU _ _) hm) er
    refine ⟨_, _, rep_of_repU (roundQ_repU _ _) hm, h', ?_, ?_, ?_⟩
    · rw [e']
    · exact normal_of _ _ (by congr 1; ring)
    · rw [show (B).roundQ .near (x1 + (⌈x2⌉ : ℤ)) + (x1 + (⌈x2⌉ : ℤ) - (B).roundQ .near (x1 + (⌈x2⌉ : ℤ))) =
        x1 + (⌈x2⌉ : ℤ) by ring]
      rw [← h, Int.ceil_intCast_add]
      push_cast; ring
  · simp only [h, decide_false, Bool.not_false, if_true]
    refine ⟨_, _, hx1.ceil, rep_zero, by rw [lit0], normal_of _ _ ?_, ?_⟩
    · rw [add_zero, hx1.ceil.repU.roundQ_eq]
    · rw [add_zero]
      congr 1
      symm
      rw [Int.ceil_eq_iff]
      have l1 : x1 < ((⌈x1⌉ : ℤ) : ℚ) := lt_of_le_of_ne (Int.le_ceil x1) (Ne.symm h)
      constructor
      · by_contra hc
        have hce : ((⌊x1⌋ : ℤ) : ℚ) = ⌈x1⌉ - 1 := by
          have : ⌊x1⌋ = ⌈x1⌉ - 1 := by
            rw [Int.floor_eq_iff]; push_cast
            exact ⟨by linarith [Int.ceil_lt_add_one x1], by linarith⟩
          rw [this]; push_cast; ring
        have := roundQ_le_of_le (F := B) .near hx1.floor.repU (q := x1 + x2) (by rw [hce]; exact not_lt.1 hc)
        rw [← n', hce] at this
        linarith [Int.ceil_lt_add_one x1]
      · by_contra hc
        have := le_roundQ_of_le (F := B) .near hx1.ceil.repU (not_le.1 hc).le
        rw [← n'] at this; linarith

/-! ## the hypotheses are met by concrete numbers -/

theorem rep_p60 : (B).Rep (2 ^ (-60 : ℤ)) := rep_pow (by norm_num) (by norm_num)
theorem normal_ex : Normal (ofQ (3 / 2) (2 ^ (-60 : ℤ)) rep_one_half rep_p60) := by
  show Fl.add .near _ _ = _; decide +kernel

example : (B).Rep ((2 : ℚ) ^ (-60 : ℤ) * (1 / 2)) := ⟨1, -61, by decide, by decide, by decide, by norm_num⟩
example (fma : Bool) := C22_div_partial maxQ_rep rep968 _ _ fma normal_ex (by norm_num)
    (Or.inl ⟨1, -61, by decide, by decide, by decide, by norm_num⟩)
example (fma : Bool) := C22_sqrt _ _ fma normal_ex (by norm_num)
example := C51_compare normal_ex normal_ex
example := C52_floor normal_ex
example : |(3 / 2 : ℚ) * (3 / 2)| ≤ (B).maxQ ∧ (2 : ℚ) ^ (-968 : ℤ) ≤ |(3 / 2 : ℚ) * (3 / 2)| := by decide +kernel

end DD
end Kv
