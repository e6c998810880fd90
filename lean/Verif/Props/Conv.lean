import Verif.Conv.Size
import Verif.Conv.Exact

/-!
# Properties of decimal output and input (C23, C24, C25, C60, C61)

Specification: `Denotes s v` (Conv/Spec.lean): the string `s` is a decimal literal whose value is the rational number `v`.
-/

namespace Kv
open RopSem Kv.Interval Kv.Conv

/-- spaces that may precede a literal -/
def spaces : List Char := [' ', '\t', '\n', '\r']

/-- the distance of two neighbouring numbers that can be printed in a format with a precision, near `q > 0`: fixed-point numbers
with `prec` digits after the point, scientific ones with `prec + 1` digits, general ones with `prec` digits; the format `a`
prints all digits -/
def spacing (fmt : Fmt) (prec : ℕ) (q : ℚ) : ℚ :=
  match fmt with
  | .f => 10 ^ (-(prec : ℤ))
  | .e => 10 ^ (Int.log 10 q - prec)
  | .g => 10 ^ (Int.log 10 q + 1 - prec)
  | .a => 0

/-- a literal the conversion is defined for: not a zero with a negative exponent, and not of astronomic size -/
def Lit.Readable (L : Lit) : Prop :=
  (L.mantissa ≠ 0 ∨ 0 ≤ L.exponent) ∧ L.ip.length + (L.fp.getD []).length + L.exponent.natAbs ≤ 100000000

instance (L : Lit) : Decidable L.Readable := inferInstanceAs (Decidable (_ ∧ _))

namespace Conv

theorem value_neg (L : Lit) (h : L.sgn = none) : ({ L with sgn := some true } : Lit).value = -L.value := by
  have h1 : ({ L with sgn := some true } : Lit).mantissa = L.mantissa := rfl
  have h2 : ({ L with sgn := some true } : Lit).exponent = L.exponent := rfl
  rw [Lit.value, Lit.value, h1, h2, if_pos rfl, h, if_neg (by simp)]
  ring

theorem text_neg (L : Lit) (h : L.sgn = none) : ({ L with sgn := some true } : Lit).text = '-' :: L.text := by
  simp [Lit.text, signChars, h]

theorem value_ne {L : Lit} (h : L.value ≠ 0) : L.mantissa ≠ 0 := by
  intro h2
  apply h
  rw [Lit.value, h2]; ring

/-- everything about `dtostring` -/
theorem dtostring_spec {q : ℚ} (h : binary64.Rep q) (prec : ℕ) (fmt : Fmt) (hp : fmt = .g → 1 ≤ prec) (mode : RMode) :
    ∃ L : Lit, L.Valid ∧ L.Readable ∧ dtostring (Fl.fin q h) prec fmt mode = .ok L.text ∧
      (mode = .up → q ≤ L.value) ∧ (mode = .down → L.value ≤ q) ∧ |L.value - q| ≤ spacing fmt prec |q| ∧
      (mode = .near → 2 * |L.value - q| ≤ spacing fmt prec |q|) := by
  have hsp : spacing fmt prec |q| = tol fmt prec |q| := rfl
  by_cases h0 : q = 0
  · have hv : (⟨none, [0], none, none⟩ : Lit).value = 0 := by simp [Lit.value, Lit.mantissa, decNat]
    have hn : 0 ≤ spacing fmt prec |q| := by
      cases fmt <;> simp only [spacing] <;> positivity
    refine ⟨⟨none, [0], none, none⟩, by decide, ⟨Or.inr le_rfl, by decide⟩, ?_, ?_, ?_, ?_, ?_⟩
    · rw [dtostring, if_pos h0]; rfl
    · rw [hv, h0]; exact fun _ => le_rfl
    · rw [hv, h0]; exact fun _ => le_rfl
    · rw [hv, h0] at *; simpa using hn
    · rw [hv, h0] at *; intro _; simpa using hn
  · have ha : 0 < |q| := abs_pos.2 h0
    have hr : binary64.Rep |q| := by
      rcases abs_choice q with h1 | h1 <;> rw [h1]
      · exact h
      · exact h.neg
    obtain ⟨d1, d2, d3, d4⟩ := toDec_spec ha hr
    have hlen := toDec_len ha hr
    obtain ⟨L, v1, v2, v3, v4, v5, v6⟩ := render_spec d2 d3 d4 (by rw [d1]; exact ha) prec fmt hp mode (decide (q < 0))
    rw [d1] at v4
    have hread : L.Readable := by
      refine ⟨v5.imp value_ne (fun h => h.ge), by omega⟩
    by_cases hn : q < 0
    · refine ⟨{ L with sgn := some true }, v1, hread, ?_, ?_, ?_, ?_, ?_⟩
      · rw [dtostring, if_neg h0, v3, text_neg L v2, if_pos hn]; rfl
      · intro hm
        have := v4.shrink (Or.inr ⟨hm, by simpa using hn⟩)
        rw [abs_of_neg hn] at this
        rw [value_neg L v2]; linarith
      · intro hm
        have := v4.grow (Or.inr ⟨hm, by simpa using hn⟩)
        rw [abs_of_neg hn] at this
        rw [value_neg L v2]; linarith
      · rw [value_neg L v2, ← abs_neg, hsp]
        have := v4.close
        rw [abs_of_neg hn] at this ⊢
        rwa [show -(-L.value - q) = L.value - -q by ring]
      · intro hm
        rw [value_neg L v2, ← abs_neg, hsp]
        have := v4.near hm
        rw [abs_of_neg hn] at this ⊢
        rwa [show -(-L.value - q) = L.value - -q by ring]
    · have hq : |q| = q := abs_of_nonneg (not_lt.1 hn)
      rw [hq] at v4 hsp ⊢
      refine ⟨L, v1, hread, ?_, ?_, ?_, ?_, ?_⟩
      · rw [dtostring, if_neg h0, v3, if_neg hn]; rfl
      · exact fun hm => v4.grow (Or.inl ⟨hm, by simpa using hn⟩)
      · exact fun hm => v4.shrink (Or.inl ⟨hm, by simpa using hn⟩)
      · rw [hsp]; exact v4.close
      · intro hm; rw [hsp]; exact v4.near hm

theorem up_hi {r : D} {X : ℚ} (h : UpOf r X) : Hi r (X : ℝ) := by
  rcases r with _ | _ | _ | ⟨q, hq⟩
  · exact h.elim
  · exact ⟨not_nan_dPinf, le_top⟩
  · exact h.elim
  · have h1 : (X : ℝ) ≤ (q : ℝ) := by exact_mod_cast (show X ≤ q from h)
    exact ⟨(Hw.is_fin hq).1, EReal.coe_le_coe_iff.2 h1⟩

theorem dn_lo {r : D} {X : ℚ} (h : DnOf r X) : Lo r (X : ℝ) := by
  rcases r with _ | _ | _ | ⟨q, hq⟩
  · exact h.elim
  · exact h.elim
  · exact ⟨not_nan_dNinf, bot_le⟩
  · have h1 : (q : ℝ) ≤ (X : ℝ) := by exact_mod_cast (show q ≤ X from h)
    exact ⟨(Hw.is_fin hq).1, EReal.coe_le_coe_iff.2 h1⟩

/-- what is parsed from a literal -/
theorem parsed_lit {L : Lit} (hL : L.Valid) {sp : List Char} (hsp : ∀ c ∈ sp, c ∈ spaces) :
    (parse (sp ++ L.text)).Digits ∧
    (if (parse (sp ++ L.text)).neg then -1 else 1) * (parse (sp ++ L.text)).abs = L.value ∧
    ((parse (sp ++ L.text)).abs = 0 ↔ L.mantissa = 0) ∧
    ((parse (sp ++ L.text)).eneg = true ∧ atoi (parse (sp ++ L.text)).nume ≠ 0 ↔ L.exponent < 0) ∧
    atoi (parse (sp ++ L.text)).nume + (parse (sp ++ L.text)).num1.length + (parse (sp ++ L.text)).num2.length =
      L.ip.length + (L.fp.getD []).length + L.exponent.natAbs := by
  have hsp' : ∀ c ∈ sp, isSpace c = true := by
    intro c hc
    have := hsp c hc
    simp only [spaces, List.mem_cons, List.not_mem_nil, or_false] at this
    rcases this with rfl | rfl | rfl | rfl <;> decide
  have hat : ∀ l, atoi l = decNat l := fun l => rfl
  have hm : L.mantissa = (vBE 10 L.ip : ℚ) + fv 10 (L.fp.getD []) := by
    have := fv_eq (b := 10) (by norm_num) (L.fp.getD [])
    rw [Lit.mantissa, decNat_eq, decNat_eq, ← this]
    push_cast
    field_simp
  have hx := exponent_eq L
  rw [parse_spec hL hsp']
  unfold Parsed.abs Parsed.Digits
  dsimp only
  rw [hat, ← hx, ← hm]
  refine ⟨⟨hL.1, hL.2.1⟩, ?_, ?_, ?_, ?_⟩
  · rw [Lit.value, ← mul_assoc]
    simp
  · rw [mul_eq_zero]
    exact ⟨fun h => h.resolve_right (zpow_ne_zero _ (by norm_num)), Or.inl⟩
  · rw [hx]
    cases exNeg L
    · simp
    · simp only [if_true, true_and]; omega
  · rw [hx]
    cases exNeg L
    · simp only [Bool.false_eq_true, if_false]; omega
    · simp only [if_true]; omega

/-- a literal means one number only -/
theorem text_value {L M : Lit} (hL : L.Valid) (hM : M.Valid) (h : L.text = M.text) : L.value = M.value := by
  have h1 := (parsed_lit hL (sp := []) (by simp)).2.1
  have h2 := (parsed_lit hM (sp := []) (by simp)).2.1
  rw [List.nil_append] at h1 h2
  rw [← h1, ← h2, h]

/-- everything about `stringtod` -/
theorem stringtod_spec {L : Lit} (hL : L.Valid) {sp : List Char} (hsp : ∀ c ∈ sp, c ∈ spaces) (mode : RMode) :
    (∀ r, stringtod (sp ++ L.text) mode = .ok r →
      (mode = .up → Hi r (L.value : ℝ)) ∧ (mode = .down → Lo r (L.value : ℝ))) ∧
    (L.Readable → ∃ r, stringtod (sp ++ L.text) mode = .ok r) ∧
    (L.mantissa = 0 → L.exponent < 0 → stringtod (sp ++ L.text) mode = .error .undefined) := by
  obtain ⟨p1, p2, p3, p4, p5⟩ := parsed_lit hL hsp
  obtain ⟨c1, c2⟩ := convert_spec p1 (mode := mode)
  rw [p2] at c1
  rw [p5] at c2
  refine ⟨fun r h => ⟨fun hm => up_hi ((c1 r h).1 hm), fun hm => dn_lo ((c1 r h).2 hm)⟩, fun h => ?_, fun h1 h2 => ?_⟩
  · rcases c2 h.2 with ⟨-, h1⟩ | ⟨h1, h2, h3, -⟩
    · exact h1
    · have := p4.1 ⟨h2, h3⟩
      rcases h.1 with h4 | h4
      · exact absurd (p3.1 h1) h4
      · omega
  · by_cases hs : L.ip.length + (L.fp.getD []).length + L.exponent.natAbs ≤ 100000000
    · rcases c2 hs with ⟨h3, -⟩ | ⟨-, -, -, h3⟩
      · obtain ⟨h4, h5⟩ := p4.2 h2
        rcases h3 with h3 | h3 | h3
        · exact absurd (p3.2 h1) h3
        · rw [h3] at h4; simp at h4
        · exact absurd h3 h5
      · exact h3
    · unfold stringtod convert
      dsimp only
      rw [if_pos (by omega)]

end Conv

/-! ## C23: output rounds outward -/

/-- C23: what `dtostring` prints for a finite double is a decimal literal, and its value is an upper bound with direction up, a
lower bound with direction down. -/
theorem C23_dtostring {q : ℚ} (h : binary64.Rep q) (prec : ℕ) (fmt : Fmt) (hp : 1 ≤ prec) (mode : RMode) :
    ∃ s v, dtostring (Fl.fin q h) prec fmt mode = .ok s ∧ Denotes s v ∧ (mode = .up → q ≤ v) ∧ (mode = .down → v ≤ q) := by
  obtain ⟨L, h1, -, h2, h3, h4, -⟩ := dtostring_spec h prec fmt (fun _ => hp) mode
  exact ⟨L.text, L.value, h2, ⟨L, h1, rfl, rfl⟩, h3, h4⟩

/-- C23: an interval with finite bounds is printed as `[s1,s2]` with two literals that enclose it. -/
theorem C23_interval {I : Interval D} {a b : ℚ} {ha : binary64.Rep a} {hb : binary64.Rep b} (h1 : I.inf = Hw.fin a ha)
    (h2 : I.sup = Hw.fin b hb) (prec : ℕ) (fmt : Fmt) (hp : 1 ≤ prec) :
    ∃ s1 s2 v1 v2, printI I prec fmt = .ok ('[' :: s1 ++ ',' :: s2 ++ [']']) ∧ Denotes s1 v1 ∧ Denotes s2 v2 ∧
      ∀ x ∈ I, (v1 : ℝ) ≤ x ∧ x ≤ v2 := by
  obtain ⟨s1, v1, k1, k2, -, k3⟩ := C23_dtostring ha prec fmt hp .down
  obtain ⟨s2, v2, l1, l2, l3, -⟩ := C23_dtostring hb prec fmt hp .up
  refine ⟨s1, s2, v1, v2, ?_, k2, l2, fun x hx => ?_⟩
  · rw [printI, h1, h2]
    erw [k1, l1]
    rfl
  · obtain ⟨⟨-, x1⟩, -, x2⟩ := hx
    rw [h1] at x1
    rw [h2] at x2
    have y1 : (a : ℝ) ≤ x := EReal.coe_le_coe_iff.1 x1
    have y2 : x ≤ (b : ℝ) := EReal.coe_le_coe_iff.1 x2
    exact ⟨le_trans (by exact_mod_cast k3 rfl) y1, le_trans y2 (by exact_mod_cast l3 rfl)⟩

/-- C23: with precision 0 the default format is wrong: 0.05 rounded up is printed as `0`, and for 5 the code reads outside
of its digits. -/
theorem C23_precision0 :
    dtostring (Fl.round .near (1 / 20) : Fl binary64) 0 .g .up = .ok ['0'] ∧
    dtostring (Fl.round .near 5 : Fl binary64) 0 .g .up = .error .undefined := by
  decide +kernel

/-- three directions, three formats -/
example : dtostring (Fl.round .near (1 / 10) : Fl binary64) 17 .g .up = .ok "0.10000000000000001".toList ∧
    dtostring (Fl.round .near (1 / 10) : Fl binary64) 17 .g .down = .ok "0.1".toList ∧
    dtostring (Fl.round .near (-1 / 3) : Fl binary64) 3 .e .down = .ok "-3.334e-01".toList ∧
    dtostring (Fl.round .near (999999 / 1000) : Fl binary64) 2 .f .up = .ok "1000".toList ∧
    dtostring (Fl.round .near (2 ^ 70) : Fl binary64) 6 .g .near = .ok "1.18059e+21".toList := by decide +kernel

/-! ## C24: input rounds outward -/

/-- C24: if `stringtod` returns, then the double is an upper bound of the value of the literal with direction up, a lower bound with
direction down; this includes over- and underflow. -/
theorem C24_string {s : List Char} {v : ℚ} (hs : Denotes s v) {sp : List Char} (hsp : ∀ c ∈ sp, c ∈ spaces) {mode : RMode} {r : D}
    (h : stringtod (sp ++ s) mode = .ok r) : (mode = .up → Hi r (v : ℝ)) ∧ (mode = .down → Lo r (v : ℝ)) := by
  obtain ⟨L, hL, rfl, rfl⟩ := hs
  exact (stringtod_spec hL hsp mode).1 r h

/-- C24: the interval made from two literals contains every number between their values; with `s1 = s2` it contains the value of
the literal. -/
theorem C24_interval {s1 s2 : List Char} {v1 v2 : ℚ} (h1 : Denotes s1 v1) (h2 : Denotes s2 v2) {I : Interval D}
    (h : ofStrings s1 s2 = .ok I) {x : ℝ} (l : (v1 : ℝ) ≤ x) (u : x ≤ v2) : x ∈ I := by
  obtain ⟨a, ha, h⟩ := bind_ok.1 h
  obtain ⟨b, hb, h⟩ := bind_ok.1 h
  simp only [Except.ok.injEq] at h
  subst h
  have k1 := (C24_string h1 (sp := []) (by simp) ha).2 rfl
  have k2 := (C24_string h2 (sp := []) (by simp) hb).1 rfl
  exact ⟨⟨k1.1, k1.2.trans (EReal.coe_le_coe_iff.2 l)⟩, k2.1, (EReal.coe_le_coe_iff.2 u).trans k2.2⟩

/-- C24: the conversion is defined for every literal that is not a zero with a negative exponent (up to 10^8 digits and
exponents). -/
theorem C24_defined {L : Lit} (hL : L.Valid) (hr : L.Readable) {sp : List Char} (hsp : ∀ c ∈ sp, c ∈ spaces) (mode : RMode) :
    ∃ r, stringtod (sp ++ L.text) mode = .ok r :=
  (stringtod_spec hL hsp mode).2.1 hr

/-- C24 is violated: for a zero with a negative exponent the code takes the front of an empty list. -/
theorem C24_zero_violated {L : Lit} (hL : L.Valid) (h0 : L.mantissa = 0) (he : L.exponent < 0) {sp : List Char}
    (hsp : ∀ c ∈ sp, c ∈ spaces) (mode : RMode) : stringtod (sp ++ L.text) mode = .error .undefined :=
  (stringtod_spec hL hsp mode).2.2 h0 he

/-- `0e-5` is such a literal -/
example : (⟨none, [0], none, some (false, some true, [5])⟩ : Lit).Valid ∧
    (⟨none, [0], none, some (false, some true, [5])⟩ : Lit).text = "0e-5".toList ∧
    (⟨none, [0], none, some (false, some true, [5])⟩ : Lit).mantissa = 0 ∧
    (⟨none, [0], none, some (false, some true, [5])⟩ : Lit).exponent < 0 := by decide +kernel

/-- `-12.50E+3` is readable and means -12500 -/
example : (⟨some true, [1, 2], some [5, 0], some (true, some false, [3])⟩ : Lit).Valid ∧
    (⟨some true, [1, 2], some [5, 0], some (true, some false, [3])⟩ : Lit).Readable ∧
    (⟨some true, [1, 2], some [5, 0], some (true, some false, [3])⟩ : Lit).text = "-12.50E+3".toList ∧
    (⟨some true, [1, 2], some [5, 0], some (true, some false, [3])⟩ : Lit).value = -12500 := by decide +kernel

/-- 0.1 lies strictly between the two doubles found; overflow and underflow -/
example : (∃ a b : ℚ, ∃ ha hb, stringtod "0.1".toList .down = .ok (Hw.fin a ha) ∧ stringtod "0.1".toList .up = .ok (Hw.fin b hb) ∧
      a < 1 / 10 ∧ 1 / 10 < b) ∧
    stringtod "-1e400".toList .down = .ok dNinf ∧ stringtod "1e-400".toList .down = .ok (Rop.lit 0) := by
  refine ⟨⟨7205759403792793 / 2 ^ 56, 7205759403792794 / 2 ^ 56, ?_, ?_, ?_, ?_, ?_, ?_⟩, ?_, ?_⟩ <;> decide +kernel

/-! ## C25: print, then read -/

/-- C25: an interval with finite bounds is printed as `[s1,s2]`, and the interval made from the strings `s1` and `s2` contains it. -/
theorem C25_roundtrip {I : Interval D} {a b : ℚ} {ha : binary64.Rep a} {hb : binary64.Rep b} (h1 : I.inf = Hw.fin a ha)
    (h2 : I.sup = Hw.fin b hb) (prec : ℕ) (fmt : Fmt) (hp : 1 ≤ prec) :
    ∃ s1 s2 J, printI I prec fmt = .ok ('[' :: s1 ++ ',' :: s2 ++ [']']) ∧ ofStrings s1 s2 = .ok J ∧ ∀ x ∈ I, x ∈ J := by
  obtain ⟨L, k1, k2, k3, -, k4, -⟩ := dtostring_spec ha prec fmt (fun _ => hp) .down
  obtain ⟨M, l1, l2, l3, l4, -⟩ := dtostring_spec hb prec fmt (fun _ => hp) .up
  obtain ⟨r, hr⟩ := C24_defined k1 k2 (sp := []) (by simp) .down
  obtain ⟨t, ht⟩ := C24_defined l1 l2 (sp := []) (by simp) .up
  have hJ : ofStrings L.text M.text = .ok ⟨r, t⟩ := by
    rw [ofStrings, ← List.nil_append L.text, ← List.nil_append M.text, hr, ht]; rfl
  refine ⟨L.text, M.text, ⟨r, t⟩, ?_, hJ, fun x hx => ?_⟩
  · rw [printI, h1, h2]
    erw [k3, l3]
    rfl
  · obtain ⟨⟨-, x1⟩, -, x2⟩ := hx
    rw [h1] at x1
    rw [h2] at x2
    have y1 : (a : ℝ) ≤ x := EReal.coe_le_coe_iff.1 x1
    have y2 : x ≤ (b : ℝ) := EReal.coe_le_coe_iff.1 x2
    exact C24_interval ⟨L, k1, rfl, rfl⟩ ⟨M, l1, rfl, rfl⟩ hJ (le_trans (by exact_mod_cast k4 rfl) y1)
      (le_trans y2 (by exact_mod_cast l4 rfl))

/-- without finite bounds this does not hold: the whole line is printed as `[-inf,inf]`, which is read back as `[0,0]` -/
theorem C25_infinite_bounds : printI ⟨dNinf, dPinf⟩ 6 .g = .ok "[-inf,inf]".toList ∧
    ofStrings "-inf".toList "inf".toList = .ok ⟨Rop.lit 0, Rop.lit 0⟩ := by decide +kernel

example : printI ⟨Rop.lit (1 / 3), Rop.lit (2 / 3)⟩ 6 .g = .ok "[0.333333,0.666667]".toList := by decide +kernel

/-! ## C60: output is accurate -/

/-- C60: the printed number differs from the double by at most the spacing of the numbers the format can print, and by half of it
with rounding to nearest. -/
theorem C60_dtostring {q : ℚ} (h : binary64.Rep q) (prec : ℕ) (fmt : Fmt) (hp : 1 ≤ prec) (mode : RMode) {s : List Char} {v : ℚ}
    (hs : dtostring (Fl.fin q h) prec fmt mode = .ok s) (hv : Denotes s v) :
    |v - q| ≤ spacing fmt prec |q| ∧ (mode = .near → 2 * |v - q| ≤ spacing fmt prec |q|) := by
  obtain ⟨L, h1, -, h2, -, -, h3, h4⟩ := dtostring_spec h prec fmt (fun _ => hp) mode
  obtain ⟨M, m1, rfl, rfl⟩ := hv
  rw [hs, Except.ok.injEq] at h2
  rw [text_value m1 h1 h2]
  exact ⟨h3, h4⟩

example : ∃ s v, dtostring (Fl.round .near (1 / 3) : Fl binary64) 3 .e .up = .ok s ∧ Denotes s v ∧ v = 3334 / 10000 ∧
    spacing .e 3 (1 / 3) = 1 / 10000 :=
  ⟨"3.334e-01".toList, 3334 / 10000, by decide +kernel,
    ⟨⟨none, [3], some [3, 3, 4], some (false, some true, [0, 1])⟩, by decide, by decide, by decide +kernel⟩, rfl, by decide +kernel⟩

/-- a string denotes one number only -/
theorem C60_denotes_unique {s : List Char} {v w : ℚ} (h1 : Denotes s v) (h2 : Denotes s w) : v = w := by
  obtain ⟨L, a1, a2, rfl⟩ := h1
  obtain ⟨M, b1, b2, rfl⟩ := h2
  exact text_value a1 b1 (a2.symm.trans b2)

/-! ## C61: literals that are doubles -/

/-- C61 is violated: 2^53 is a double, but the interval made from its decimal form is not a point. -/
theorem C61_violated : ∃ h1 h2, Denotes "9007199254740992".toList (2 ^ 53) ∧
    ofStrings "9007199254740992".toList "9007199254740992".toList = .ok ⟨Hw.fin (2 ^ 53) h1, Hw.fin (2 ^ 53 + 2) h2⟩ := by
  refine ⟨?_, ?_, ⟨⟨none, [9, 0, 0, 7, 1, 9, 9, 2, 5, 4, 7, 4, 0, 9, 9, 2], none, none⟩, by decide, by decide, by decide +kernel⟩, ?_⟩ <;>
    decide +kernel

/-- C61 for plain integers below 2^53: they are converted exactly, whatever the direction.  (Full statement: for every literal
whose value is a double.) -/
theorem C61_partial {L : Lit} (hL : L.Valid) (hf : L.fp = none) (hx : L.ex = none) (hlen : L.ip.length ≤ 100000000)
    (hv : |L.value| < 2 ^ 53) {sp : List Char} (hsp : ∀ c ∈ sp, c ∈ spaces) (mode : RMode) :
    ∃ h, stringtod (sp ++ L.text) mode = .ok (Hw.fin L.value h) := by
  have hsp' : ∀ c ∈ sp, isSpace c = true := by
    intro c hc
    have := hsp c hc
    simp only [spaces, List.mem_cons, List.not_mem_nil, or_false] at this
    rcases this with rfl | rfl | rfl | rfl <;> decide
  have hval : L.value = (if L.sgn = some true then -1 else 1) * (vBE 10 L.ip : ℚ) := by
    rw [Lit.value, Lit.mantissa, Lit.exponent, hf, hx, decNat_eq]
    simp [decNat]
  have hn : vBE 10 L.ip < 2 ^ 53 := by
    have : |L.value| = (vBE 10 L.ip : ℚ) := by
      rw [hval]; split_ifs <;> simp
    rw [this] at hv
    exact_mod_cast hv
  have hrep : binary64.Rep (vBE 10 L.ip : ℚ) := by
    have := Conv.rep64 (K := vBE 10 L.ip) (e := 0) (n := 53) (mx := 52) hn (by norm_num) (by norm_num) (by norm_num) (by norm_num)
    simpa using this
  have hc := convert_int (p := parse (sp ++ L.text)) (by rw [parse_spec hL hsp']; exact ⟨hL.1, hL.2.1⟩)
    (by rw [parse_spec hL hsp', hf]; rfl) (by rw [parse_spec hL hsp']; simp [exDigits, hx]) (by rw [parse_spec hL hsp']; exact hlen)
    (by rw [parse_spec hL hsp']; exact hn) mode
  rw [parse_spec hL hsp'] at hc
  rw [stringtod, parse_spec hL hsp', hc, lit_fin hrep]
  by_cases hs : L.sgn = some true
  · rw [if_pos hs] at hval
    refine ⟨by rw [hval]; simpa using hrep.neg, ?_⟩
    simp only [hs, signed, decide_true, if_true, hval, neg_one_mul]
    rfl
  · rw [if_neg hs, one_mul] at hval
    refine ⟨by rw [hval]; exact hrep, ?_⟩
    simp only [hs, signed, decide_false, Bool.false_eq_true, if_false, hval]

example : (⟨some true, [0, 4, 2], none, none⟩ : Lit).Valid ∧ |(⟨some true, [0, 4, 2], none, none⟩ : Lit).value| < 2 ^ 53 ∧
    (⟨some true, [0, 4, 2], none, none⟩ : Lit).value = -42 := by decide +kernel

end Kv
