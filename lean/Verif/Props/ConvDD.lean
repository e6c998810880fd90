import Verif.Conv.DDPrint
import Verif.Conv.DDRead
import Verif.Props.Conv
import Verif.Props.DD

/-!
# Properties of decimal output and input of `dd` (C84, C85)

Specification: `Denotes s v` (Conv/Spec.lean): the string `s` is a decimal literal whose value is the rational number `v`.
-/

set_option exponentiation.threshold 3000

namespace Kv
open Kv.Conv

/-! ## specification -/

/-- the number `x1 + x2` is not below `v`; both components are finite or the first one is `+∞` -/
def DDUpper (x : DD) (v : ℚ) : Prop :=
  (x.a1 = .pinf ∧ (x.a2 = .pinf ∨ ∃ q h, x.a2 = .fin q h)) ∨ ∃ a b ha hb, x = DD.ofQ a b ha hb ∧ v ≤ a + b

/-- the number `x1 + x2` is not above `v` -/
def DDLower (x : DD) (v : ℚ) : Prop :=
  (x.a1 = .ninf ∧ (x.a2 = .ninf ∨ ∃ q h, x.a2 = .fin q h)) ∨ ∃ a b ha hb, x = DD.ofQ a b ha hb ∧ a + b ≤ v

/-- pairs as they are made by the operations: the second component is smaller than the first one -/
def DDSmall (q1 q2 : ℚ) : Prop := |q2| < |q1| ∨ q2 = 0

/-- midway between the largest double and the next power of two, `2^1024 - 2^970` -/
def ddLimit : ℚ := binary64.maxQ + 2 ^ (970 : ℤ)

namespace Conv

theorem upper_of {x : DD} {v : ℚ} (h : UpOf2 x v) : DDUpper x v := by
  obtain ⟨x1, x2⟩ := x
  rcases x1 with _ | _ | _ | ⟨q, hq⟩ <;> rcases x2 with _ | _ | _ | ⟨q', hq'⟩ <;> first | exact h.elim | skip
  · exact Or.inl ⟨rfl, Or.inl rfl⟩
  · exact Or.inl ⟨rfl, Or.inr ⟨_, _, rfl⟩⟩
  · exact Or.inr ⟨_, _, _, _, rfl, h⟩

theorem lower_of {x : DD} {v : ℚ} (h : DnOf2 x v) : DDLower x v := by
  obtain ⟨x1, x2⟩ := x
  rcases x1 with _ | _ | _ | ⟨q, hq⟩ <;> rcases x2 with _ | _ | _ | ⟨q', hq'⟩ <;> first | exact h.elim | skip
  · exact Or.inl ⟨rfl, Or.inl rfl⟩
  · exact Or.inl ⟨rfl, Or.inr ⟨_, _, rfl⟩⟩
  · exact Or.inr ⟨_, _, _, _, rfl, h⟩

theorem small_sign {q1 q2 : ℚ} (h0 : q1 ≠ 0) (hs : |q2| < |q1|) : (q1 < 0 ↔ q1 + q2 < 0) ∧ q1 + q2 ≠ 0 := by
  rcases lt_or_gt_of_ne h0 with h | h
  · rw [abs_of_neg h, abs_lt] at hs
    exact ⟨⟨fun _ => by linarith, fun _ => h⟩, by intro h; linarith⟩
  · rw [abs_of_pos h, abs_lt] at hs
    exact ⟨⟨fun _ => by linarith, fun _ => by linarith⟩, by intro h; linarith⟩

/-- everything about `ddtostring` -/
theorem ddtostring_spec {q1 q2 : ℚ} (h1 : binary64.Rep q1) (h2 : binary64.Rep q2) (hs : DDSmall q1 q2) (prec : ℕ) (fmt : Fmt)
    (hp : fmt = .g → 1 ≤ prec) (mode : RMode) :
    ∃ L : Lit, L.Valid ∧ L.Readable ∧ ddtostring (DD.ofQ q1 q2 h1 h2) prec fmt mode = .ok L.text ∧
      (mode = .up → q1 + q2 ≤ L.value) ∧ (mode = .down → L.value ≤ q1 + q2) ∧
      |L.value - (q1 + q2)| ≤ spacing fmt prec |q1 + q2| ∧
      (mode = .near → 2 * |L.value - (q1 + q2)| ≤ spacing fmt prec |q1 + q2|) := by
  by_cases h0 : q1 = 0
  · have hq2 : q2 = 0 := by
      rcases hs with hs | hs
      · rw [h0, abs_zero] at hs
        exact absurd hs (not_lt.2 (abs_nonneg _))
      · exact hs
    have hv : (⟨none, [0], none, none⟩ : Lit).value = 0 := by simp [Lit.value, Lit.mantissa, decNat]
    have hn : 0 ≤ spacing fmt prec 0 := by
      cases fmt <;> simp only [spacing] <;> positivity
    refine ⟨⟨none, [0], none, none⟩, by decide, ⟨Or.inr le_rfl, by decide⟩, ?_, ?_, ?_, ?_, ?_⟩
    · show (if q1 = 0 then _ else _) = _
      rw [if_pos h0]; rfl
    all_goals rw [hv, h0, hq2]
    · exact fun _ => by norm_num
    · exact fun _ => by norm_num
    · simpa using hn
    · intro _; simpa using hn
  · have hlt : |q2| < |q1| := by
      rcases hs with hs | hs
      · exact hs
      · rw [hs, abs_zero]; exact abs_pos.2 h0
    obtain ⟨sg1, sg2⟩ := small_sign h0 hlt
    obtain ⟨z, z1, z2, z3, z4⟩ := ddBits_spec h1 h2 hlt
    have hsp : spacing fmt prec |q1 + q2| = tol fmt prec |q1 + q2| := rfl
    have ha : 0 < |q1 + q2| := abs_pos.2 sg2
    obtain ⟨d1, d2, d3, d4⟩ := decOf_spec z3 z2
    obtain ⟨L, v1, v2, v3, v4, v5, v6⟩ := render_spec d2 d3 d4 (by rw [d1]; exact ha) prec fmt hp mode (decide (q1 < 0))
    rw [d1] at v4
    have hread : L.Readable := ⟨v5.imp value_ne (fun h => h.ge), by omega⟩
    have hrun : ddtostring (DD.ofQ q1 q2 h1 h2) prec fmt mode = .ok ((if q1 < 0 then ['-'] else []) ++ L.text) := by
      show (if q1 = 0 then _ else _) = _
      rw [if_neg h0, z1]
      simp only [bind, Except.bind]
      rw [v3]
    rw [hrun]
    generalize q1 + q2 = q at *
    by_cases hn : q1 < 0
    · have hqn := sg1.1 hn
      refine ⟨{ L with sgn := some true }, v1, hread, ?_, ?_, ?_, ?_, ?_⟩
      · rw [text_neg L v2, if_pos hn]; rfl
      · intro hm
        have := v4.shrink (Or.inr ⟨hm, by simpa using hn⟩)
        rw [abs_of_neg hqn] at this
        rw [value_neg L v2]; linarith
      · intro hm
        have := v4.grow (Or.inr ⟨hm, by simpa using hn⟩)
        rw [abs_of_neg hqn] at this
        rw [value_neg L v2]; linarith
      · rw [value_neg L v2, ← abs_neg, hsp]
        have := v4.close
        rw [abs_of_neg hqn] at this ⊢
        rwa [show -(-L.value - q) = L.value - -q by ring]
      · intro hm
        rw [value_neg L v2, ← abs_neg, hsp]
        have := v4.near hm
        rw [abs_of_neg hqn] at this ⊢
        rwa [show -(-L.value - q) = L.value - -q by ring]
    · have hq : |q| = q := abs_of_nonneg (not_lt.1 fun h => hn (sg1.2 h))
      rw [hq] at v4 hsp ⊢
      refine ⟨L, v1, hread, ?_, ?_, ?_, ?_, ?_⟩
      · rw [if_neg hn]; rfl
      · exact fun hm => v4.grow (Or.inl ⟨hm, by simpa using hn⟩)
      · exact fun hm => v4.shrink (Or.inl ⟨hm, by simpa using hn⟩)
      · rw [hsp]; exact v4.close
      · intro hm; rw [hsp]; exact v4.near hm

/-- everything about `stringtodd` -/
theorem stringtodd_spec {L : Lit} (hL : L.Valid) {sp : List Char} (hsp : ∀ c ∈ sp, c ∈ spaces) (mode : RMode) (fast : Bool) :
    (∀ r, stringtodd (sp ++ L.text) mode fast = .ok r →
      (mode = .up → (-ddLimit < L.value ∨ L.value ≤ -2 ^ (1024 : ℤ)) → DDUpper r L.value) ∧
      (mode = .down → (L.value < ddLimit ∨ 2 ^ (1024 : ℤ) ≤ L.value) → DDLower r L.value)) ∧
    (L.Readable → ∃ r, stringtodd (sp ++ L.text) mode fast = .ok r) ∧
    (L.mantissa = 0 → L.exponent < 0 → stringtodd (sp ++ L.text) mode fast = .error .undefined) := by
  obtain ⟨p1, p2, p3, p4, p5⟩ := parsed_lit hL hsp
  obtain ⟨c1, c2⟩ := convertDD_spec (fast := fast) p1 (mode := mode)
  have habs : 0 ≤ (parse (sp ++ L.text)).abs := by
    unfold Parsed.abs
    exact mul_nonneg (add_nonneg (Nat.cast_nonneg _) (fv_nonneg _)) (zpow_nonneg (by norm_num) _)
  rw [p5] at c2
  refine ⟨fun r h => ⟨fun hm hlim => ?_, fun hm hlim => ?_⟩, fun h => ?_, fun h1 h2 => ?_⟩
  · rw [← p2]
    refine upper_of ((c1 r h ?_).1 hm)
    rw [← p2] at hlim
    cases hneg : (parse (sp ++ L.text)).neg with
    | false => exact Or.inr (Or.inr (Or.inl ⟨hm, rfl⟩))
    | true =>
      simp only [hneg, if_true, neg_mul, one_mul, neg_lt_neg_iff, neg_le_neg_iff] at hlim
      rw [← max_next] at hlim
      exact hlim.imp_right Or.inl
  · rw [← p2]
    refine lower_of ((c1 r h ?_).2 hm)
    rw [← p2] at hlim
    cases hneg : (parse (sp ++ L.text)).neg with
    | true => exact Or.inr (Or.inr (Or.inr ⟨hm, rfl⟩))
    | false =>
      simp only [hneg, Bool.false_eq_true, if_false, one_mul] at hlim
      rw [← max_next] at hlim
      exact hlim.imp_right Or.inl
  · rcases c2 h.2 with ⟨-, h1⟩ | ⟨h1, h2, h3, -⟩
    · exact h1
    · have := p4.1 ⟨h2, h3⟩
      rcases h.1 with h4 | h4
      · exact absurd (p3.1 h1) h4
      · omega
  · by_cases hs : L.ip.length + (L.fp.getD []).length + L.exponent.natAbs ≤ 100000000
    · rcases c2 hs with ⟨h3, -⟩ | ⟨-, -, -, h3⟩
      · obtain ⟨h4, h5⟩ := p4.2 h2
        rcases h3 with h3 | h3 | h3
        · exact absurd (p3.2 h1) h3
        · rw [h3] at h4; simp at h4
        · exact absurd h3 h5
      · exact h3
    · unfold stringtodd convertDD
      dsimp only
      rw [if_pos (by omega)]

/-- normalised pairs -/
theorem small_of_normal {q1 q2 : ℚ} {h1 : binary64.Rep q1} {h2 : binary64.Rep q2} (n : DD.Normal (DD.ofQ q1 q2 h1 h2)) :
    DDSmall q1 q2 ∧ |q1 + q2| < ddLimit := by
  have hn := DD.of_normal n
  refine ⟨?_, ?_⟩
  · by_cases h0 : q1 = 0
    · right
      rw [h0, zero_add, h2.repU.roundQ_eq] at hn
      exact hn.symm
    · exact Or.inl (DD.norm_lt h1 h2 hn h0)
  · -- a sum beyond the limit is rounded to a number beyond the largest one
    have key : ∀ q : ℚ, ddLimit ≤ q → binary64.maxQ < binary64.roundQ .near q := by
      intro q hq
      have e : binary64.roundQ .near ddLimit = 2 ^ (1024 : ℤ) := by unfold ddLimit; decide +kernel
      have := Format.roundQ_mono (F := binary64) .near hq
      rw [e, ← max_next] at this
      have h3 : (0 : ℚ) < 2 ^ (971 : ℤ) := zpow_pos (by norm_num) _
      linarith
    have hb := h1.abs_le
    by_contra hc
    rcases le_abs.1 (not_lt.1 hc) with h | h
    · have := key _ h
      rw [← hn] at this
      exact absurd ((le_abs_self q1).trans hb) (not_le.2 this)
    · have := key _ h
      rw [Format.roundQ_neg_near, ← hn] at this
      exact absurd ((neg_le_abs q1).trans hb) (not_le.2 this)

end Conv

/-! ## C84: output of `dd` -/

/-- C84: what is printed for a `dd` is a decimal literal; it bounds the number `x1 + x2` in the direction of the rounding, and differs
from it by at most the spacing of the numbers the format can print (half of it with rounding to nearest). -/
theorem C84_print {q1 q2 : ℚ} (h1 : binary64.Rep q1) (h2 : binary64.Rep q2) (hs : DDSmall q1 q2) (prec : ℕ) (fmt : Fmt)
    (hp : 1 ≤ prec) (mode : RMode) :
    ∃ s v, ddtostring (DD.ofQ q1 q2 h1 h2) prec fmt mode = .ok s ∧ Denotes s v ∧
      (mode = .up → q1 + q2 ≤ v) ∧ (mode = .down → v ≤ q1 + q2) ∧ |v - (q1 + q2)| ≤ spacing fmt prec |q1 + q2| ∧
      (mode = .near → 2 * |v - (q1 + q2)| ≤ spacing fmt prec |q1 + q2|) := by
  obtain ⟨L, k1, -, k2, k3⟩ := ddtostring_spec h1 h2 hs prec fmt (fun _ => hp) mode
  exact ⟨L.text, L.value, k2, ⟨L, k1, rfl, rfl⟩, k3⟩

/-- C84: normalised numbers satisfy the condition of `C84_print`. -/
theorem C84_normal {q1 q2 : ℚ} {h1 : binary64.Rep q1} {h2 : binary64.Rep q2} (n : DD.Normal (DD.ofQ q1 q2 h1 h2)) : DDSmall q1 q2 :=
  (small_of_normal n).1

/-- C84: the format `a` (all digits) is exact. -/
theorem C84_all {q1 q2 : ℚ} (h1 : binary64.Rep q1) (h2 : binary64.Rep q2) (hs : DDSmall q1 q2) (prec : ℕ) (hp : 1 ≤ prec) (mode : RMode) :
    ∃ s, ddtostring (DD.ofQ q1 q2 h1 h2) prec .a mode = .ok s ∧ Denotes s (q1 + q2) := by
  obtain ⟨s, v, k1, k2, -, -, k3, -⟩ := C84_print h1 h2 hs prec .a hp mode
  have : v = q1 + q2 := by
    have h : |v - (q1 + q2)| ≤ 0 := k3
    have := abs_eq_zero.1 (le_antisymm h (abs_nonneg _))
    linarith
  exact ⟨s, k1, this ▸ k2⟩

/-- C84: an interval of `dd` with finite bounds is printed as `[s1,s2]` with two literals that enclose it. -/
theorem C84_interval {a1 a2 b1 b2 : ℚ} (ha1 : binary64.Rep a1) (ha2 : binary64.Rep a2) (hb1 : binary64.Rep b1) (hb2 : binary64.Rep b2)
    (hsa : DDSmall a1 a2) (hsb : DDSmall b1 b2) (prec : ℕ) (fmt : Fmt) (hp : 1 ≤ prec) :
    ∃ s1 s2 v1 v2, printDD (DD.ofQ a1 a2 ha1 ha2, DD.ofQ b1 b2 hb1 hb2) prec fmt = .ok ('[' :: s1 ++ ',' :: s2 ++ [']']) ∧
      Denotes s1 v1 ∧ Denotes s2 v2 ∧ v1 ≤ a1 + a2 ∧ b1 + b2 ≤ v2 := by
  obtain ⟨s1, v1, k1, k2, -, k3, -⟩ := C84_print ha1 ha2 hsa prec fmt hp .down
  obtain ⟨s2, v2, l1, l2, l3, -⟩ := C84_print hb1 hb2 hsb prec fmt hp .up
  refine ⟨s1, s2, v1, v2, ?_, k2, l2, k3 rfl, l3 rfl⟩
  rw [printDD, k1]
  simp only [bind, Except.bind]
  rw [l1]

/-! ## C85: input of `dd` -/

/-- C85, partial: if `stringtodd` returns, then the result bounds the value of the literal in the direction of the rounding.  The full
statement has no condition on the value; values between `2^1024 - 2^970` and `2^1024` in absolute value are excluded for the bound
nearer to zero, where it is violated (`C85_overflow_violated`). -/
theorem C85_string_partial {s : List Char} {v : ℚ} (hs : Denotes s v) {sp : List Char} (hsp : ∀ c ∈ sp, c ∈ spaces) {mode : RMode}
    {fast : Bool} {r : DD} (h : stringtodd (sp ++ s) mode fast = .ok r) :
    (mode = .up → (-ddLimit < v ∨ v ≤ -2 ^ (1024 : ℤ)) → DDUpper r v) ∧
    (mode = .down → (v < ddLimit ∨ 2 ^ (1024 : ℤ) ≤ v) → DDLower r v) := by
  obtain ⟨L, hL, rfl, rfl⟩ := hs
  exact (stringtodd_spec hL hsp mode fast).1 r h

/-- C85, partial: the bounds of the interval made from two literals. -/
theorem C85_interval_partial {s1 s2 : List Char} {v1 v2 : ℚ} (h1 : Denotes s1 v1) (h2 : Denotes s2 v2) {I : DD × DD}
    (h : ofStringsDD s1 s2 = .ok I) (l1 : v1 < ddLimit ∨ 2 ^ (1024 : ℤ) ≤ v1) (l2 : -ddLimit < v2 ∨ v2 ≤ -2 ^ (1024 : ℤ)) :
    DDLower I.1 v1 ∧ DDUpper I.2 v2 := by
  obtain ⟨a, ha, h⟩ := bind_ok.1 h
  obtain ⟨b, hb, h⟩ := bind_ok.1 h
  simp only [Except.ok.injEq] at h
  subst h
  exact ⟨(C85_string_partial h1 (sp := []) (by simp) ha).2 rfl l1, (C85_string_partial h2 (sp := []) (by simp) hb).1 rfl l2⟩

/-- C85: the conversion is defined for every literal that is not a zero with a negative exponent (up to 10^8 digits and
exponents). -/
theorem C85_defined {L : Lit} (hL : L.Valid) (hr : L.Readable) {sp : List Char} (hsp : ∀ c ∈ sp, c ∈ spaces) (mode : RMode) (fast : Bool) :
    ∃ r, stringtodd (sp ++ L.text) mode fast = .ok r :=
  (stringtodd_spec hL hsp mode fast).2.1 hr

/-- C85 is violated: for a zero with a negative exponent the code takes the front of an empty list. -/
theorem C85_zero_violated {L : Lit} (hL : L.Valid) (h0 : L.mantissa = 0) (he : L.exponent < 0) {sp : List Char}
    (hsp : ∀ c ∈ sp, c ∈ spaces) (mode : RMode) (fast : Bool) : stringtodd (sp ++ L.text) mode fast = .error .undefined :=
  (stringtodd_spec hL hsp mode fast).2.2 h0 he

/-- C85: an interval of normalised numbers is printed as `[s1,s2]`; the interval made from the strings `s1` and `s2` contains it. -/
theorem C85_roundtrip {a1 a2 b1 b2 : ℚ} {ha1 : binary64.Rep a1} {ha2 : binary64.Rep a2} {hb1 : binary64.Rep b1} {hb2 : binary64.Rep b2}
    (na : DD.Normal (DD.ofQ a1 a2 ha1 ha2)) (nb : DD.Normal (DD.ofQ b1 b2 hb1 hb2)) (prec : ℕ) (fmt : Fmt) (hp : 1 ≤ prec) :
    ∃ s1 s2 J, printDD (DD.ofQ a1 a2 ha1 ha2, DD.ofQ b1 b2 hb1 hb2) prec fmt = .ok ('[' :: s1 ++ ',' :: s2 ++ [']']) ∧
      ofStringsDD s1 s2 = .ok J ∧ DDLower J.1 (a1 + a2) ∧ DDUpper J.2 (b1 + b2) := by
  obtain ⟨sa, la⟩ := small_of_normal na
  obtain ⟨sb, lb⟩ := small_of_normal nb
  obtain ⟨L, k1, k2, k3, -, k4, -⟩ := ddtostring_spec ha1 ha2 sa prec fmt (fun _ => hp) .down
  obtain ⟨M, l1, l2, l3, l4, -⟩ := ddtostring_spec hb1 hb2 sb prec fmt (fun _ => hp) .up
  obtain ⟨r, hr⟩ := C85_defined k1 k2 (sp := []) (by simp) .down false
  obtain ⟨t, ht⟩ := C85_defined l1 l2 (sp := []) (by simp) .up false
  rw [List.nil_append] at hr ht
  have hJ : ofStringsDD L.text M.text = .ok (r, t) := by
    rw [ofStringsDD, hr]
    simp only [bind, Except.bind]
    rw [ht]
  have hv1 := k4 rfl
  have hv2 := l4 rfl
  obtain ⟨j1, j2⟩ := C85_interval_partial ⟨L, k1, rfl, rfl⟩ ⟨M, l1, rfl, rfl⟩ hJ
    (Or.inl (lt_of_le_of_lt hv1 (abs_lt.1 la).2)) (Or.inl (lt_of_lt_of_le (abs_lt.1 lb).1 hv2))
  refine ⟨L.text, M.text, (r, t), ?_, hJ, ?_, ?_⟩
  · rw [printDD, k3]
    simp only [bind, Except.bind]
    rw [l3]
  · rcases j1 with h | ⟨a, b, ha, hb, e, h⟩
    · exact Or.inl h
    · exact Or.inr ⟨a, b, ha, hb, e, h.trans hv1⟩
  · rcases j2 with h | ⟨a, b, ha, hb, e, h⟩
    · exact Or.inl h
    · exact Or.inr ⟨a, b, ha, hb, e, hv2.trans h⟩

/-- C85 is violated: the literal `1.7976931348623159e308` is below `2^1024`, but the lower bound found for it is `+∞` plus a finite
number. -/
theorem C85_overflow_violated : ∃ v q h, Denotes "1.7976931348623159e308".toList v ∧ v < 2 ^ (1024 : ℤ) ∧
    stringtodd "1.7976931348623159e308".toList .down = .ok ⟨.pinf, .fin q h⟩ ∧ ¬ DDLower ⟨.pinf, .fin q h⟩ v := by
  have run : (match stringtodd "1.7976931348623159e308".toList .down with
    | .ok ⟨.pinf, .fin _ _⟩ => true
    | _ => false) = true := by decide +kernel
  have hd : Denotes "1.7976931348623159e308".toList (17976931348623159 * 10 ^ 292) :=
    ⟨⟨none, [1], some [7, 9, 7, 6, 9, 3, 1, 3, 4, 8, 6, 2, 3, 1, 5, 9], some (false, none, [3, 0, 8])⟩, by decide, by decide, by decide +kernel⟩
  have hlt : (17976931348623159 * 10 ^ 292 : ℚ) < 2 ^ (1024 : ℤ) := by norm_num
  revert run
  generalize stringtodd "1.7976931348623159e308".toList .down = r
  intro run
  rcases r with _ | ⟨_ | _ | _ | ⟨q, hq⟩, _ | _ | _ | ⟨q', hq'⟩⟩ <;> first | (simp at run; done) | skip
  refine ⟨_, q', hq', hd, hlt, rfl, ?_⟩
  rintro (⟨h, -⟩ | ⟨a, b, ha, hb, h, -⟩)
  · simp at h
  · simp [DD.ofQ] at h

/-- C85 is violated: the `dd` read from `9007199254740993` is not normalised, with every rounding direction; it is not equal to the
normalised number with the same value. -/
theorem C85_normal_violated (mode : RMode) : ∃ a b ha hb c d hc hd, stringtodd "9007199254740993".toList mode = .ok (DD.ofQ a b ha hb) ∧
    ¬ DD.Normal (DD.ofQ a b ha hb) ∧ DD.Normal (DD.ofQ c d hc hd) ∧ a + b = c + d ∧ DD.eq (DD.ofQ a b ha hb) (DD.ofQ c d hc hd) = false := by
  refine ⟨2 ^ 53 + 2, -1, by decide +kernel, by decide +kernel, 2 ^ 53, 1, by decide +kernel, by decide +kernel, ?_⟩
  refine ⟨by cases mode <;> decide +kernel, ?_, ?_, by norm_num, by decide +kernel⟩
  · show ¬ Fl.add .near _ _ = _; decide +kernel
  · show Fl.add .near _ _ = _; decide +kernel

/-- a number between two powers of two is enclosed; overflow and underflow -/
example : (∃ a b c d : ℚ, ∃ ha hb hc hd, stringtodd "0.1".toList .down = .ok (DD.ofQ a b ha hb) ∧
      stringtodd "0.1".toList .up = .ok (DD.ofQ c d hc hd) ∧ a + b < 1 / 10 ∧ 1 / 10 < c + d) ∧
    stringtodd "1e400".toList .up = .ok ⟨.pinf, .pinf⟩ ∧ stringtodd "-1e400".toList .down = .ok ⟨.ninf, .ninf⟩ := by
  refine ⟨⟨3602879701896397 / 36028797018963968, -3602879701896397 / 649037107316853453566312041152512,
    3602879701896397 / 36028797018963968, -7205759403792793 / 1298074214633706907132624082305024, ?_, ?_, ?_, ?_, ?_, ?_, ?_, ?_⟩, ?_, ?_⟩ <;>
    decide +kernel

/-- `0e-5` is a literal as in `C85_zero_violated`, `-12.50E+3` one as in `C85_defined` -/
example : (⟨none, [0], none, some (false, some true, [5])⟩ : Lit).Valid ∧
    (⟨none, [0], none, some (false, some true, [5])⟩ : Lit).mantissa = 0 ∧
    (⟨none, [0], none, some (false, some true, [5])⟩ : Lit).exponent < 0 ∧
    (⟨some true, [1, 2], some [5, 0], some (true, some false, [3])⟩ : Lit).Valid ∧
    (⟨some true, [1, 2], some [5, 0], some (true, some false, [3])⟩ : Lit).Readable := by decide +kernel

/-- the hypotheses of `C85_roundtrip` and `C84_print` -/
example : DD.Normal (DD.ofQ (2 ^ 53) 1 (by decide +kernel) (by decide +kernel)) ∧ DDSmall (2 ^ 53) 1 ∧ DDSmall (2 ^ 53 + 2) (-1) := by
  refine ⟨?_, Or.inl (by norm_num), Or.inl (by norm_num)⟩
  show Fl.add .near _ _ = _; decide +kernel

/-- both components are printed -/
example : ddtostring (DD.ofQ (2 ^ 53) 1 (by decide +kernel) (by decide +kernel)) 20 .g .near = .ok "9007199254740993".toList ∧
    ddtostring (DD.ofQ (2 ^ 53) 1 (by decide +kernel) (by decide +kernel)) 5 .e .up = .ok "9.0072e+15".toList ∧
    ddtostring (DD.ofQ (-1) (2 ^ (-60 : ℤ)) (by decide +kernel) (by decide +kernel)) 17 .g .up = .ok "-0.99999999999999999".toList := by
  decide +kernel

end Kv
