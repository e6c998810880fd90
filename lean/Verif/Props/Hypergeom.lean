import Verif.Special.Hypergeom
import Verif.Props.Geoseries
import Mathlib.Analysis.SpecialFunctions.OrdinaryHypergeometric

/-! # Property theorem C69: enclosure of the Gauss hypergeometric function -/

namespace Kv
open RopSem Kv.Interval
open Rop (lit)

namespace Hypergeom

/-- The coefficient of the Gauss series with its power of `z`. -/
noncomputable def gaussTerm (a b c z : ℝ) (n : ℕ) : ℝ :=
  ((n.factorial : ℝ)⁻¹ * (ascPochhammer ℝ n).eval a * (ascPochhammer ℝ n).eval b * ((ascPochhammer ℝ n).eval c)⁻¹) * z ^ n

variable {a b c z : ℝ}

theorem gaussTerm_zero : gaussTerm a b c z 0 = 1 := by simp [gaussTerm]

theorem gaussTerm_succ (n : ℕ) : gaussTerm a b c z (n + 1) = gaussTerm a b c z n * (a + n) * (b + n) / (c + n) / (1 + n) * z := by
  have h : ((n : ℝ) + 1) ≠ 0 := by positivity
  simp only [gaussTerm, ascPochhammer_succ_eval, Nat.factorial_succ]
  push_cast
  rw [mul_inv, mul_inv, pow_succ, add_comm (1 : ℝ)]
  ring

theorem gaussTerm_shift {k : ℕ} {r : ℕ → ℝ}
    (hr : ∀ i : ℕ, r i = z * ((a + k + (i + 1)) * (b + k + (i + 1)) / (c + k + (i + 1)) / (1 + k + (i + 1)))) (m : ℕ) :
    gaussTerm a b c z (m + (k + 1)) = gaussTerm a b c z (k + 1) * ∏ i ∈ Finset.range m, r i := by
  induction m with
  | zero => simp
  | succ m ih =>
    rw [show m + 1 + (k + 1) = (m + (k + 1)) + 1 by ring, gaussTerm_succ, ih, Finset.prod_range_succ, hr]
    push_cast
    rw [show a + ((m : ℝ) + (k + 1)) = a + k + (m + 1) by ring, show b + ((m : ℝ) + (k + 1)) = b + k + (m + 1) by ring,
      show c + ((m : ℝ) + (k + 1)) = c + k + (m + 1) by ring, show (1 : ℝ) + ((m : ℝ) + (k + 1)) = 1 + k + (m + 1) by ring]
    ring

/-- What holds at the top of the loop after `k` rounds. -/
structure Inv (a b c z : ℝ) (k : ℕ) (s : St) : Prop where
  ta : a + k ∈ s.ta
  tb : b + k ∈ s.tb
  tc : c + k ∈ s.tc
  td : 1 + (k : ℝ) ∈ s.td
  tr : gaussTerm a b c z k ∈ s.tr
  res : ∑ j ∈ Finset.range (k + 1), gaussTerm a b c z j ∈ s.result
  ne : ∀ j < k, c + j ≠ 0

/-- The same after the new term has been computed. -/
structure Mid (a b c z : ℝ) (k : ℕ) (s : St) : Prop where
  ta : a + k ∈ s.ta
  tb : b + k ∈ s.tb
  tc : c + k ∈ s.tc
  td : 1 + (k : ℝ) ∈ s.td
  tr : gaussTerm a b c z (k + 1) ∈ s.tr
  res : ∑ j ∈ Finset.range (k + 1), gaussTerm a b c z j ∈ s.result
  ne : ∀ j < k + 1, c + j ≠ 0

theorem div_ne {X Y Z : Interval D} {y : ℝ} (h : div X Y = .ok Z) (hy : y ∈ Y) : y ≠ 0 := by
  rintro rfl
  unfold div at h
  have e : ((0 : ℝ) : EReal) = 0 := rfl
  have h1 : ¬ Rop.lt (lit 0) Y.inf = true := fun hh => by
    have := ((RopSem.lt_iff _ _).1 hh).2.2
    rw [(is_zero (T := D)).2] at this
    exact absurd hy.1.2 (not_le.2 this)
  have h2 : ¬ Rop.lt Y.sup (lit 0) = true := fun hh => by
    have := ((RopSem.lt_iff _ _).1 hh).2.2
    rw [(is_zero (T := D)).2] at this
    exact absurd hy.2.2 (not_le.2 this)
  rw [if_neg h1, if_neg h2] at h
  cases h

theorem term_spec {k : ℕ} {s s' : St} {Z : Interval D} (hz : z ∈ Z) (hi : Inv a b c z k s) (h : term s Z = .ok s') : Mid a b c z k s' := by
  unfold term at h
  obtain ⟨q, h1, h⟩ := bind_ok.1 h
  obtain ⟨q', h2, h⟩ := bind_ok.1 h
  cases h
  refine ⟨hi.ta, hi.tb, hi.tc, hi.td, ?_, hi.res, fun j hj => ?_⟩
  · rw [gaussTerm_succ]
    exact mul_mem (div_mem h2 (div_mem h1 (mul_mem (mul_mem hi.tr hi.ta) hi.tb) hi.tc) hi.td) hz
  · rcases Nat.lt_succ_iff_lt_or_eq.1 hj with h | rfl
    · exact hi.ne j h
    · exact div_ne h1 hi.tc

theorem next_spec {k : ℕ} {s : St} (h : Mid a b c z k s) : Inv a b c z (k + 1) (next s) := by
  have e : ∀ x : ℝ, x + ((k + 1 : ℕ) : ℝ) = x + k + 1 := fun x => by push_cast; ring
  refine ⟨?_, ?_, ?_, ?_, h.tr, ?_, h.ne⟩
  · rw [e]; exact addS_mem h.ta is_one
  · rw [e]; exact addS_mem h.tb is_one
  · rw [e]; exact addS_mem h.tc is_one
  · rw [e]; exact addS_mem h.td is_one
  · rw [Finset.sum_range_succ]; exact add_mem h.res h.tr

theorem smin_le {x y : D} (hx : ¬ nan x) (hy : ¬ nan y) : ¬ nan (smin x y) ∧ val (smin x y) ≤ val x ∧ val (smin x y) ≤ val y := by
  unfold smin
  by_cases h : Rop.lt y x = true
  · rw [if_pos h]; exact ⟨hy, ((RopSem.lt_iff _ _).1 h).2.2.le, le_rfl⟩
  · rw [if_neg h]
    refine ⟨hx, le_rfl, ?_⟩
    rw [RopSem.lt_iff] at h
    exact not_lt.1 fun hh => h ⟨hy, hx, hh⟩

theorem factor_mem {t : Interval D} {offset : D} {tmp : Interval D} {x o s : ℝ} (hx : x ∈ t) (ho : Is offset o) (h0 : 0 < o) (hs : 0 ≤ s)
    (ht : ∀ y, o ≤ y → 1 / y ∈ tmp) : (x + s) / (o + s) ∈ factor t offset tmp := by
  have h : (x + s) / (o + s) = 1 + (x - o) * (1 / (o + s)) := by
    have : o + s ≠ 0 := by positivity
    field_simp; ring
  rw [h]
  exact sAdd_mem (mul_mem (subS_mem hx ho) (ht _ (by linarith))) is_one

theorem ratioOf_mem {k : ℕ} {s : St} {Z R : Interval D} {offset : D} {o : ℝ} (hz : z ∈ Z) (hi : Mid a b c z k s) (ho : Is offset o) (h0 : 0 < o)
    (h : ratioOf s Z offset = .ok R) {x : ℝ} (hx : 0 ≤ x) :
    z * ((a + k + x) * (b + k + x) / (c + k + x) / (1 + k + x)) ∈ R := by
  unfold ratioOf at h
  obtain ⟨tmp, h1, h⟩ := bind_ok.1 h
  obtain ⟨q, h2, h3⟩ := bind_ok.1 h
  have ht : ∀ y, o ≤ y → 1 / y ∈ tmp := fun y hy => by
    refine sDiv_mem h1 (y := y) ⟨⟨ho.1, ?_⟩, RopSem.inf_val.1, ?_⟩ is_one
    · rw [ho.2]; exact_mod_cast hy
    · rw [RopSem.inf_val.2]; exact le_top
  have hm := div_mem h3 (div_mem h2 (mul_mem (mul_mem hz (factor_mem hi.ta ho h0 hx ht)) (factor_mem hi.tb ho h0 hx ht))
    (factor_mem hi.tc ho h0 hx ht)) (factor_mem hi.td ho h0 hx ht)
  have e : o + x ≠ 0 := by positivity
  convert hm using 1
  rw [div_div_eq_mul_div, div_div_eq_mul_div]
  field_simp

theorem close_spec {k : ℕ} {s : St} {R Y : Interval D} {r : ℕ → ℝ} (hi : Mid a b c z k s) (hr : ∀ i, r i ∈ R)
    (hr' : ∀ i : ℕ, r i = z * ((a + k + (i + 1)) * (b + k + (i + 1)) / (c + k + (i + 1)) / (1 + k + (i + 1))))
    (h : close s R = .ok (some Y)) : Summable (gaussTerm a b c z) ∧ ∑' n, gaussTerm a b c z n ∈ Y := by
  unfold close at h
  split_ifs at h with hm
  · obtain ⟨g, hg, h⟩ := bind_ok.1 h
    dsimp only at h
    split_ifs at h with hw
    · injection h with h; injection h with h
      subst h
      obtain ⟨hs, hg⟩ := C41 (I := R) (r := r) (fun t ht => by
        have h1 := C10_mag_bound ht
        have h2 := ((RopSem.lt_iff _ _).1 hm).2.2
        rw [(is_one (T := D)).2] at h2
        have := h1.2.trans_lt h2
        have : |t| < 1 := by exact_mod_cast this
        exact abs_lt.1 this) hr hg
      have e := gaussTerm_shift (a := a) (b := b) (c := c) (z := z) hr'
      have hS : Summable fun m => gaussTerm a b c z (m + (k + 1)) := by
        simp only [e]; exact hs.mul_left _
      have hS' := (summable_nat_add_iff (k + 1)).1 hS
      refine ⟨hS', ?_⟩
      rw [← hS'.sum_add_tsum_nat_add (k + 1)]
      simp only [e]
      rw [tsum_mul_left]
      exact add_mem hi.res (mul_mem hi.tr hg)
    · cases h
  · cases h

theorem tryClose_spec {k : ℕ} {s : St} {Z Y : Interval D} (hz : z ∈ Z) (hi : Mid a b c z k s) (h : tryClose s Z = .ok (some Y)) :
    Summable (gaussTerm a b c z) ∧ ∑' n, gaussTerm a b c z n ∈ Y ∧ ∀ j : ℕ, c + j ≠ 0 := by
  unfold tryClose at h
  dsimp only at h
  set offset := smin (smin (smin s.ta.inf s.tb.inf) s.tc.inf) s.td.inf with ho
  split_ifs at h with hp
  · obtain ⟨R, h1, h2⟩ := bind_ok.1 h
    obtain ⟨n1, l1, l2⟩ := smin_le hi.ta.1.1 hi.tb.1.1
    obtain ⟨n2, l3, l4⟩ := smin_le n1 hi.tc.1.1
    obtain ⟨n3, l5, l6⟩ := smin_le n2 hi.td.1.1
    rw [← ho] at n3 l5 l6
    have hc : val offset ≤ ((c + k : ℝ) : EReal) := (l5.trans l4).trans hi.tc.1.2
    have h0 := ((RopSem.lt_iff _ _).1 hp).2.2
    rw [(is_zero (T := D)).2] at h0
    obtain ⟨o, hoe⟩ : ∃ o : ℝ, val offset = o := by
      induction hv : val offset with
      | bot => rw [hv] at h0; simp at h0
      | top => rw [hv] at hc; exact absurd (top_le_iff.1 hc) (EReal.coe_ne_top _)
      | coe o => exact ⟨o, rfl⟩
    have hpos : 0 < o := by rw [hoe] at h0; exact_mod_cast h0
    obtain ⟨q1, q2⟩ := close_spec hi (r := fun i : ℕ => z * ((a + k + (i + 1)) * (b + k + (i + 1)) / (c + k + (i + 1)) / (1 + k + (i + 1))))
      (fun i => ratioOf_mem hz hi ⟨n3, hoe⟩ hpos h1 (by positivity)) (fun _ => rfl) h2
    refine ⟨q1, q2, fun j => ?_⟩
    rcases lt_or_ge j (k + 1) with hj | hj
    · exact hi.ne j hj
    · rw [hoe] at hc
      have h3 : o ≤ c + k := by exact_mod_cast hc
      have h4 : ((k + 1 : ℕ) : ℝ) ≤ j := by exact_mod_cast hj
      push_cast at h4
      have : 0 < c + j := by linarith
      exact this.ne'
  · cases h

/-- the interval of ratios contains `z`, the limit of the ratios of the series -/
theorem ratioOf_lim {k : ℕ} {s : St} {Z R : Interval D} {offset : D} {o : ℝ} (hz : z ∈ Z) (hi : Mid a b c z k s) (ho : Is offset o) (h0 : 0 < o)
    (h : ratioOf s Z offset = .ok R) : z ∈ R := by
  unfold ratioOf at h
  obtain ⟨tmp, h1, h⟩ := bind_ok.1 h
  obtain ⟨q, h2, h3⟩ := bind_ok.1 h
  have ht : ∀ y, o ≤ y → 1 / y ∈ tmp := fun y hy => by
    refine sDiv_mem h1 (y := y) ⟨⟨ho.1, ?_⟩, RopSem.inf_val.1, ?_⟩ is_one
    · rw [ho.2]; exact_mod_cast hy
    · rw [RopSem.inf_val.2]; exact le_top
  have h00 : (0 : ℝ) ∈ tmp := by
    refine ⟨⟨(ht o le_rfl).1.1, ?_⟩, (ht o le_rfl).2.1, le_trans ?_ (ht o le_rfl).2.2⟩
    · by_contra hc
      have hc := not_le.1 hc
      obtain ⟨r, hr0, hr1⟩ := EReal.lt_iff_exists_real_btwn.1 hc
      have r0 : 0 < r := by exact_mod_cast hr0
      have := hr1.trans_le (ht (max o (1 / r)) (le_max_left _ _)).1.2
      have h5 : r < 1 / max o (1 / r) := by exact_mod_cast this
      have h6 : 1 / max o (1 / r) ≤ 1 / (1 / r) := one_div_le_one_div_of_le (by positivity) (le_max_right _ _)
      rw [one_div_one_div] at h6
      linarith
    · exact_mod_cast (by positivity : (0 : ℝ) ≤ 1 / o)
  have hf : ∀ {t : Interval D} {x : ℝ}, x ∈ t → (1 : ℝ) ∈ factor t offset tmp := fun {t x} hx => by
    have := sAdd_mem (mul_mem (subS_mem hx ho) h00) (is_one (T := D))
    simpa [factor] using this
  have := div_mem h3 (div_mem h2 (mul_mem (mul_mem hz (hf hi.ta)) (hf hi.tb)) (hf hi.tc)) (hf hi.td)
  simpa using this

/-- A round that ends the loop has `|z| < 1`. -/
theorem tryClose_lt {k : ℕ} {s : St} {Z Y : Interval D} (hz : z ∈ Z) (hi : Mid a b c z k s) (h : tryClose s Z = .ok (some Y)) : |z| < 1 := by
  unfold tryClose at h
  dsimp only at h
  set offset := smin (smin (smin s.ta.inf s.tb.inf) s.tc.inf) s.td.inf with ho
  split_ifs at h with hp
  · obtain ⟨R, h1, h2⟩ := bind_ok.1 h
    obtain ⟨n1, -, -⟩ := smin_le hi.ta.1.1 hi.tb.1.1
    obtain ⟨n2, l3, l4⟩ := smin_le n1 hi.tc.1.1
    obtain ⟨n3, l5, l6⟩ := smin_le n2 hi.td.1.1
    rw [← ho] at n3 l5 l6
    have hc : val offset ≤ ((c + k : ℝ) : EReal) := (l5.trans l4).trans hi.tc.1.2
    have h0 := ((RopSem.lt_iff _ _).1 hp).2.2
    rw [(is_zero (T := D)).2] at h0
    obtain ⟨o, hoe⟩ : ∃ o : ℝ, val offset = o := by
      induction hv : val offset with
      | bot => rw [hv] at h0; simp at h0
      | top => rw [hv] at hc; exact absurd (top_le_iff.1 hc) (EReal.coe_ne_top _)
      | coe o => exact ⟨o, rfl⟩
    have hpos : 0 < o := by rw [hoe] at h0; exact_mod_cast h0
    have hR := ratioOf_lim hz hi ⟨n3, hoe⟩ hpos h1
    unfold close at h2
    split_ifs at h2 with hm
    · have g1 := C10_mag_bound hR
      have g2 := ((RopSem.lt_iff _ _).1 hm).2.2
      rw [(is_one (T := D)).2] at g2
      exact_mod_cast g1.2.trans_lt g2
    · cases h2
  · cases h

theorem loop_lt {Z Y : Interval D} (hz : z ∈ Z) : ∀ (fuel k : ℕ) {s : St}, Inv a b c z k s → loop Z fuel s = .ok Y → |z| < 1
  | 0, _, _, _, h => by cases h
  | fuel + 1, k, s, hi, h => by
    unfold loop at h
    obtain ⟨s', h1, h⟩ := bind_ok.1 h
    obtain ⟨o, h2, h⟩ := bind_ok.1 h
    have hm := term_spec hz hi h1
    cases o with
    | some r => cases h; exact tryClose_lt hz hm h2
    | none => exact loop_lt hz fuel (k + 1) (next_spec hm) h

theorem loop_spec {Z Y : Interval D} (hz : z ∈ Z) : ∀ (fuel k : ℕ) {s : St}, Inv a b c z k s → loop Z fuel s = .ok Y →
    Summable (gaussTerm a b c z) ∧ ∑' n, gaussTerm a b c z n ∈ Y ∧ ∀ j : ℕ, c + j ≠ 0
  | 0, _, _, _, h => by cases h
  | fuel + 1, k, s, hi, h => by
    unfold loop at h
    obtain ⟨s', h1, h⟩ := bind_ok.1 h
    obtain ⟨o, h2, h⟩ := bind_ok.1 h
    have hm := term_spec hz hi h1
    cases o with
    | some r => cases h; exact tryClose_spec hz hm h2
    | none => exact loop_spec hz fuel (k + 1) (next_spec hm) h

theorem start_spec {A B C : Interval D} (ha : a ∈ A) (hb : b ∈ B) (hc : c ∈ C) : Inv a b c z 0 (start A B C) := by
  have h1 : (1 : ℝ) ∈ (point (lit 1) : Interval D) := point_mem is_one
  refine ⟨by simpa [start] using ha, by simpa [start] using hb, by simpa [start] using hc, by simpa [start] using h1, ?_, ?_, ?_⟩
  · rw [gaussTerm_zero]; exact h1
  · rw [Finset.sum_range_one, gaussTerm_zero]; exact h1
  · intro j hj; omega

end Hypergeom

/-- C69: whenever `hypergeom(a, b, c, z)` returns, its result encloses the value of the Gauss hypergeometric series at all parameters
of the four argument intervals.  The series converges there, and no parameter `c` in the interval makes a denominator zero. -/
theorem C69 {fuel : ℕ} {A B C Z Y : Interval D} {a b c z : ℝ} (ha : a ∈ A) (hb : b ∈ B) (hc : c ∈ C) (hz : z ∈ Z)
    (h : hypergeom fuel A B C Z = .ok Y) :
    ordinaryHypergeometric a b c z ∈ Y ∧ (∀ j : ℕ, c + j ≠ 0) ∧
      Summable fun n : ℕ => ((n.factorial : ℝ)⁻¹ * (ascPochhammer ℝ n).eval a * (ascPochhammer ℝ n).eval b * ((ascPochhammer ℝ n).eval c)⁻¹) * z ^ n := by
  obtain ⟨h1, h2, h3⟩ := Hypergeom.loop_spec hz fuel 0 (Hypergeom.start_spec ha hb hc) h
  refine ⟨?_, h3, h1⟩
  rw [ordinaryHypergeometric_eq_tsum]
  exact h2

/-- C69: with `z = 1` in the argument interval the call never returns: also where the series converges (`c > a + b`, Gauss's theorem)
and where it is a polynomial, no number of rounds ends the loop.  The same holds for all `|z| ≥ 1`. -/
theorem C69_no_return {A B C Z Y : Interval D} {a b c z : ℝ} (ha : a ∈ A) (hb : b ∈ B) (hc : c ∈ C) (hz : z ∈ Z) (h1 : 1 ≤ |z|) (fuel : ℕ) :
    hypergeom fuel A B C Z ≠ .ok Y := fun h =>
  absurd (Hypergeom.loop_lt hz fuel 0 (Hypergeom.start_spec ha hb hc) h) (not_lt.2 h1)

/-- The hypotheses of `C69` are met: `₂F₁(1, 1; 2; 1/64)`, a value of `-log(1-z)/z`. -/
example : (hypergeom 20 (point (lit 1)) (point (lit 1)) (point (lit 2)) (point (lit (1 / 64)))).isOk = true := by decide +kernel

/-- wide arguments -/
example : (hypergeom 40 ⟨lit 1, lit (3 / 2)⟩ (point (lit (-1 / 2))) ⟨lit (5 / 2), lit 3⟩ ⟨lit (-1 / 8), lit (1 / 16)⟩).isOk = true := by
  decide +kernel

/-- A denominator that may vanish is reported. -/
example : hypergeom 5 (point (lit 1)) (point (lit 1)) (point (lit (-1))) (point (lit (1 / 64))) = .error .domainError := by decide +kernel

end Kv
