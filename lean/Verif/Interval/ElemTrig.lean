import Verif.Interval.ElemInv
import Mathlib.Analysis.SpecialFunctions.Trigonometric.Basic
import Mathlib.Analysis.SpecialFunctions.Trigonometric.Angle

/-! # Helper lemmas: trigonometric functions -/

namespace Kv
open RopSem
open Rop (lit)

namespace Interval

/-! ## the computed enclosure of pi does not depend on the fuel -/

theorem atanLoop_mono {I : Interval D} : ∀ {fuel fuel' i : ℕ} {r y Z : Interval D}, fuel ≤ fuel' →
    atanLoop I fuel i r y = .ok Z → atanLoop I fuel' i r y = .ok Z := by
  intro fuel
  induction fuel with
  | zero => intro fuel' i r y Z _ h; simp [atanLoop] at h
  | succ fuel ih =>
    intro fuel' i r y Z hle h
    cases fuel' with
    | zero => omega
    | succ fuel' =>
      have hle : fuel ≤ fuel' := by omega
      rw [atanLoop] at h ⊢
      by_cases c1 : i = intMax
      · rw [if_pos c1] at h; cases h
      rw [if_neg c1] at h ⊢
      dsimp only at h ⊢
      rw [bind_ok] at h ⊢
      obtain ⟨tmp, h1, h⟩ := h
      refine ⟨tmp, h1, ?_⟩
      by_cases c2 : Rop.lt (mag tmp) (Rop.eps : D) = true
      · rw [if_pos c2] at h ⊢; exact h
      rw [if_neg c2] at h ⊢
      by_cases c3 : i % 2 ≠ 0
      · rw [if_pos c3] at h ⊢
        by_cases c4 : i % 4 = 1
        · rw [if_pos c4] at h ⊢
          rw [bind_ok] at h ⊢
          obtain ⟨q, h2, h⟩ := h
          exact ⟨q, h2, ih hle h⟩
        · rw [if_neg c4] at h ⊢
          rw [bind_ok] at h ⊢
          obtain ⟨q, h2, h⟩ := h
          exact ⟨q, h2, ih hle h⟩
      · rw [if_neg c3] at h ⊢
        exact ih hle h

theorem constPi_mono {fuel fuel' : ℕ} {Z : Interval D} (hle : fuel ≤ fuel')
    (h : constPi fuel = .ok Z) : constPi fuel' = .ok Z := by
  unfold constPi at h ⊢
  simp only [bind_ok] at h ⊢
  obtain ⟨a, h1, b, h2, c, h3, d, h4, h⟩ := h
  exact ⟨a, h1, b, atanLoop_mono hle h2, c, h3, d, atanLoop_mono hle h4, h⟩

/-- lower and upper bound of pi computed in double precision -/
def piL : ℚ := 3537118876014213 / 2 ^ 50
def piU : ℚ := 7074237752028445 / 2 ^ 51
theorem rep_piL : binary64.Rep piL := by
  have := rep_b (m := 3537118876014213) (k := 50) (by norm_num) (by norm_num)
  push_cast at this; exact this
theorem rep_piU : binary64.Rep piU := by
  have := rep_b (m := 7074237752028445) (k := 51) (by norm_num) (by norm_num)
  push_cast at this; exact this

def P0 : Interval D := ⟨Hw.fin piL rep_piL, Hw.fin piU rep_piU⟩

set_option maxRecDepth 100000 in
theorem constPi_40 : (constPi 40 : Res (Interval D)) = .ok P0 := by
  have : (constPi 40 : Res (Interval D)) = .ok ⟨lit piL, lit piU⟩ := by decide +kernel
  rw [this, Hw.lit_eq rep_piL, Hw.lit_eq rep_piU]; rfl

theorem constPi_eq {fuel : ℕ} {Z : Interval D} (h : constPi fuel = .ok Z) : Z = P0 := by
  have h1 := constPi_mono (Nat.le_max_left fuel 40) h
  have h2 := constPi_mono (Nat.le_max_right fuel 40) constPi_40
  rw [h1] at h2; cases h2; rfl

theorem pi_mem_P0 : Real.pi ∈ P0 := constPi_mem constPi_40

theorem mem_P0 {p : ℝ} : p ∈ P0 ↔ (piL : ℝ) ≤ p ∧ p ≤ (piU : ℝ) := Hw.mem_ivl

theorem P0_lo {p : ℝ} (h : p ∈ P0) : 3.1415926 ≤ p := by
  have h1 := (mem_P0.1 h).1
  norm_num [piL] at h1 ⊢; linarith
theorem P0_hi {p : ℝ} (h : p ∈ P0) : p ≤ 3.1415927 := by
  have h1 := (mem_P0.1 h).2
  norm_num [piU] at h1 ⊢; linarith

/-! ## membership for the point functions -/

theorem sinPointR_mem {fuel : ℕ} : ∀ {f : ℕ} {I Z : Interval D} {z : ℝ}, z ∈ I →
    sinPointR fuel P0 f I = .ok Z → Real.sin z ∈ Z := by
  intro f
  induction f with
  | zero => intro I Z z _ h; simp [sinPointR] at h
  | succ f ih =>
    intro I Z z hz h
    have hp := pi_mem_P0
    have hph := mulS_mem hp (is_half (T := D))
    have hnh := mulS_mem (neg_mem hp) (is_half (T := D))
    rw [sinPointR] at h
    split at h
    · have := ih (sub_mem hz (mulS_mem hp is_two)) h
      rwa [mul_comm, Real.sin_sub_two_pi] at this
    split at h
    · obtain ⟨W, hW, rfl⟩ := map_ok.1 h
      have := neg_mem (sinOrigin_mem hW (add_mem hz hp))
      rwa [Real.sin_add_pi, neg_neg] at this
    split at h
    · obtain ⟨W, hW, rfl⟩ := map_ok.1 h
      have := neg_mem (cosOrigin_mem hW (sub_mem hnh hz))
      rwa [show -Real.pi * (1 / 2) - z = -(z + Real.pi / 2) by ring, Real.cos_neg,
        Real.cos_add_pi_div_two, neg_neg] at this
    split at h
    · obtain ⟨W, hW, rfl⟩ := map_ok.1 h
      have := neg_mem (cosOrigin_mem hW (add_mem hz hph))
      rwa [show Real.pi * (1 / 2) = Real.pi / 2 by ring,
        Real.cos_add_pi_div_two, neg_neg] at this
    split at h
    · obtain ⟨W, hW, rfl⟩ := map_ok.1 h
      have := neg_mem (sinOrigin_mem hW (neg_mem hz))
      rwa [Real.sin_neg, neg_neg] at this
    split at h
    · exact sinOrigin_mem h hz
    split at h
    · have := cosOrigin_mem h (sub_mem hph hz)
      rwa [show Real.pi * (1 / 2) - z = Real.pi / 2 - z by ring, Real.cos_pi_div_two_sub] at this
    split at h
    · have := cosOrigin_mem h (sub_mem hz hph)
      rwa [show z - Real.pi * (1 / 2) = z - Real.pi / 2 by ring, Real.cos_sub_pi_div_two] at this
    · have := sinOrigin_mem h (sub_mem hp hz)
      rwa [Real.sin_pi_sub] at this

theorem cosPointR_mem {fuel : ℕ} : ∀ {f : ℕ} {I Z : Interval D} {z : ℝ}, z ∈ I →
    cosPointR fuel P0 f I = .ok Z → Real.cos z ∈ Z := by
  intro f
  induction f with
  | zero => intro I Z z _ h; simp [cosPointR] at h
  | succ f ih =>
    intro I Z z hz h
    have hp := pi_mem_P0
    have hph := mulS_mem hp (is_half (T := D))
    have hnh := mulS_mem (neg_mem hp) (is_half (T := D))
    rw [cosPointR] at h
    split at h
    · have := ih (sub_mem hz (mulS_mem hp is_two)) h
      rwa [mul_comm, Real.cos_sub_two_pi] at this
    split at h
    · obtain ⟨W, hW, rfl⟩ := map_ok.1 h
      have := neg_mem (cosOrigin_mem hW (add_mem hz hp))
      rwa [Real.cos_add_pi, neg_neg] at this
    split at h
    · obtain ⟨W, hW, rfl⟩ := map_ok.1 h
      have := neg_mem (sinOrigin_mem hW (sub_mem hnh hz))
      rwa [show -Real.pi * (1 / 2) - z = -(z + Real.pi / 2) by ring, Real.sin_neg,
        Real.sin_add_pi_div_two, neg_neg] at this
    split at h
    · have := sinOrigin_mem h (add_mem hz hph)
      rwa [show Real.pi * (1 / 2) = Real.pi / 2 by ring, Real.sin_add_pi_div_two] at this
    split at h
    · have := cosOrigin_mem h (neg_mem hz)
      rwa [Real.cos_neg] at this
    split at h
    · exact cosOrigin_mem h hz
    split at h
    · have := sinOrigin_mem h (sub_mem hph hz)
      rwa [show Real.pi * (1 / 2) - z = Real.pi / 2 - z by ring, Real.sin_pi_div_two_sub] at this
    split at h
    · obtain ⟨W, hW, rfl⟩ := map_ok.1 h
      have := neg_mem (sinOrigin_mem hW (sub_mem hz hph))
      rwa [show z - Real.pi * (1 / 2) = z - Real.pi / 2 by ring, Real.sin_sub_pi_div_two,
        neg_neg] at this
    · obtain ⟨W, hW, rfl⟩ := map_ok.1 h
      have := neg_mem (cosOrigin_mem hW (sub_mem hp hz))
      rwa [Real.cos_pi_sub, neg_neg] at this

theorem sinPoint_mem {fuel : ℕ} {I Z : Interval D} {z : ℝ} (hz : z ∈ I)
    (h : sinPoint fuel I = .ok Z) : Real.sin z ∈ Z := by
  obtain ⟨P, hP, h⟩ := bind_ok.1 h
  rw [constPi_eq hP] at h
  exact sinPointR_mem hz h

theorem cosPoint_mem {fuel : ℕ} {I Z : Interval D} {z : ℝ} (hz : z ∈ I)
    (h : cosPoint fuel I = .ok Z) : Real.cos z ∈ Z := by
  obtain ⟨P, hP, h⟩ := bind_ok.1 h
  rw [constPi_eq hP] at h
  exact cosPointR_mem hz h

/-! ## which branch is taken near the extrema -/

theorem not_le_of_lo {x t c : D} {z cv : ℝ} (hx : Hi x z) (hc : Is c cv) (hz : cv ≤ z)
    (ht : Rop.lt t c = true) : ¬ Rop.le x t = true := by
  rw [le_iff]; rintro ⟨-, -, h⟩
  have h1 := ((lt_iff _ _).1 ht).2.2
  rw [hc.2] at h1
  have h2 : ((cv : ℝ) : EReal) ≤ z := EReal.coe_le_coe_iff.2 hz
  exact absurd (h2.trans (hx.2.trans h)) (not_le.2 h1)

theorem not_le_of_hi {x t c : D} {z cv : ℝ} (hx : Lo x z) (hc : Is c cv) (hz : z ≤ cv)
    (ht : Rop.lt c t = true) : ¬ Rop.le t x = true := by
  rw [le_iff]; rintro ⟨-, -, h⟩
  have h1 := ((lt_iff _ _).1 ht).2.2
  rw [hc.2] at h1
  have h2 : ((z : ℝ) : EReal) ≤ cv := EReal.coe_le_coe_iff.2 hz
  exact absurd ((h.trans hx.2).trans h2) (not_le.2 h1)

theorem le_of_val {x t c : D} {cv : ℝ} (hn : ¬ nan x) (hx : val x ≤ (cv : EReal)) (hc : Is c cv)
    (ht : Rop.lt c t = true) : Rop.le x t = true := by
  rw [lt_iff, hc.2] at ht
  rw [le_iff]
  exact ⟨hn, ht.2.1, hx.trans ht.2.2.le⟩

abbrev M0 : D := mid P0
abbrev tA : D := Rop.div (Rop.mul (Rop.neg M0) (lit 3)) (lit 4)
abbrev tB : D := Rop.mul (Rop.neg M0) half
abbrev tC : D := Rop.mul (Rop.neg M0) (lit (1 / 4))
abbrev tD : D := Rop.mul M0 (lit (1 / 4))
abbrev tE : D := Rop.mul M0 half
abbrev tF : D := Rop.div (Rop.mul M0 (lit 3)) (lit 4)

theorem is_three : Is (lit 3 : D) 3 := by
  have := Is.lit_int (T := D) 3 (by norm_num); push_cast at this; exact this
theorem is_neg_three : Is (lit (-3) : D) (-3) := by
  have := Is.lit_int (T := D) (-3) (by norm_num); push_cast at this; exact this
theorem is_four : Is (lit 4 : D) 4 := by
  have := Is.lit_int (T := D) 4 (by norm_num); push_cast at this; exact this

theorem M0_gt : Rop.lt (lit 3) M0 = true := by decide +kernel
theorem M0_lt : Rop.lt M0 (lit 4) = true := by decide +kernel

theorem sinPointR_one {fuel f : ℕ} {I Z : Interval D} {p : ℝ} (hp : p ∈ P0) (hz : p * (1 / 2) ∈ I)
    (hI : val I.sup ≤ ((2 : ℝ) : EReal)) (h : sinPointR fuel P0 (f + 1) I = .ok Z) : (1 : ℝ) ∈ Z := by
  have b1 := P0_lo hp
  have b2 := P0_hi hp
  have hph := mulS_mem hp (is_half (T := D))
  rw [sinPointR] at h
  have g : (1 : ℝ) ≤ p * (1 / 2) := by linarith
  rw [if_neg (not_le_of_hi hz.1 is_three (by linarith) M0_gt),
    if_neg (not_le_of_lo hz.2 is_one g (by decide +kernel)),
    if_neg (not_le_of_lo hz.2 is_one g (by decide +kernel)),
    if_neg (not_le_of_lo hz.2 is_one g (by decide +kernel)),
    if_neg (not_le_of_lo hz.2 is_one g (by decide +kernel)),
    if_neg (not_le_of_lo hz.2 is_one g (by decide +kernel))] at h
  split at h
  · have := cosOrigin_mem h (sub_mem hph hz)
    simpa using this
  · rw [if_pos (le_of_val hz.2.1 hI is_two (by decide +kernel))] at h
    have := cosOrigin_mem h (sub_mem hz hph)
    simpa using this

theorem sinPointR_neg_one {fuel f : ℕ} {I Z : Interval D} {p : ℝ} (hp : p ∈ P0)
    (hz : -p * (1 / 2) ∈ I) (hI : val I.sup ≤ ((-1 : ℝ) : EReal))
    (h : sinPointR fuel P0 (f + 1) I = .ok Z) : (-1 : ℝ) ∈ Z := by
  have b1 := P0_lo hp
  have b2 := P0_hi hp
  have hph := mulS_mem hp (is_half (T := D))
  have hnh := mulS_mem (neg_mem hp) (is_half (T := D))
  rw [sinPointR] at h
  rw [if_neg (not_le_of_hi hz.1 is_three (by linarith) M0_gt),
    if_neg (not_le_of_lo hz.2 is_neg_two (by linarith) (by decide +kernel))] at h
  split at h
  · obtain ⟨W, hW, rfl⟩ := map_ok.1 h
    have := neg_mem (cosOrigin_mem hW (sub_mem hnh hz))
    simpa using this
  · rw [if_pos (le_of_val hz.2.1 hI is_neg_one (by decide +kernel))] at h
    obtain ⟨W, hW, rfl⟩ := map_ok.1 h
    have := neg_mem (cosOrigin_mem hW (add_mem hz hph))
    simpa using this

theorem cosPointR_one {fuel f : ℕ} {I Z : Interval D} (hz : (0 : ℝ) ∈ I)
    (hI : val I.sup ≤ ((1 / 2 : ℝ) : EReal))
    (h : cosPointR fuel P0 (f + 1) I = .ok Z) : (1 : ℝ) ∈ Z := by
  rw [cosPointR] at h
  rw [if_neg (not_le_of_hi hz.1 is_three (by norm_num) M0_gt),
    if_neg (not_le_of_lo hz.2 is_zero le_rfl (by decide +kernel)),
    if_neg (not_le_of_lo hz.2 is_zero le_rfl (by decide +kernel)),
    if_neg (not_le_of_lo hz.2 is_zero le_rfl (by decide +kernel))] at h
  split at h
  · have := cosOrigin_mem h (neg_mem hz)
    simpa using this
  · rw [if_pos (le_of_val hz.2.1 hI is_half (by decide +kernel))] at h
    have := cosOrigin_mem h hz
    simpa using this

theorem cosPointR_neg_one {fuel f : ℕ} {I Z : Interval D} {p : ℝ} (hp : p ∈ P0)
    (hz : -p ∈ I) (hI : val I.sup ≤ ((-3 : ℝ) : EReal))
    (h : cosPointR fuel P0 (f + 1) I = .ok Z) : (-1 : ℝ) ∈ Z := by
  have b1 := P0_lo hp
  rw [cosPointR] at h
  rw [if_neg (not_le_of_hi hz.1 is_three (by linarith) M0_gt),
    if_pos (le_of_val hz.2.1 hI is_neg_three (by decide +kernel))] at h
  obtain ⟨W, hW, rfl⟩ := map_ok.1 h
  have := neg_mem (cosOrigin_mem hW (add_mem hz hp))
  simpa using this

theorem P2_eq : mulS P0 two = ⟨lit (2 * piL), lit (2 * piU)⟩ := by decide +kernel

theorem rep_2piL : binary64.Rep (2 * piL) := by
  have := rep_b (m := 3537118876014213) (k := 49) (by norm_num) (by norm_num)
  have e : 2 * piL = 3537118876014213 / 2 ^ 49 := by norm_num [piL]
  rw [e]; push_cast at this; exact this
theorem rep_2piU : binary64.Rep (2 * piU) := by
  have := rep_b (m := 7074237752028445) (k := 50) (by norm_num) (by norm_num)
  have e : 2 * piU = 7074237752028445 / 2 ^ 50 := by norm_num [piU]
  rw [e]; push_cast at this; exact this

theorem sub_sup_le {I : Interval D} {z d cv : ℝ} {c : D} (hz : z ∈ I) (hI : val I.sup ≤ (d : EReal))
    (hc : Is c cv) (h : d - 2 * (piL : ℝ) ≤ cv) :
    val (sub I (mulS P0 two)).sup ≤ (cv : EReal) := by
  rw [P2_eq, Hw.lit_eq rep_2piL]
  show val (Rop.subUp I.sup (Hw.fin (2 * piL) rep_2piL)) ≤ _
  rcases cases_val hz.2.1 with h1 | h1 | ⟨b, h1⟩
  · rw [h1] at hI; exact absurd hI (not_le.2 (EReal.coe_lt_top _))
  · exact absurd h1 hz.2.ne_bot
  · have hb : b ≤ d := by rw [h1.2] at hI; exact EReal.coe_le_coe_iff.1 hI
    have := Fl.sub_up_isUp (F := binary64) (x := I.sup) (y := Hw.fin (2 * piL) rep_2piL) h1.1 (by simp [Hw.fin])
      (by rw [show Fl.toE I.sup = (b : EReal) from h1.2]; simp)
      (by rw [show Fl.toE I.sup = (b : EReal) from h1.2]; simp)
    have h3 := this.2.2 c hc.1 (by
      rw [show Fl.toE I.sup = (b : EReal) from h1.2, show Fl.toE c = (cv : EReal) from hc.2]
      rw [show Fl.toE (Hw.fin (2 * piL) rep_2piL) = (((2 * piL : ℚ) : ℝ) : EReal) from rfl]
      rw [← EReal.coe_sub, EReal.coe_le_coe_iff]
      push_cast; linarith)
    rw [show Fl.toE c = (cv : EReal) from hc.2] at h3
    exact h3

theorem sinPointR_shift {fuel f : ℕ} {z : D} {c : ℝ} {Z : Interval D} (hz : Is z c) (hc : 4 ≤ c)
    (h : sinPointR fuel P0 f (point z) = .ok Z) :
    ∃ g, sinPointR fuel P0 (g + 1) (sub (point z) (mulS P0 two)) = .ok Z := by
  cases f with
  | zero => simp [sinPointR] at h
  | succ f =>
    rw [sinPointR] at h
    rw [if_pos (by
      have := (lt_iff _ _).1 M0_lt
      rw [le_iff]
      refine ⟨this.1, hz.1, this.2.2.le.trans ?_⟩
      rw [is_four.2]; show _ ≤ val z
      rw [hz.2]; exact EReal.coe_le_coe_iff.2 hc)] at h
    cases f with
    | zero => simp [sinPointR] at h
    | succ f => exact ⟨f, h⟩

theorem cosPointR_shift {fuel f : ℕ} {z : D} {c : ℝ} {Z : Interval D} (hz : Is z c) (hc : 4 ≤ c)
    (h : cosPointR fuel P0 f (point z) = .ok Z) :
    ∃ g, cosPointR fuel P0 (g + 1) (sub (point z) (mulS P0 two)) = .ok Z := by
  cases f with
  | zero => simp [cosPointR] at h
  | succ f =>
    rw [cosPointR] at h
    rw [if_pos (by
      have := (lt_iff _ _).1 M0_lt
      rw [le_iff]
      refine ⟨this.1, hz.1, this.2.2.le.trans ?_⟩
      rw [is_four.2]; show _ ≤ val z
      rw [hz.2]; exact EReal.coe_le_coe_iff.2 hc)] at h
    cases f with
    | zero => simp [cosPointR] at h
    | succ f => exact ⟨f, h⟩

theorem piL_lo : (3.1415926 : ℝ) ≤ piL := by norm_num [piL]
theorem piU_hi : (piU : ℝ) ≤ 3.1415927 := by norm_num [piU]

theorem point_sup_le {z : D} {c d : ℝ} (hz : Is z c) (h : c ≤ d) : val (point z).sup ≤ (d : EReal) := by
  show val z ≤ _; rw [hz.2]; exact EReal.coe_le_coe_iff.2 h

section sinPt
variable {fuel : ℕ} {z : D} {Z : Interval D} {p : ℝ}

theorem sinPt_half (hp : p ∈ P0) (hz : Is z (p * (1 / 2)))
    (h : sinPoint fuel (point z) = .ok Z) : (1 : ℝ) ∈ Z := by
  obtain ⟨P, hP, h⟩ := bind_ok.1 h
  rw [constPi_eq hP] at h
  have := P0_hi hp
  cases fuel with
  | zero => simp [sinPointR] at h
  | succ f => exact sinPointR_one hp (point_mem hz) (point_sup_le hz (by linarith)) h

theorem sinPt_neg_half (hp : p ∈ P0) (hz : Is z (-p * (1 / 2)))
    (h : sinPoint fuel (point z) = .ok Z) : (-1 : ℝ) ∈ Z := by
  obtain ⟨P, hP, h⟩ := bind_ok.1 h
  rw [constPi_eq hP] at h
  have := P0_lo hp
  cases fuel with
  | zero => simp [sinPointR] at h
  | succ f => exact sinPointR_neg_one hp (point_mem hz) (point_sup_le hz (by linarith)) h

theorem sinPt_52 (hp : p ∈ P0) (hz : Is z (p * (5 / 2)))
    (h : sinPoint fuel (point z) = .ok Z) : (1 : ℝ) ∈ Z := by
  obtain ⟨P, hP, h⟩ := bind_ok.1 h
  rw [constPi_eq hP] at h
  have b1 := P0_lo hp
  have b2 := P0_hi hp
  have b3 := piL_lo
  obtain ⟨g, h⟩ := sinPointR_shift hz (by linarith) h
  refine sinPointR_one hp ?_ (sub_sup_le (point_mem hz) (point_sup_le hz le_rfl) is_two (by linarith)) h
  have := sub_mem (point_mem hz) (mulS_mem hp (is_two (T := D)))
  rwa [show p * (5 / 2) - p * 2 = p * (1 / 2) by ring] at this

theorem sinPt_32 (hp : p ∈ P0) (hz : Is z (p * (3 / 2)))
    (h : sinPoint fuel (point z) = .ok Z) : (-1 : ℝ) ∈ Z := by
  obtain ⟨P, hP, h⟩ := bind_ok.1 h
  rw [constPi_eq hP] at h
  have b1 := P0_lo hp
  have b2 := P0_hi hp
  have b3 := piL_lo
  obtain ⟨g, h⟩ := sinPointR_shift hz (by linarith) h
  refine sinPointR_neg_one hp ?_ (sub_sup_le (point_mem hz) (point_sup_le hz le_rfl) is_neg_one (by linarith)) h
  have := sub_mem (point_mem hz) (mulS_mem hp (is_two (T := D)))
  rwa [show p * (3 / 2) - p * 2 = -p * (1 / 2) by ring] at this

theorem cosPt_two (hp : p ∈ P0) (hz : Is z (p * 2))
    (h : cosPoint fuel (point z) = .ok Z) : (1 : ℝ) ∈ Z := by
  obtain ⟨P, hP, h⟩ := bind_ok.1 h
  rw [constPi_eq hP] at h
  have b1 := P0_lo hp
  have b2 := P0_hi hp
  have b3 := piL_lo
  obtain ⟨g, h⟩ := cosPointR_shift hz (by linarith) h
  refine cosPointR_one ?_ (sub_sup_le (point_mem hz) (point_sup_le hz le_rfl) is_half (by linarith)) h
  have := sub_mem (point_mem hz) (mulS_mem hp (is_two (T := D)))
  rwa [sub_self] at this

theorem cosPt_neg (hp : p ∈ P0) (hz : Is z (-p))
    (h : cosPoint fuel (point z) = .ok Z) : (-1 : ℝ) ∈ Z := by
  obtain ⟨P, hP, h⟩ := bind_ok.1 h
  rw [constPi_eq hP] at h
  have := P0_lo hp
  cases fuel with
  | zero => simp [cosPointR] at h
  | succ f => exact cosPointR_neg_one hp (point_mem hz) (point_sup_le hz (by linarith)) h

theorem cosPointR_neg_one' {f : ℕ} {I : Interval D} (hp : p ∈ P0) (hz : p ∈ I)
    (hI : val I.sup ≤ ((3.25 : ℝ) : EReal)) (h : cosPointR fuel P0 (f + 1) I = .ok Z) :
    (-1 : ℝ) ∈ Z := by
  have b1 := P0_lo hp
  have b3 := piL_lo
  rw [cosPointR] at h
  have g : (3 : ℝ) ≤ p := by linarith
  split at h
  · cases f with
    | zero => simp [cosPointR] at h
    | succ f =>
      refine cosPointR_neg_one hp ?_ (sub_sup_le hz hI is_neg_three (by linarith)) h
      have := sub_mem hz (mulS_mem hp (is_two (T := D)))
      rwa [show p - p * 2 = -p by ring] at this
  · rw [if_neg (not_le_of_lo hz.2 is_three g (by decide +kernel)),
      if_neg (not_le_of_lo hz.2 is_three g (by decide +kernel)),
      if_neg (not_le_of_lo hz.2 is_three g (by decide +kernel)),
      if_neg (not_le_of_lo hz.2 is_three g (by decide +kernel)),
      if_neg (not_le_of_lo hz.2 is_three g (by decide +kernel)),
      if_neg (not_le_of_lo hz.2 is_three g (by decide +kernel)),
      if_neg (not_le_of_lo hz.2 is_three g (by decide +kernel))] at h
    obtain ⟨W, hW, rfl⟩ := map_ok.1 h
    have := neg_mem (cosOrigin_mem hW (sub_mem hp hz))
    simpa using this

theorem cosPt_one (hp : p ∈ P0) (hz : Is z p)
    (h : cosPoint fuel (point z) = .ok Z) : (-1 : ℝ) ∈ Z := by
  obtain ⟨P, hP, h⟩ := bind_ok.1 h
  rw [constPi_eq hP] at h
  have := P0_hi hp
  cases fuel with
  | zero => simp [cosPointR] at h
  | succ f => exact cosPointR_neg_one' hp (point_mem hz) (point_sup_le hz (by norm_num at this ⊢; linarith)) h

theorem is_325 : Is (lit (13 / 4) : D) 3.25 := by
  have := is_cst (q := 13 / 4) 13 (-2) (by norm_num) (by norm_num) (by norm_num) (by norm_num)
  push_cast at this; norm_num at this ⊢; exact this

theorem cosPt_three (hp : p ∈ P0) (hz : Is z (p * 3))
    (h : cosPoint fuel (point z) = .ok Z) : (-1 : ℝ) ∈ Z := by
  obtain ⟨P, hP, h⟩ := bind_ok.1 h
  rw [constPi_eq hP] at h
  have b1 := P0_lo hp
  have b2 := P0_hi hp
  have b3 := piL_lo
  obtain ⟨g, h⟩ := cosPointR_shift hz (by linarith) h
  refine cosPointR_neg_one' hp ?_ (sub_sup_le (point_mem hz) (point_sup_le hz le_rfl) is_325 (by norm_num at b2 b3 ⊢; linarith)) h
  have := sub_mem (point_mem hz) (mulS_mem hp (is_two (T := D)))
  rwa [show p * 3 - p * 2 = p by ring] at this

theorem cosPt_half (hp : p ∈ P0) (hz : Is z (p * (1 / 2)))
    (h : cosPoint fuel (point z) = .ok Z) : (0 : ℝ) ∈ Z := by
  obtain ⟨P, hP, h⟩ := bind_ok.1 h
  rw [constPi_eq hP] at h
  have b1 := P0_lo hp
  have b2 := P0_hi hp
  have hph := mulS_mem hp (is_half (T := D))
  have hz' := point_mem hz
  cases fuel with
  | zero => simp [cosPointR] at h
  | succ f =>
    rw [cosPointR] at h
    have g : (1 : ℝ) ≤ p * (1 / 2) := by linarith
    rw [if_neg (not_le_of_hi hz'.1 is_three (by linarith) M0_gt),
      if_neg (not_le_of_lo hz'.2 is_one g (by decide +kernel)),
      if_neg (not_le_of_lo hz'.2 is_one g (by decide +kernel)),
      if_neg (not_le_of_lo hz'.2 is_one g (by decide +kernel)),
      if_neg (not_le_of_lo hz'.2 is_one g (by decide +kernel)),
      if_neg (not_le_of_lo hz'.2 is_one g (by decide +kernel))] at h
    split at h
    · have := sinOrigin_mem h (sub_mem hph hz')
      simpa using this
    · rw [if_pos (le_of_val hz'.2.1 (point_sup_le hz (d := 2) (by linarith)) is_two (by decide +kernel))] at h
      obtain ⟨W, hW, rfl⟩ := map_ok.1 h
      have := neg_mem (sinOrigin_mem hW (sub_mem hz' hph))
      simpa using this

theorem cosPt_neg_half (hp : p ∈ P0) (hz : Is z (-p * (1 / 2)))
    (h : cosPoint fuel (point z) = .ok Z) : (0 : ℝ) ∈ Z := by
  obtain ⟨P, hP, h⟩ := bind_ok.1 h
  rw [constPi_eq hP] at h
  have b1 := P0_lo hp
  have b2 := P0_hi hp
  have hph := mulS_mem hp (is_half (T := D))
  have hnh := mulS_mem (neg_mem hp) (is_half (T := D))
  have hz' := point_mem hz
  cases fuel with
  | zero => simp [cosPointR] at h
  | succ f =>
    rw [cosPointR] at h
    rw [if_neg (not_le_of_hi hz'.1 is_three (by linarith) M0_gt),
      if_neg (not_le_of_lo hz'.2 is_neg_two (by linarith) (by decide +kernel))] at h
    split at h
    · obtain ⟨W, hW, rfl⟩ := map_ok.1 h
      have := neg_mem (sinOrigin_mem hW (sub_mem hnh hz'))
      simpa using this
    · rw [if_pos (le_of_val hz'.2.1 (point_sup_le hz (d := -1) (by linarith)) is_neg_one (by decide +kernel))] at h
      have := sinOrigin_mem h (add_mem hz' hph)
      simpa using this
end sinPt

end Interval
end Kv
