import Verif.Interval.ElemSin

/-! # Helper lemmas: `atan2` -/

namespace Kv
open RopSem
open Rop (lit)

/-- `θ` is an angle of the point `(x, y)` in polar coordinates. -/
def IsAngle (θ x y : ℝ) : Prop :=
  x = Real.sqrt (x ^ 2 + y ^ 2) * Real.cos θ ∧ y = Real.sqrt (x ^ 2 + y ^ 2) * Real.sin θ

/-- the angle in `(-π, π]` -/
noncomputable def ang (x y : ℝ) : ℝ :=
  if 0 < x then Real.arctan (y / x)
  else if 0 < y then Real.pi / 2 - Real.arctan (x / y)
  else if y < 0 then -(Real.pi / 2) - Real.arctan (x / y)
  else Real.pi

theorem ang_R {x y : ℝ} (hx : 0 < x) : ang x y = Real.arctan (y / x) := if_pos hx

theorem ang_U {x y : ℝ} (hy : 0 < y) : ang x y = Real.pi / 2 - Real.arctan (x / y) := by
  unfold ang
  split_ifs with h
  · rw [← Real.arctan_inv_of_pos (div_pos h hy), inv_div]
  · rfl

theorem ang_W {x y : ℝ} (hy : y < 0) : ang x y = -(Real.pi / 2) - Real.arctan (x / y) := by
  unfold ang
  split_ifs with h h2
  · rw [← Real.arctan_inv_of_neg (div_neg_of_pos_of_neg h hy), inv_div]
  · linarith
  · rfl

theorem ang_L {x y : ℝ} (hx : x < 0) (hy : 0 ≤ y) : ang x y = Real.pi + Real.arctan (y / x) := by
  rcases hy.lt_or_eq with h | h
  · rw [ang_U h]
    have := Real.arctan_inv_of_neg (div_neg_of_neg_of_pos hx h)
    rw [inv_div] at this; rw [this]; ring
  · subst h
    unfold ang
    rw [if_neg (by linarith), if_neg (by linarith), if_neg (by linarith)]
    simp

theorem ang_L' {x y : ℝ} (hx : x < 0) (hy : y < 0) : ang x y = -Real.pi + Real.arctan (y / x) := by
  rw [ang_W hy]
  have := Real.arctan_inv_of_pos (div_pos_of_neg_of_neg hx hy)
  rw [inv_div] at this; rw [this]; ring

theorem isAngle_arctan {x y : ℝ} (hx : 0 < x) : IsAngle (Real.arctan (y / x)) x y := by
  have e : Real.sqrt (x ^ 2 + y ^ 2) = x * Real.sqrt (1 + (y / x) ^ 2) := by
    rw [show x ^ 2 + y ^ 2 = x ^ 2 * (1 + (y / x) ^ 2) by field_simp,
      Real.sqrt_mul (by positivity), Real.sqrt_sq hx.le]
  have p : 0 < Real.sqrt (1 + (y / x) ^ 2) := Real.sqrt_pos.2 (by positivity)
  unfold IsAngle
  rw [e, Real.cos_arctan, Real.sin_arctan]
  constructor
  · field_simp
  · field_simp

theorem ang_isAngle {x y : ℝ} (h : x ≠ 0 ∨ y ≠ 0) : IsAngle (ang x y) x y := by
  rcases lt_trichotomy y 0 with hy | hy | hy
  · rw [ang_W hy]
    have := isAngle_arctan (x := -y) (y := -x) (by linarith)
    rw [neg_div_neg_eq] at this
    obtain ⟨h1, h2⟩ := this
    rw [show (-y) ^ 2 + (-x) ^ 2 = x ^ 2 + y ^ 2 by ring] at h1 h2
    constructor
    · rw [show -(Real.pi / 2) - Real.arctan (x / y) = -(Real.arctan (x / y) + Real.pi / 2) by ring,
        Real.cos_neg, Real.cos_add_pi_div_two]
      linarith
    · rw [show -(Real.pi / 2) - Real.arctan (x / y) = -(Real.arctan (x / y) + Real.pi / 2) by ring,
        Real.sin_neg, Real.sin_add_pi_div_two]
      linarith
  · rcases lt_trichotomy x 0 with hx | hx | hx
    · subst hy
      rw [ang_L hx le_rfl]
      have : Real.sqrt (x ^ 2 + 0 ^ 2) = -x := by
        rw [show x ^ 2 + 0 ^ 2 = (-x) ^ 2 by ring, Real.sqrt_sq (by linarith)]
      unfold IsAngle
      rw [this]; simp
    · rcases h with h | h
      · exact absurd hx h
      · exact absurd hy h
    · rw [ang_R hx]; exact isAngle_arctan hx
  · rw [ang_U hy]
    obtain ⟨h1, h2⟩ := isAngle_arctan (x := y) (y := x) hy
    rw [add_comm (y ^ 2)] at h1 h2
    constructor
    · rw [Real.cos_pi_div_two_sub]; exact h2
    · rw [Real.sin_pi_div_two_sub]; exact h1

theorem ang_abs {x y : ℝ} : -Real.pi ≤ ang x y ∧ ang x y ≤ Real.pi := by
  have hp := Real.pi_pos
  have b1 : ∀ t : ℝ, -(Real.pi / 2) < Real.arctan t := Real.neg_pi_div_two_lt_arctan
  have b2 : ∀ t : ℝ, Real.arctan t < Real.pi / 2 := Real.arctan_lt_pi_div_two
  unfold ang
  split_ifs
  · constructor <;> linarith [b1 (y / x), b2 (y / x)]
  · constructor <;> linarith [b1 (x / y), b2 (x / y)]
  · constructor <;> linarith [b1 (x / y), b2 (x / y)]
  · constructor <;> linarith

theorem isAngle_add_two_pi {θ x y : ℝ} (h : IsAngle θ x y) : IsAngle (2 * Real.pi + θ) x y := by
  unfold IsAngle at *
  rw [add_comm (2 * Real.pi) θ, Real.cos_add_two_pi, Real.sin_add_two_pi]; exact h

/-- enclosure at a point of an antitone function -/
def PtEncA (f : ℝ → ℝ) (v : EReal) (Z : Interval D) : Prop :=
  (∀ c : ℝ, v ≤ (c : EReal) → Hi Z.sup (f c)) ∧ (∀ c : ℝ, (c : EReal) ≤ v → Lo Z.inf (f c))

namespace Interval

theorem PtEncA.of_mem {f : ℝ → ℝ} (hf : Antitone f) {v : EReal} {c : ℝ} (hv : v = c)
    {Z : Interval D} (h : f c ∈ Z) : PtEncA f v Z := by
  subst hv
  exact ⟨fun d hcd => h.2.mono (hf (EReal.coe_le_coe_iff.1 hcd)),
    fun d hcd => h.1.mono (hf (EReal.coe_le_coe_iff.1 hcd))⟩

theorem div_point {a b : D} {Q : Interval D} (h : div (point a) (point b) = .ok Q) :
    Q = ⟨Rop.divDown a b, Rop.divUp a b⟩ := by
  unfold div at h
  repeat' split at h
  all_goals first | (injection h with h; exact h.symm) | cases h

theorem div_inf_mem {a b : D} {c : ℝ} (ha : Is a c) (hb : b = Rop.inf ∨ b = Rop.neg Rop.inf)
    {Q : Interval D} (h : div (point a) (point b) = .ok Q) : (0 : ℝ) ∈ Q := by
  rw [div_point h]
  obtain ⟨q, hq, rfl, rfl⟩ := Hw.is_iff.1 ha
  have z : (0 : ℝ) ∈ (⟨lit 0, lit 0⟩ : Interval D) := mem_zero rfl
  have zz : Rop.neg (lit 0 : D) = lit 0 := by decide +kernel
  have e0 : (lit 0 : D) = Hw.fin 0 Format.rep_zero := Hw.lit_eq _
  rcases hb with rfl | rfl
  · have e1 : (Rop.divUp (Hw.fin q hq) Rop.inf : D) = lit 0 := by rw [e0]; rfl
    have e2 : (Rop.divDown (Hw.fin q hq) Rop.inf : D) = lit 0 := by rw [← zz, e0]; rfl
    rw [e1, e2]; exact z
  · have e1 : (Rop.divUp (Hw.fin q hq) (Rop.neg Rop.inf) : D) = lit 0 := by rw [e0]; rfl
    have e2 : (Rop.divDown (Hw.fin q hq) (Rop.neg Rop.inf) : D) = lit 0 := by rw [← zz, e0]; rfl
    rw [e1, e2]; exact z

theorem atan2Point_mem {fuel : ℕ} {y x : D} {η ξ : ℝ} {Z : Interval D} (hy : Is y η) (hx : Is x ξ)
    (h : atan2Point fuel y x = .ok Z) : ang ξ η ∈ Z := by
  unfold atan2Point at h
  obtain ⟨P, hP, h⟩ := bind_ok.1 h
  have hp := constPi_mem hP
  dsimp only at h
  have hdiv : ∀ {a b : D} {α β : ℝ} {Q W : Interval D}, Is a α → Is b β → div (point a) (point b) = .ok Q →
      atan fuel Q = .ok W → Real.arctan (α / β) ∈ W := by
    intro a b α β Q W ha hb h1 h2
    exact atan_mem h2 (div_mem h1 (point_mem ha) (point_mem hb))
  by_cases c1 : (Rop.le y x && Rop.lt (Rop.neg x) y) = true
  · rw [if_pos c1] at h
    rw [Bool.and_eq_true, le_of_is hy hx, lt_of_is (is_neg hx) hy] at c1
    obtain ⟨Q, hQ, h⟩ := bind_ok.1 h
    rw [ang_R (by linarith)]
    exact hdiv hy hx hQ h
  rw [if_neg c1] at h
  by_cases c2 : (Rop.lt x y && Rop.lt (Rop.neg x) y) = true
  · rw [if_pos c2] at h
    rw [Bool.and_eq_true, lt_of_is hx hy, lt_of_is (is_neg hx) hy] at c2
    obtain ⟨Q, hQ, h⟩ := bind_ok.1 h
    obtain ⟨A, hA, h⟩ := bind_ok.1 h
    cases h
    rw [ang_U (by linarith)]
    have := sub_mem (mulS_mem hp (is_half (T := D))) (hdiv hx hy hQ hA)
    rwa [show Real.pi * (1 / 2) = Real.pi / 2 by ring] at this
  rw [if_neg c2] at h
  by_cases c3 : (Rop.lt x y && Rop.le y (Rop.neg x)) = true
  · rw [if_pos c3] at h
    rw [Bool.and_eq_true, lt_of_is hx hy, le_of_is hy (is_neg hx)] at c3
    by_cases c4 : Rop.le (lit 0) y = true
    · rw [if_pos c4] at h
      rw [le_of_is is_zero hy] at c4
      obtain ⟨Q, hQ, h⟩ := bind_ok.1 h
      obtain ⟨A, hA, h⟩ := bind_ok.1 h
      cases h
      rw [ang_L (by linarith) c4]
      exact add_mem hp (hdiv hy hx hQ hA)
    · rw [if_neg c4] at h
      rw [le_of_is is_zero hy, not_le] at c4
      obtain ⟨Q, hQ, h⟩ := bind_ok.1 h
      obtain ⟨A, hA, h⟩ := bind_ok.1 h
      cases h
      rw [ang_L' (by linarith) c4]
      exact add_mem (neg_mem hp) (hdiv hy hx hQ hA)
  · rw [if_neg c3] at h
    obtain ⟨Q, hQ, h⟩ := bind_ok.1 h
    obtain ⟨A, hA, h⟩ := bind_ok.1 h
    cases h
    rw [Bool.and_eq_true, le_of_is hy hx, lt_of_is (is_neg hx) hy, not_and_or, not_le, not_lt] at c1
    rw [Bool.and_eq_true, lt_of_is hx hy, lt_of_is (is_neg hx) hy, not_and_or, not_lt, not_lt] at c2
    rw [Bool.and_eq_true, lt_of_is hx hy, le_of_is hy (is_neg hx), not_and_or, not_lt, not_le] at c3
    have y0 : η ≤ 0 := by
      rcases c1 with c | c <;> rcases c2 with c' | c' <;> rcases c3 with c'' | c'' <;> linarith
    have yne : η ≠ 0 := by
      intro h0
      rw [h0] at hy
      have := (C03_div_error_iff (point x) (point_mem hy)).2 (point_mem hy)
      rw [this] at hQ; cases hQ
    rw [ang_W (lt_of_le_of_ne y0 yne)]
    have := sub_mem (mulS_mem (neg_mem hp) (is_half (T := D))) (hdiv hx hy hQ hA)
    rwa [show -Real.pi * (1 / 2) = -(Real.pi / 2) by ring] at this

/-! values at infinite arguments -/

theorem is_rat_inf {y : D} {η : ℝ} (hy : Is y η) :
    Rop.le y Rop.inf = true ∧ Rop.lt (Rop.neg Rop.inf) y = true ∧ Rop.lt y Rop.inf = true ∧
    ¬ Rop.le y (Rop.neg Rop.inf) = true := by
  refine ⟨(le_iff _ _).2 ⟨hy.1, inf_val.1, ?_⟩, (lt_iff _ _).2 ⟨not_nan_neg_inf, hy.1, ?_⟩,
    (lt_iff _ _).2 ⟨hy.1, inf_val.1, ?_⟩, fun h => ?_⟩
  · rw [inf_val.2]; exact le_top
  · rw [val_neg_inf, hy.2]; exact EReal.bot_lt_coe _
  · rw [inf_val.2, hy.2]; exact EReal.coe_lt_top _
  · have := ((le_iff _ _).1 h).2.2
    rw [val_neg_inf, hy.2] at this
    exact absurd this (not_le.2 (EReal.bot_lt_coe _))

theorem neg_neg_inf : Rop.neg (Rop.neg (Rop.inf : D)) = Rop.inf := rfl

theorem atan2Point_xpinf {fuel : ℕ} {y : D} {η : ℝ} {Z : Interval D} (hy : Is y η)
    (h : atan2Point fuel y Rop.inf = .ok Z) : (0 : ℝ) ∈ Z := by
  unfold atan2Point at h
  obtain ⟨P, hP, h⟩ := bind_ok.1 h
  dsimp only at h
  obtain ⟨a1, a2, a3, a4⟩ := is_rat_inf hy
  rw [if_pos (by rw [a1, a2]; rfl)] at h
  obtain ⟨Q, hQ, h⟩ := bind_ok.1 h
  have := atan_mem h (div_inf_mem hy (Or.inl rfl) hQ)
  simpa using this

theorem atan2Point_xninf {fuel : ℕ} {y : D} {η : ℝ} {Z : Interval D} (hy : Is y η)
    (h : atan2Point fuel y (Rop.neg Rop.inf) = .ok Z) : (if 0 ≤ η then Real.pi else -Real.pi) ∈ Z := by
  unfold atan2Point at h
  obtain ⟨P, hP, h⟩ := bind_ok.1 h
  have hp := constPi_mem hP
  dsimp only at h
  obtain ⟨a1, a2, a3, a4⟩ := is_rat_inf hy
  have b1 : ¬ Rop.lt (Rop.inf : D) y = true := by
    intro h
    have := ((lt_iff _ _).1 h).2.2
    rw [inf_val.2] at this
    exact absurd le_top (not_le.2 this)
  rw [neg_neg_inf] at h
  rw [if_neg (by simp [a4]), if_neg (by simp [b1]), if_pos (by simp [a1, a2])] at h
  split_ifs at h with c
  · rw [le_of_is is_zero hy] at c
    rw [if_pos c]
    obtain ⟨Q, hQ, h⟩ := bind_ok.1 h
    obtain ⟨A, hA, h⟩ := bind_ok.1 h
    cases h
    have := add_mem hp (atan_mem hA (div_inf_mem hy (Or.inr rfl) hQ))
    simpa using this
  · rw [le_of_is is_zero hy] at c
    rw [if_neg c]
    obtain ⟨Q, hQ, h⟩ := bind_ok.1 h
    obtain ⟨A, hA, h⟩ := bind_ok.1 h
    cases h
    have := add_mem (neg_mem hp) (atan_mem hA (div_inf_mem hy (Or.inr rfl) hQ))
    simpa using this

theorem neg_lt_inf {x : D} {ξ : ℝ} (hx : Is x ξ) : Rop.lt (Rop.neg x) Rop.inf = true := by
  refine (lt_iff _ _).2 ⟨(is_neg hx).1, inf_val.1, ?_⟩
  rw [inf_val.2, (is_neg hx).2]; exact EReal.coe_lt_top _

theorem atan2Point_ypinf {fuel : ℕ} {x : D} {ξ : ℝ} {Z : Interval D} (hx : Is x ξ)
    (h : atan2Point fuel Rop.inf x = .ok Z) : Real.pi / 2 ∈ Z := by
  unfold atan2Point at h
  obtain ⟨P, hP, h⟩ := bind_ok.1 h
  have hp := constPi_mem hP
  dsimp only at h
  obtain ⟨a1, a2, a3, a4⟩ := is_rat_inf hx
  have b1 : ¬ Rop.le (Rop.inf : D) x = true := by
    intro h
    have := ((le_iff _ _).1 h).2.2
    rw [inf_val.2, hx.2] at this
    exact absurd this (not_le.2 (EReal.coe_lt_top _))
  rw [if_neg (by simp [b1]), if_pos (by simp [a3, neg_lt_inf hx])] at h
  obtain ⟨Q, hQ, h⟩ := bind_ok.1 h
  obtain ⟨A, hA, h⟩ := bind_ok.1 h
  cases h
  have := sub_mem (mulS_mem hp (is_half (T := D))) (atan_mem hA (div_inf_mem hx (Or.inl rfl) hQ))
  rwa [Real.arctan_zero, sub_zero, show Real.pi * (1 / 2) = Real.pi / 2 by ring] at this

theorem atan2Point_yninf {fuel : ℕ} {x : D} {ξ : ℝ} {Z : Interval D} (hx : Is x ξ)
    (h : atan2Point fuel (Rop.neg Rop.inf) x = .ok Z) : -(Real.pi / 2) ∈ Z := by
  unfold atan2Point at h
  obtain ⟨P, hP, h⟩ := bind_ok.1 h
  have hp := constPi_mem hP
  dsimp only at h
  have b1 : ¬ Rop.lt (Rop.neg x) (Rop.neg Rop.inf : D) = true := by
    intro h
    have := ((lt_iff _ _).1 h).2.2
    rw [val_neg_inf] at this
    exact absurd bot_le (not_le.2 this)
  have b2 : ¬ Rop.lt x (Rop.neg Rop.inf : D) = true := by
    intro h
    have := ((lt_iff _ _).1 h).2.2
    rw [val_neg_inf] at this
    exact absurd bot_le (not_le.2 this)
  rw [if_neg (by simp [b1]), if_neg (by simp [b2]), if_neg (by simp [b2])] at h
  obtain ⟨Q, hQ, h⟩ := bind_ok.1 h
  obtain ⟨A, hA, h⟩ := bind_ok.1 h
  cases h
  have := sub_mem (mulS_mem (neg_mem hp) (is_half (T := D))) (atan_mem hA (div_inf_mem hx (Or.inr rfl) hQ))
  rwa [Real.arctan_zero, sub_zero, show -Real.pi * (1 / 2) = -(Real.pi / 2) by ring] at this

/-! corner enclosures -/

theorem val_top_eq {x : D} (hn : ¬ nan x) (h : val x = ⊤) : x = Rop.inf := by
  rcases D_cases x with h1 | h1 | h1 | ⟨q, hq, h1⟩
  · exact absurd h1 hn
  · exact h1
  · rw [h1, val_neg_inf] at h; simp at h
  · rw [h1, (Hw.is_fin hq).2] at h; exact absurd h (EReal.coe_ne_top _)
theorem val_bot_eq {x : D} (hn : ¬ nan x) (h : val x = ⊥) : x = Rop.neg Rop.inf := by
  rcases D_cases x with h1 | h1 | h1 | ⟨q, hq, h1⟩
  · exact absurd h1 hn
  · rw [h1, inf_val.2] at h; simp at h
  · exact h1
  · rw [h1, (Hw.is_fin hq).2] at h; exact absurd h (EReal.coe_ne_bot _)

theorem corner_R {fuel : ℕ} {y x : D} {ξ : ℝ} {Z : Interval D} (hx : Is x ξ) (h0 : 0 < ξ)
    (hy : ¬ nan y) (h : atan2Point fuel y x = .ok Z) :
    PtEnc (fun t => Real.arctan (t / ξ)) (val y) Z := by
  rcases cases_val hy with hv | hv | ⟨η, hη⟩
  · have e := val_top_eq hy hv
    subst e
    have m := atan2Point_ypinf hx h
    rw [hv]
    exact ⟨fun c hc => absurd hc (not_le.2 (EReal.coe_lt_top _)),
      fun c _ => m.2.mono (Real.arctan_lt_pi_div_two _).le⟩
  · have e := val_bot_eq hy hv
    subst e
    have m := atan2Point_yninf hx h
    rw [hv]
    exact ⟨fun c _ => m.1.mono (Real.neg_pi_div_two_lt_arctan _).le,
      fun c hc => absurd hc (not_le.2 (EReal.bot_lt_coe _))⟩
  · have m := atan2Point_mem hη hx h
    rw [ang_R h0] at m
    refine PtEnc.of_mem (f := fun t => Real.arctan (t / ξ)) ?_ hη.2 m
    intro a b hab
    exact Real.arctan_mono (by gcongr)

theorem corner_U {fuel : ℕ} {y x : D} {η : ℝ} {Z : Interval D} (hy : Is y η) (h0 : 0 < η)
    (hx : ¬ nan x) (h : atan2Point fuel y x = .ok Z) :
    PtEncA (fun t => Real.pi / 2 - Real.arctan (t / η)) (val x) Z := by
  rcases cases_val hx with hv | hv | ⟨ξ, hξ⟩
  · have e := val_top_eq hx hv
    subst e
    have m := atan2Point_xpinf hy h
    rw [hv]
    exact ⟨fun c hc => absurd hc (not_le.2 (EReal.coe_lt_top _)),
      fun c _ => m.1.mono (by linarith [Real.arctan_lt_pi_div_two (c / η)])⟩
  · have e := val_bot_eq hx hv
    subst e
    have m := atan2Point_xninf hy h
    rw [if_pos h0.le] at m
    rw [hv]
    exact ⟨fun c _ => m.2.mono (by linarith [Real.neg_pi_div_two_lt_arctan (c / η)]),
      fun c hc => absurd hc (not_le.2 (EReal.bot_lt_coe _))⟩
  · have m := atan2Point_mem hy hξ h
    rw [ang_U h0] at m
    refine PtEncA.of_mem (f := fun t => Real.pi / 2 - Real.arctan (t / η)) ?_ hξ.2 m
    intro a b hab
    have : Real.arctan (a / η) ≤ Real.arctan (b / η) := Real.arctan_mono (by gcongr)
    dsimp only; linarith

theorem corner_W {fuel : ℕ} {y x : D} {η : ℝ} {Z : Interval D} (hy : Is y η) (h0 : η < 0)
    (hx : ¬ nan x) (h : atan2Point fuel y x = .ok Z) :
    PtEnc (fun t => -(Real.pi / 2) - Real.arctan (t / η)) (val x) Z := by
  rcases cases_val hx with hv | hv | ⟨ξ, hξ⟩
  · have e := val_top_eq hx hv
    subst e
    have m := atan2Point_xpinf hy h
    rw [hv]
    exact ⟨fun c hc => absurd hc (not_le.2 (EReal.coe_lt_top _)),
      fun c _ => m.2.mono (by linarith [Real.neg_pi_div_two_lt_arctan (c / η)])⟩
  · have e := val_bot_eq hx hv
    subst e
    have m := atan2Point_xninf hy h
    rw [if_neg (by linarith)] at m
    rw [hv]
    exact ⟨fun c _ => m.1.mono (by linarith [Real.arctan_lt_pi_div_two (c / η)]),
      fun c hc => absurd hc (not_le.2 (EReal.bot_lt_coe _))⟩
  · have m := atan2Point_mem hy hξ h
    rw [ang_W h0] at m
    refine PtEnc.of_mem (f := fun t => -(Real.pi / 2) - Real.arctan (t / η)) ?_ hξ.2 m
    intro a b hab
    have : Real.arctan (b / η) ≤ Real.arctan (a / η) :=
      Real.arctan_mono (div_le_div_of_nonpos_of_le h0.le hab)
    dsimp only; linarith

theorem anti_L {ξ : ℝ} (h0 : ξ < 0) (k : ℝ) : Antitone (fun t => k + Real.arctan (t / ξ)) := by
  intro a b hab
  have : Real.arctan (b / ξ) ≤ Real.arctan (a / ξ) :=
    Real.arctan_mono (div_le_div_of_nonpos_of_le h0.le hab)
  dsimp only; linarith

theorem corner_L {fuel : ℕ} {y x : D} {ξ : ℝ} {Z : Interval D} (hx : Is x ξ) (h0 : ξ < 0)
    (hy : ¬ nan y) (hy0 : 0 ≤ val y) (h : atan2Point fuel y x = .ok Z) :
    PtEncA (fun t => Real.pi + Real.arctan (t / ξ)) (val y) Z := by
  rcases cases_val hy with hv | hv | ⟨η, hη⟩
  · have e := val_top_eq hy hv
    subst e
    have m := atan2Point_ypinf hx h
    rw [hv]
    exact ⟨fun c hc => absurd hc (not_le.2 (EReal.coe_lt_top _)),
      fun c _ => m.1.mono (by linarith [Real.neg_pi_div_two_lt_arctan (c / ξ)])⟩
  · rw [hv] at hy0; simp at hy0
  · have m := atan2Point_mem hη hx h
    rw [ang_L h0 (by rw [hη.2] at hy0; exact_mod_cast hy0)] at m
    exact PtEncA.of_mem (anti_L h0 _) hη.2 m

theorem corner_L' {fuel : ℕ} {y x : D} {ξ : ℝ} {Z : Interval D} (hx : Is x ξ) (h0 : ξ < 0)
    (hy : ¬ nan y) (hy0 : val y < 0) (h : atan2Point fuel y x = .ok Z) :
    PtEncA (fun t => -Real.pi + Real.arctan (t / ξ)) (val y) Z := by
  rcases cases_val hy with hv | hv | ⟨η, hη⟩
  · rw [hv] at hy0; simp at hy0
  · have e := val_bot_eq hy hv
    subst e
    have m := atan2Point_yninf hx h
    rw [hv]
    exact ⟨fun c _ => m.2.mono (by linarith [Real.arctan_lt_pi_div_two (c / ξ)]),
      fun c hc => absurd hc (not_le.2 (EReal.bot_lt_coe _))⟩
  · have m := atan2Point_mem hη hx h
    rw [ang_L' h0 (by rw [hη.2] at hy0; exact_mod_cast hy0)] at m
    exact PtEncA.of_mem (anti_L h0 _) hη.2 m

/-! the interval function -/

theorem atan2Pair_ok {fuel : ℕ} {a b c d : D} {Z : Interval D} (h : atan2Pair fuel a b c d = .ok Z) :
    ∃ L U, atan2Point fuel a b = .ok L ∧ atan2Point fuel c d = .ok U ∧ Z = ⟨L.inf, U.sup⟩ := by
  unfold atan2Pair at h
  obtain ⟨L, hL, h⟩ := bind_ok.1 h
  obtain ⟨U, hU, h⟩ := bind_ok.1 h
  cases h
  exact ⟨L, U, hL, hU, rfl⟩

theorem lo_pos_is {a : D} {x : ℝ} (h : Lo a x) (h0 : Rop.lt (lit 0) a = true) :
    ∃ c, Is a c ∧ 0 < c ∧ c ≤ x := by
  rw [lt_zero_left] at h0
  rcases cases_val h.1 with hv | hv | ⟨c, hc⟩
  · exact absurd hv h.ne_top
  · rw [hv] at h0; simp at h0
  · refine ⟨c, hc, ?_, ?_⟩
    · have := h0.2; rw [hc.2] at this; exact_mod_cast this
    · have := h.2; rw [hc.2] at this; exact_mod_cast this

theorem hi_neg_is {a : D} {x : ℝ} (h : Hi a x) (h0 : val a < 0) :
    ∃ c, Is a c ∧ c < 0 ∧ x ≤ c := by
  rcases cases_val h.1 with hv | hv | ⟨c, hc⟩
  · rw [hv] at h0; simp at h0
  · exact absurd hv h.ne_bot
  · refine ⟨c, hc, ?_, ?_⟩
    · rw [hc.2] at h0; exact_mod_cast h0
    · have := h.2; rw [hc.2] at this; exact_mod_cast this

theorem zeroIn_iff {I : Interval D} {x : ℝ} (hx : x ∈ I) :
    zeroIn I = true ↔ val I.inf ≤ 0 ∧ 0 ≤ val I.sup := by
  unfold zeroIn
  rw [Bool.and_eq_true, le_zero_left, le_zero_right]
  have := hx.1.1; have := hx.2.1; tauto

theorem div_le_div_pos {x y η : ℝ} (hx : 0 ≤ x) (h0 : 0 < η) (h : η ≤ y) : x / y ≤ x / η :=
  div_le_div_of_nonneg_left hx h0 h
theorem div_ge_div_pos {x y η : ℝ} (hx : x ≤ 0) (h0 : 0 < η) (h : η ≤ y) : x / η ≤ x / y := by
  have := div_le_div_pos (x := -x) (by linarith) h0 h
  rw [neg_div, neg_div] at this; linarith
theorem div_le_div_neg {x y η : ℝ} (hx : x ≤ 0) (h0 : η < 0) (h : y ≤ η) : x / y ≤ x / η := by
  have := div_le_div_pos (x := -x) (y := -y) (η := -η) (by linarith) (by linarith) (by linarith)
  rwa [neg_div_neg_eq, neg_div_neg_eq] at this
theorem div_ge_div_neg {x y η : ℝ} (hx : 0 ≤ x) (h0 : η < 0) (h : y ≤ η) : x / η ≤ x / y := by
  have := div_ge_div_pos (x := -x) (y := -y) (η := -η) (by linarith) (by linarith) (by linarith)
  rwa [neg_div_neg_eq, neg_div_neg_eq] at this

theorem zero_le_coe {v : EReal} (h : v ≤ 0) : v ≤ ((0 : ℝ) : EReal) := by simpa using h
theorem coe_le_zero {v : EReal} (h : 0 ≤ v) : ((0 : ℝ) : EReal) ≤ v := by simpa using h

theorem coe_le_zero' {y : ℝ} (h : 0 < y) : (0 : EReal) ≤ (y : EReal) := by exact_mod_cast h.le

/-- the result contains the angle in `(-π, π]`, or that angle plus `2π` if the box lies on the left and crosses the axis -/
theorem atan2_ang {fuel : ℕ} {Iy Ix Z : Interval D} {y x : ℝ} (h : atan2 fuel Iy Ix = .ok Z) (hy : y ∈ Iy) (hx : x ∈ Ix) :
    ∃ θ ∈ Z, θ = ang x y ∨ (θ = 2 * Real.pi + ang x y ∧ y < 0 ∧ x < 0 ∧ (0 : ℝ) ∈ Iy) := by
  unfold atan2 at h
  obtain ⟨P, hP, h⟩ := bind_ok.1 h
  have hp := constPi_mem hP
  have am : ∀ {a b : ℝ}, a ≤ b → Real.arctan a ≤ Real.arctan b := fun h => Real.arctan_mono h
  by_cases cx : zeroIn Ix = true
  · rw [if_pos cx] at h
    rw [zeroIn_iff hx] at cx
    by_cases cy : zeroIn Iy = true
    · rw [if_pos cy] at h
      cases h
      have hb := ang_abs (x := x) (y := y)
      exact ⟨ang x y, ⟨hp.2.neg.mono hb.1, hp.2.mono hb.2⟩, .inl rfl⟩
    rw [if_neg cy] at h
    rw [zeroIn_iff hy] at cy
    by_cases c1 : Rop.lt (lit 0) Iy.inf = true
    · -- upper half plane
      rw [if_pos c1] at h
      obtain ⟨L, U, hL, hU, rfl⟩ := atan2Pair_ok h
      obtain ⟨η, hη, η0, ηy⟩ := lo_pos_is hy.1 c1
      have y0 : 0 < y := by linarith
      refine ⟨ang x y, ?_, .inl rfl⟩
      rw [ang_U y0]
      have eL := (corner_U hη η0 hx.2.1 hL).2
      have eU := (corner_U hη η0 hx.1.1 hU).1
      rcases le_total 0 x with h0 | h0
      · refine ⟨(eL x hx.2.2).mono ?_, (eU 0 (zero_le_coe cx.1)).mono ?_⟩
        · linarith [am (div_le_div_pos h0 η0 ηy)]
        · have : (0 : ℝ) ≤ x / y := by positivity
          have := am this
          simp only [zero_div, Real.arctan_zero] at this ⊢; linarith
      · refine ⟨(eL 0 (coe_le_zero cx.2)).mono ?_, (eU x hx.1.2).mono ?_⟩
        · have : x / y ≤ 0 := div_nonpos_of_nonpos_of_nonneg h0 y0.le
          have := am this
          simp only [zero_div, Real.arctan_zero] at this ⊢; linarith
        · linarith [am (div_ge_div_pos h0 η0 ηy)]
    · -- lower half plane
      rw [if_neg c1] at h
      rw [lt_zero_left] at c1
      have ysup : val Iy.sup < 0 := by
        have i1 := hy.1.1
        by_contra hc
        exact cy ⟨by by_contra h; exact c1 ⟨i1, not_le.1 h⟩, not_lt.1 hc⟩
      obtain ⟨L, U, hL, hU, rfl⟩ := atan2Pair_ok h
      obtain ⟨η, hη, η0, ηy⟩ := hi_neg_is hy.2 ysup
      have y0 : y < 0 := by linarith
      refine ⟨ang x y, ?_, .inl rfl⟩
      rw [ang_W y0]
      have eL := (corner_W hη η0 hx.1.1 hL).1
      have eU := (corner_W hη η0 hx.2.1 hU).2
      rcases le_total 0 x with h0 | h0
      · refine ⟨(eL 0 (zero_le_coe cx.1)).mono ?_, (eU x hx.2.2).mono ?_⟩
        · have : x / y ≤ 0 := div_nonpos_of_nonneg_of_nonpos h0 y0.le
          have := am this
          simp only [zero_div, Real.arctan_zero] at this ⊢; linarith
        · linarith [am (div_ge_div_neg h0 η0 ηy)]
      · refine ⟨(eL x hx.1.2).mono ?_, (eU 0 (coe_le_zero cx.2)).mono ?_⟩
        · linarith [am (div_le_div_neg h0 η0 ηy)]
        · have : (0 : ℝ) ≤ x / y := div_nonneg_of_nonpos h0 y0.le
          have := am this
          simp only [zero_div, Real.arctan_zero] at this ⊢; linarith
  rw [if_neg cx] at h
  rw [zeroIn_iff hx] at cx
  by_cases cx0 : Rop.lt (lit 0) Ix.inf = true
  · -- right half plane
    obtain ⟨ξ, hξ, ξ0, ξx⟩ := lo_pos_is hx.1 cx0
    have x0 : 0 < x := by linarith
    refine ⟨ang x y, ?_, .inl rfl⟩
    by_cases cy : zeroIn Iy = true
    · rw [if_pos cy, if_pos cx0] at h
      rw [zeroIn_iff hy] at cy
      obtain ⟨L, U, hL, hU, rfl⟩ := atan2Pair_ok h
      rw [ang_R x0]
      have eL := (corner_R hξ ξ0 hy.1.1 hL).1
      have eU := (corner_R hξ ξ0 hy.2.1 hU).2
      rcases le_total 0 y with h0 | h0
      · refine ⟨(eL 0 (zero_le_coe cy.1)).mono ?_, (eU y hy.2.2).mono ?_⟩
        · have : 0 ≤ y / x := by positivity
          simpa using am this
        · exact am (div_le_div_pos h0 ξ0 ξx)
      · refine ⟨(eL y hy.1.2).mono ?_, (eU 0 (coe_le_zero cy.2)).mono ?_⟩
        · exact am (div_ge_div_pos h0 ξ0 ξx)
        · have : y / x ≤ 0 := div_nonpos_of_nonpos_of_nonneg h0 x0.le
          simpa using am this
    rw [if_neg cy, if_pos cx0] at h
    rw [zeroIn_iff hy] at cy
    by_cases c1 : Rop.lt (lit 0) Iy.inf = true
    · rw [if_pos c1] at h
      obtain ⟨L, U, hL, hU, rfl⟩ := atan2Pair_ok h
      obtain ⟨η, hη, η0, ηy⟩ := lo_pos_is hy.1 c1
      have y0 : 0 < y := by linarith
      have eL := (corner_U hη η0 hx.2.1 hL).2
      have eU := (corner_R hξ ξ0 hy.2.1 hU).2
      constructor
      · rw [ang_U y0]
        refine (eL x hx.2.2).mono ?_
        linarith [am (div_le_div_pos x0.le η0 ηy)]
      · rw [ang_R x0]
        exact (eU y hy.2.2).mono (am (div_le_div_pos y0.le ξ0 ξx))
    · rw [if_neg c1] at h
      rw [lt_zero_left] at c1
      have ysup : val Iy.sup < 0 := by
        have i1 := hy.1.1
        by_contra hc
        exact cy ⟨by by_contra h; exact c1 ⟨i1, not_le.1 h⟩, not_lt.1 hc⟩
      obtain ⟨L, U, hL, hU, rfl⟩ := atan2Pair_ok h
      obtain ⟨η, hη, η0, ηy⟩ := hi_neg_is hy.2 ysup
      have y0 : y < 0 := by linarith
      have eL := (corner_R hξ ξ0 hy.1.1 hL).1
      have eU := (corner_W hη η0 hx.2.1 hU).2
      constructor
      · rw [ang_R x0]
        exact (eL y hy.1.2).mono (am (div_ge_div_pos y0.le ξ0 ξx))
      · rw [ang_W y0]
        refine (eU x hx.2.2).mono ?_
        linarith [am (div_ge_div_neg x0.le η0 ηy)]
  · -- left half plane
    rw [if_neg cx0, if_neg cx0] at h
    have xsup : val Ix.sup < 0 := by
      have i1 := hx.1.1
      rw [lt_zero_left] at cx0
      by_contra hc
      exact cx ⟨by by_contra h; exact cx0 ⟨i1, not_le.1 h⟩, not_lt.1 hc⟩
    obtain ⟨ξ, hξ, ξ0, ξx⟩ := hi_neg_is hx.2 xsup
    have x0 : x < 0 := by linarith
    by_cases cy : zeroIn Iy = true
    · rw [if_pos cy] at h
      rw [zeroIn_iff hy] at cy
      by_cases c1 : Rop.lt Iy.inf (lit 0) = true
      · rw [if_pos c1] at h
        rw [lt_zero_right] at c1
        obtain ⟨L, hL, h⟩ := bind_ok.1 h
        obtain ⟨U, hU, h⟩ := bind_ok.1 h
        cases h
        have eL := (corner_L hξ ξ0 hy.2.1 cy.2 hL).2
        have eU := (corner_L' hξ ξ0 hy.1.1 c1.2 hU).1
        have eU' : ∀ c : ℝ, val Iy.inf ≤ (c : EReal) →
            Hi (add (mulS P two) U).sup (Real.pi + Real.arctan (c / ξ)) := by
          intro c hc
          have h2 := (mulS_mem hp (is_two (T := D))).2.add (eU c hc)
          rwa [show Real.pi * 2 + (-Real.pi + Real.arctan (c / ξ)) = Real.pi + Real.arctan (c / ξ) by ring] at h2
        have key : Real.pi + Real.arctan (y / x) ∈ (⟨L.inf, (add (mulS P two) U).sup⟩ : Interval D) := by
          rcases le_total 0 y with h0 | h0
          · refine ⟨(eL y hy.2.2).mono ?_, (eU' 0 (zero_le_coe cy.1)).mono ?_⟩
            · linarith [am (div_ge_div_neg h0 ξ0 ξx)]
            · have : y / x ≤ 0 := div_nonpos_of_nonneg_of_nonpos h0 x0.le
              have := am this
              simp only [zero_div, Real.arctan_zero] at this ⊢; linarith
          · refine ⟨(eL 0 (coe_le_zero cy.2)).mono ?_, (eU' y hy.1.2).mono ?_⟩
            · have : 0 ≤ y / x := div_nonneg_of_nonpos h0 x0.le
              have := am this
              simp only [zero_div, Real.arctan_zero] at this ⊢; linarith
            · linarith [am (div_le_div_neg h0 ξ0 ξx)]
        refine ⟨_, key, ?_⟩
        rcases le_or_gt 0 y with h0 | h0
        · exact .inl (ang_L x0 h0).symm
        · exact .inr ⟨by rw [ang_L' x0 h0]; ring, h0, x0, ⟨hy.1.1, zero_le_coe cy.1⟩, hy.2.1, coe_le_zero cy.2⟩
      · rw [if_neg c1] at h
        obtain ⟨L, U, hL, hU, rfl⟩ := atan2Pair_ok h
        rw [lt_zero_right] at c1
        have yv : val Iy.inf = 0 := by
          have i1 := hy.1.1
          refine le_antisymm cy.1 (not_lt.1 fun h => c1 ⟨i1, h⟩)
        have y0 : 0 ≤ y := by have := hy.1.2; rw [yv] at this; exact_mod_cast this
        refine ⟨ang x y, ?_, .inl rfl⟩
        rw [ang_L x0 y0]
        have eL := (corner_L hξ ξ0 hy.2.1 cy.2 hL).2
        have eU := (corner_L hξ ξ0 hy.1.1 yv.ge hU).1
        refine ⟨(eL y hy.2.2).mono ?_, (eU 0 (zero_le_coe cy.1)).mono ?_⟩
        · linarith [am (div_ge_div_neg y0 ξ0 ξx)]
        · have : y / x ≤ 0 := div_nonpos_of_nonneg_of_nonpos y0 x0.le
          have := am this
          simp only [zero_div, Real.arctan_zero] at this ⊢; linarith
    rw [if_neg cy] at h
    rw [zeroIn_iff hy] at cy
    refine ⟨ang x y, ?_, .inl rfl⟩
    by_cases c1 : Rop.lt (lit 0) Iy.inf = true
    · rw [if_pos c1] at h
      obtain ⟨L, U, hL, hU, rfl⟩ := atan2Pair_ok h
      obtain ⟨η, hη, η0, ηy⟩ := lo_pos_is hy.1 c1
      have y0 : 0 < y := by linarith
      have eL := (corner_L hξ ξ0 hy.2.1 ((coe_le_zero' y0).trans hy.2.2) hL).2
      have eU := (corner_U hη η0 hx.1.1 hU).1
      constructor
      · rw [ang_L x0 y0.le]
        refine (eL y hy.2.2).mono ?_
        linarith [am (div_ge_div_neg y0.le ξ0 ξx)]
      · rw [ang_U y0]
        refine (eU x hx.1.2).mono ?_
        linarith [am (div_ge_div_pos x0.le η0 ηy)]
    · rw [if_neg c1] at h
      rw [lt_zero_left] at c1
      have ysup : val Iy.sup < 0 := by
        have i1 := hy.1.1
        by_contra hc
        exact cy ⟨by by_contra h; exact c1 ⟨i1, not_le.1 h⟩, not_lt.1 hc⟩
      obtain ⟨L, U, hL, hU, rfl⟩ := atan2Pair_ok h
      obtain ⟨η, hη, η0, ηy⟩ := hi_neg_is hy.2 ysup
      have y0 : y < 0 := by linarith
      have yinf : val Iy.inf < 0 := lt_of_le_of_lt hy.1.2 (by exact_mod_cast y0)
      have eL := (corner_W hη η0 hx.1.1 hL).1
      have eU := (corner_L' hξ ξ0 hy.1.1 yinf hU).1
      constructor
      · rw [ang_W y0]
        refine (eL x hx.1.2).mono ?_
        linarith [am (div_le_div_neg x0.le η0 ηy)]
      · rw [ang_L' x0 y0]
        refine (eU y hy.1.2).mono ?_
        linarith [am (div_le_div_neg y0.le ξ0 ξx)]

theorem atan2_mem {fuel : ℕ} {Iy Ix Z : Interval D} {y x : ℝ} (h : atan2 fuel Iy Ix = .ok Z)
    (hy : y ∈ Iy) (hx : x ∈ Ix) (hne : x ≠ 0 ∨ y ≠ 0) :
    ∃ θ ∈ Z, IsAngle θ x y := by
  obtain ⟨θ, hθ, rfl | ⟨rfl, -⟩⟩ := atan2_ang h hy hx
  · exact ⟨_, hθ, ang_isAngle hne⟩
  · exact ⟨_, hθ, isAngle_add_two_pi (ang_isAngle hne)⟩

end Interval
end Kv
