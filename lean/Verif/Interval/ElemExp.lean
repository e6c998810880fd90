import Verif.Double.Elem

/-! # Helper lemmas: `exp`, `expm1` and the hyperbolic functions at an endpoint -/

namespace Kv
open RopSem
open Rop (lit)

/-- `Z` encloses the increasing function `f` at the (possibly infinite) endpoint `v`: its lower
bound is below `f` on `[v, ∞)` and its upper bound above `f` on `(-∞, v]`. -/
def PtEnc {T : Type} [RopSem T] (f : ℝ → ℝ) (v : EReal) (Z : Interval T) : Prop :=
  (∀ c : ℝ, v ≤ (c : EReal) → Lo Z.inf (f c)) ∧ (∀ c : ℝ, (c : EReal) ≤ v → Hi Z.sup (f c))

namespace Interval
section
variable {T : Type} [RopSem T]

theorem PtEnc.of_mem {f : ℝ → ℝ} (hf : Monotone f) {v : EReal} {c : ℝ} (hv : v = c)
    {Z : Interval T} (h : f c ∈ Z) : PtEnc f v Z := by
  subst hv
  exact ⟨fun d hd => h.1.mono (hf (EReal.coe_le_coe_iff.1 hd)),
    fun d hd => h.2.mono (hf (EReal.coe_le_coe_iff.1 hd))⟩

theorem PtEnc.join {f : ℝ → ℝ} {X A B : Interval T} {x : ℝ} (hx : x ∈ X)
    (hA : PtEnc f (val X.inf) A) (hB : PtEnc f (val X.sup) B) : f x ∈ (⟨A.inf, B.sup⟩ : Interval T) :=
  ⟨hA.1 x hx.1.2, hB.2 x hx.2.2⟩

theorem val_neg_inf : val (Rop.neg (Rop.inf : T)) = ⊥ := by
  rw [val_neg _ inf_val.1, inf_val.2]; rfl
theorem not_nan_neg_inf : ¬ nan (Rop.neg (Rop.inf : T)) := fun h => inf_val.1 ((nan_neg _).1 h)

theorem eq_inf_iff {x : T} : Rop.eq x Rop.inf = true ↔ ¬ nan x ∧ val x = ⊤ := by
  rw [eq_iff, inf_val.2]; have := (inf_val (T := T)).1; tauto
theorem eq_neg_inf_iff {x : T} : Rop.eq x (Rop.neg Rop.inf) = true ↔ ¬ nan x ∧ val x = ⊥ := by
  rw [eq_iff, val_neg_inf]; have := not_nan_neg_inf (T := T); tauto

/-- a non-NaN datum is infinite or a real number -/
theorem cases_val {x : T} (hx : ¬ nan x) : val x = ⊤ ∨ val x = ⊥ ∨ ∃ c : ℝ, Is x c := by
  rcases E_cases (val x) with (h | h) | ⟨c, h⟩
  · exact Or.inl h
  · exact Or.inr (Or.inl h)
  · exact Or.inr (Or.inr ⟨c, hx, h⟩)

theorem le_of_is {a b : T} {x y : ℝ} (ha : Is a x) (hb : Is b y) : Rop.le a b = true ↔ x ≤ y := by
  rw [le_iff, ha.2, hb.2, EReal.coe_le_coe_iff]; have := ha.1; have := hb.1; tauto
theorem lt_of_is {a b : T} {x y : ℝ} (ha : Is a x) (hb : Is b y) : Rop.lt a b = true ↔ x < y := by
  rw [lt_iff, ha.2, hb.2, EReal.coe_lt_coe_iff]; have := ha.1; have := hb.1; tauto
theorem eq_of_is {a b : T} {x y : ℝ} (ha : Is a x) (hb : Is b y) : Rop.eq a b = true ↔ x = y := by
  rw [eq_iff, ha.2, hb.2, EReal.coe_eq_coe_iff]; have := ha.1; have := hb.1; tauto
theorem is_neg {a : T} {x : ℝ} (ha : Is a x) : Is (Rop.neg a) (-x) :=
  ⟨fun h => ha.1 ((nan_neg _).1 h), by rw [val_neg _ ha.1, ha.2, EReal.coe_neg]⟩
theorem Is.unique {a : T} {x y : ℝ} (h1 : Is a x) (h2 : Is a y) : x = y := by
  have := h1.2.symm.trans h2.2; exact_mod_cast this

end

theorem is_neg_half : Is (lit (-1 / 2) : D) (-1 / 2) := by
  have := RopXSem.lit_exact (T := D) (-1) 1 (by norm_num) (by norm_num)
  norm_num at this ⊢; exact this

theorem is_neg_two : Is (lit (-2) : D) (-2) := by
  have := Is.lit_int (T := D) (-2) (by norm_num)
  push_cast at this; exact this

theorem expPoint_mem {fuel : ℕ} {x : D} {c : ℝ} {Z : Interval D} (hx : Is x c)
    (h : expPoint fuel x = .ok Z) : Real.exp c ∈ Z := by
  unfold expPoint at h
  rw [if_neg (by rw [eq_inf_iff, hx.2]; simp), if_neg (by rw [eq_neg_inf_iff, hx.2]; simp)] at h
  obtain ⟨R, hR, h⟩ := bind_ok.1 h
  obtain ⟨i, f, hi, hf, hif, hb⟩ := expSplit_spec hx
  dsimp only at h
  obtain ⟨S, hS, h⟩ := bind_ok.1 h
  obtain ⟨E, hE, h⟩ := bind_ok.1 h
  have s : Real.exp f ∈ S := by
    have := expLoop_mem (d := 0) hf hb (fun r h1 h2 => expRem_mem hR h1 h2) fuel 1 _ _ S le_rfl
      (by decide) (by simpa using one_mem) (by simpa using one_mem) hS
    rwa [add_zero] at this
  have e := constE_mem hE
  have fin : ∀ (t : D) (Q : Interval D), ipower E t = .ok Q → ∃ n : ℕ, Is t n ∧ Real.exp n ∈ Q := by
    intro t Q hQ
    unfold ipower at hQ
    cases ht : RopX.toNat t with
    | none => rw [ht] at hQ; cases hQ
    | some n =>
      rw [ht] at hQ
      cases hQ
      refine ⟨n, RopXSem.toNat_some t n ht, ?_⟩
      have := powLoop_mem n (one_mem (T := D)) e
      rwa [one_mul, ← Real.exp_nat_mul, mul_one] at this
  split_ifs at h with h0
  · obtain ⟨Q, hQ, h⟩ := bind_ok.1 h
    cases h
    obtain ⟨n, hn, q⟩ := fin _ _ hQ
    have : i = n := Is.unique hi hn
    rw [← hif, this, add_comm, Real.exp_add]
    exact mul_mem s q
  · obtain ⟨Q, hQ, h⟩ := bind_ok.1 h
    obtain ⟨n, hn, q⟩ := fin _ _ hQ
    have : -i = n := Is.unique (is_neg hi) hn
    have e : c = f - n := by linarith
    rw [e, Real.exp_sub]
    exact div_mem h s q

theorem expPoint_top {fuel : ℕ} {x : D} (hn : ¬ nan x) (hx : val x = ⊤) :
    expPoint fuel x = .ok ⟨Rop.maxv, Rop.inf⟩ := by
  unfold expPoint; rw [if_pos (eq_inf_iff.2 ⟨hn, hx⟩)]

theorem expPoint_bot {fuel : ℕ} {x : D} (hn : ¬ nan x) (hx : val x = ⊥) :
    expPoint fuel x = .ok ⟨lit 0, Rop.denormMin⟩ := by
  unfold expPoint
  rw [if_neg (by rw [eq_inf_iff, hx]; simp), if_pos (eq_neg_inf_iff.2 ⟨hn, hx⟩)]

theorem expPoint_enc {fuel : ℕ} {x : D} {Z : Interval D} (hn : ¬ nan x)
    (h : expPoint fuel x = .ok Z) : PtEnc Real.exp (val x) Z := by
  rcases cases_val hn with hx | hx | ⟨c, hx⟩
  · rw [expPoint_top hn hx] at h
    cases h
    rw [hx]
    exact ⟨fun c hc => by simp at hc, fun c _ => hi_inf _⟩
  · rw [expPoint_bot hn hx] at h
    cases h
    rw [hx]
    exact ⟨fun c _ => lo_zero_iff.2 (Real.exp_pos c).le, fun c hc => by simp at hc⟩
  · exact PtEnc.of_mem Real.exp_monotone hx.2 (expPoint_mem hx h)

/-! ## `expm1` -/

theorem expm1Origin_mem {fuel : ℕ} {x : D} {c : ℝ} {Z : Interval D} (hx : Is x c)
    (hb : |c| ≤ 1 / 2) (h : expm1Origin fuel x = .ok Z) : Real.exp c - 1 ∈ Z := by
  unfold expm1Origin at h
  obtain ⟨R, hR, h⟩ := bind_ok.1 h
  have := expLoop_mem (d := -1) hx hb (fun r h1 h2 => expRem_mem hR h1 h2) fuel 1 _ _ Z le_rfl
      (by decide) (by simpa using point_mem (T := D) is_zero) (by simpa using one_mem) h
  rwa [← sub_eq_add_neg] at this

theorem expm1Point_enc {fuel : ℕ} {x : D} {Z : Interval D} (hn : ¬ nan x)
    (h : expm1Point fuel x = .ok Z) : PtEnc (fun c => Real.exp c - 1) (val x) Z := by
  unfold expm1Point at h
  split_ifs at h with h0
  · rw [Bool.and_eq_true, le_iff, le_iff, is_neg_half.2, is_half.2] at h0
    obtain ⟨⟨-, -, h1⟩, -, -, h2⟩ := h0
    rcases cases_val hn with hx | hx | ⟨c, hx⟩
    · rw [hx] at h2; simp at h2
    · rw [hx] at h1; simp at h1
    · rw [hx.2, EReal.coe_le_coe_iff] at h1 h2
      refine PtEnc.of_mem ?_ hx.2 (expm1Origin_mem hx ?_ h)
      · intro a b hab; exact sub_le_sub_right (Real.exp_monotone hab) 1
      · rw [abs_le]; constructor <;> linarith
  · obtain ⟨R, hR, h⟩ := bind_ok.1 h
    cases h
    have e := expPoint_enc hn hR
    exact ⟨fun c hc => (e.1 c hc).sub is_one.hi, fun c hc => (e.2 c hc).sub is_one.lo⟩

/-! ## `sinh`, `cosh`, `tanh` -/

theorem sinhPoint_enc {fuel : ℕ} {x : D} {Z : Interval D} (hn : ¬ nan x)
    (h : sinhPoint fuel x = .ok Z) : PtEnc Real.sinh (val x) Z := by
  have mono : Monotone Real.sinh := Real.sinh_strictMono.monotone
  unfold sinhPoint at h
  split_ifs at h with h0 h1
  · rw [Bool.and_eq_true, le_iff, le_iff, is_neg_half.2, is_half.2] at h0
    obtain ⟨⟨-, -, h1⟩, -, -, h2⟩ := h0
    rcases cases_val hn with hx | hx | ⟨c, hx⟩
    · rw [hx] at h2; simp at h2
    · rw [hx] at h1; simp at h1
    · rw [hx.2, EReal.coe_le_coe_iff] at h1 h2
      refine PtEnc.of_mem mono hx.2 (sinhOrigin_mem hx ?_ h)
      rw [abs_le]; constructor <;> linarith
  · obtain ⟨E, hE, h⟩ := bind_ok.1 h
    obtain ⟨Q, hQ, h⟩ := bind_ok.1 h
    cases h
    have key : ∀ y : ℝ, y ∈ E → (y - 1 / y) * (1 / 2) ∈ mulS (sub E Q) half := fun y hy =>
      mulS_mem (sub_mem hy (sDiv_mem hQ hy is_one)) is_half
    rcases cases_val hn with hx | hx | ⟨c, hx⟩
    · rw [expPoint_top hn hx] at hE
      cases hE
      refine ⟨fun c hc => by rw [hx] at hc; simp at hc, fun c hc => ?_⟩
      set y := Max.max (Real.exp c) (binary64.maxQ : ℝ)
      have hy : y ∈ (⟨Rop.maxv, Rop.inf⟩ : Interval D) :=
        ⟨Hw.lo_fin.2 (le_max_right _ _), hi_inf _⟩
      refine (key y hy).2.mono ?_
      rw [Real.sinh_eq, Real.exp_neg]
      have h1 : Real.exp c ≤ y := le_max_left _ _
      have h2 : 1 / y ≤ (Real.exp c)⁻¹ := by
        rw [one_div]; exact inv_anti₀ (Real.exp_pos c) h1
      linarith
    · rw [lt_zero_left, hx] at h1; simp at h1
    · refine PtEnc.of_mem mono hx.2 ?_
      have := key _ (expPoint_mem hx hE)
      convert this using 1
      rw [Real.sinh_eq, Real.exp_neg]; ring
  · obtain ⟨E, hE, h⟩ := bind_ok.1 h
    obtain ⟨Q, hQ, h⟩ := bind_ok.1 h
    cases h
    have key : ∀ y : ℝ, y ∈ E → (1 / y - y) * (1 / 2) ∈ mulS (sub Q E) half := fun y hy =>
      mulS_mem (sub_mem (sDiv_mem hQ hy is_one) hy) is_half
    have hn' : ¬ nan (Rop.neg x) := fun h => hn ((nan_neg _).1 h)
    rcases cases_val hn with hx | hx | ⟨c, hx⟩
    · rw [lt_zero_left, hx] at h1; exact absurd ⟨hn, EReal.zero_lt_top⟩ h1
    · rw [expPoint_top hn' (by rw [val_neg _ hn, hx]; rfl)] at hE
      cases hE
      refine ⟨fun c hc => ?_, fun c hc => by rw [hx] at hc; simp at hc⟩
      set y := Max.max (Real.exp (-c)) (binary64.maxQ : ℝ)
      have hy : y ∈ (⟨Rop.maxv, Rop.inf⟩ : Interval D) :=
        ⟨Hw.lo_fin.2 (le_max_right _ _), hi_inf _⟩
      refine (key y hy).1.mono ?_
      rw [Real.sinh_eq]
      have h1 : Real.exp (-c) ≤ y := le_max_left _ _
      have h2 : 1 / y ≤ Real.exp c := by
        have : (Real.exp (-c))⁻¹ = Real.exp c := by rw [Real.exp_neg, inv_inv]
        rw [one_div, ← this]; exact inv_anti₀ (Real.exp_pos _) h1
      linarith
    · refine PtEnc.of_mem mono hx.2 ?_
      have := key _ (expPoint_mem (is_neg hx) hE)
      convert this using 1
      rw [Real.sinh_eq, Real.exp_neg]; field_simp

/-- `coshPoint` at a finite argument -/
theorem coshPoint_mem {fuel : ℕ} {x : D} {c : ℝ} {Z : Interval D} (hx : Is x c)
    (h : coshPoint fuel x = .ok Z) : Real.cosh c ∈ Z := by
  unfold coshPoint at h
  split_ifs at h with h0
  · obtain ⟨E, hE, h⟩ := bind_ok.1 h
    obtain ⟨Q, hQ, h⟩ := bind_ok.1 h
    cases h
    have hy := expPoint_mem hx hE
    have := mulS_mem (add_mem hy (sDiv_mem hQ hy is_one)) is_half
    convert this using 1
    rw [Real.cosh_eq, Real.exp_neg]; ring
  · obtain ⟨E, hE, h⟩ := bind_ok.1 h
    obtain ⟨Q, hQ, h⟩ := bind_ok.1 h
    cases h
    have hy := expPoint_mem (is_neg hx) hE
    have := mulS_mem (add_mem (sDiv_mem hQ hy is_one) hy) is_half
    convert this using 1
    rw [Real.cosh_eq, Real.exp_neg]; field_simp

/-- `coshPoint` at an infinite argument is unbounded above -/
theorem coshPoint_inf {fuel : ℕ} {x : D} {Z : Interval D} (hn : ¬ nan x)
    (hx : val x = ⊤ ∨ val x = ⊥) (h : coshPoint fuel x = .ok Z) :
    ¬ nan Z.inf ∧ ∀ d : ℝ, Hi Z.sup d := by
  have hn' : ¬ nan (Rop.neg x) := fun h => hn ((nan_neg _).1 h)
  have big : ∀ d : ℝ, ∃ y : ℝ, y ∈ (⟨Rop.maxv, Rop.inf⟩ : Interval D) ∧ d ≤ y ∧ 0 < y := by
    intro d
    refine ⟨Max.max d (binary64.maxQ : ℝ), ⟨Hw.lo_fin.2 (le_max_right _ _), hi_inf _⟩,
      le_max_left _ _, lt_of_lt_of_le ?_ (le_max_right _ _)⟩
    exact_mod_cast Format.maxQ_pos
  unfold coshPoint at h
  split_ifs at h with h0
  · obtain ⟨E, hE, h⟩ := bind_ok.1 h
    obtain ⟨Q, hQ, h⟩ := bind_ok.1 h
    cases h
    have hx' : val x = ⊤ := by
      rcases hx with hx | hx
      · exact hx
      · rw [le_zero_left, hx] at h0; simp at h0
    rw [expPoint_top hn hx'] at hE
    cases hE
    have key : ∀ y : ℝ, y ∈ (⟨Rop.maxv, Rop.inf⟩ : Interval D) → _ := fun y hy =>
      mulS_mem (add_mem hy (sDiv_mem hQ hy is_one)) (is_half (T := D))
    refine ⟨?_, fun d => ?_⟩
    · obtain ⟨y, hy, -⟩ := big 0; exact (key y hy).1.1
    · obtain ⟨y, hy, h1, h2⟩ := big (2 * d)
      refine (key y hy).2.mono ?_
      have : 0 < 1 / y := by positivity
      linarith
  · obtain ⟨E, hE, h⟩ := bind_ok.1 h
    obtain ⟨Q, hQ, h⟩ := bind_ok.1 h
    cases h
    have hx' : val (Rop.neg x) = ⊤ := by
      rcases hx with hx | hx
      · rw [le_zero_left, hx] at h0; simp at h0; exact absurd h0 hn
      · rw [val_neg _ hn, hx]; rfl
    rw [expPoint_top hn' hx'] at hE
    cases hE
    have key : ∀ y : ℝ, y ∈ (⟨Rop.maxv, Rop.inf⟩ : Interval D) → _ := fun y hy =>
      mulS_mem (add_mem (sDiv_mem hQ hy is_one) hy) (is_half (T := D))
    refine ⟨?_, fun d => ?_⟩
    · obtain ⟨y, hy, -⟩ := big 0; exact (key y hy).1.1
    · obtain ⟨y, hy, h1, h2⟩ := big (2 * d)
      refine (key y hy).2.mono ?_
      have : 0 < 1 / y := by positivity
      linarith

theorem cosh_mem {fuel : ℕ} {X Z : Interval D} {x : ℝ} (h : cosh fuel X = .ok Z) (hx : x ∈ X) :
    Real.cosh x ∈ Z := by
  unfold cosh at h
  obtain ⟨A, hA, h⟩ := bind_ok.1 h
  obtain ⟨B, hB, h⟩ := bind_ok.1 h
  cases h
  -- facts about the endpoint values
  have pt : ∀ {t : D} {P : Interval D}, ¬ nan t → coshPoint fuel t = .ok P →
      ((¬ nan P.inf ∧ ∀ d : ℝ, Hi P.sup d) ∧ (val t = ⊤ ∨ val t = ⊥)) ∨
      ∃ c : ℝ, Is t c ∧ Real.cosh c ∈ P := by
    intro t P ht hP
    rcases cases_val ht with h | h | ⟨c, h⟩
    · exact Or.inl ⟨coshPoint_inf ht (Or.inl h) hP, Or.inl h⟩
    · exact Or.inl ⟨coshPoint_inf ht (Or.inr h) hP, Or.inr h⟩
    · exact Or.inr ⟨c, h, coshPoint_mem h hP⟩
  have pA := pt hx.1.1 hA
  have pB := pt hx.2.1 hB
  have nA : ¬ nan A.inf ∧ ¬ nan A.sup := by
    rcases pA with ⟨⟨h1, h2⟩, -⟩ | ⟨c, -, h2⟩
    · exact ⟨h1, (h2 0).1⟩
    · exact ⟨h2.1.1, h2.2.1⟩
  have nB : ¬ nan B.inf ∧ ¬ nan B.sup := by
    rcases pB with ⟨⟨h1, h2⟩, -⟩ | ⟨c, -, h2⟩
    · exact ⟨h1, (h2 0).1⟩
    · exact ⟨h2.1.1, h2.2.1⟩
  -- upper bound
  have up : Hi (hull A B).sup (Real.cosh x) := by
    refine hull_hi ?_ nA.2 nB.2
    rcases pA with ⟨⟨-, h2⟩, -⟩ | ⟨a, ha, h2⟩
    · exact Or.inl (h2 _)
    rcases pB with ⟨⟨-, h3⟩, -⟩ | ⟨b, hb, h3⟩
    · exact Or.inr (h3 _)
    have h4 : a ≤ x := by have := hx.1.2; rw [ha.2] at this; exact_mod_cast this
    have h5 : x ≤ b := by have := hx.2.2; rw [hb.2] at this; exact_mod_cast this
    rcases le_total 0 x with h0 | h0
    · exact Or.inr (h3.2.mono (Real.cosh_le_cosh.2 (by rw [abs_of_nonneg h0, abs_of_nonneg (h0.trans h5)]; exact h5)))
    · exact Or.inl (h2.2.mono (Real.cosh_le_cosh.2 (by
        rw [abs_of_nonpos h0, abs_of_nonpos (h4.trans h0)]; linarith)))
  split_ifs with hz
  · -- zero in X: lower bound 1
    refine ⟨lo_ite_min (Or.inl (is_one.lo.mono (Real.one_le_cosh x))) is_one.1 ?_, ?_⟩
    · unfold hull; dsimp only; split_ifs
      · exact nB.1
      · exact nA.1
    · exact hi_ite_max (Or.inl up) up.1 is_one.1
  · refine ⟨?_, up⟩
    refine hull_lo ?_ nA.1 nB.1
    have hz' : ¬ (val X.inf ≤ 0 ∧ 0 ≤ val X.sup) := by
      intro h; apply hz
      unfold zeroIn
      rw [Bool.and_eq_true, le_zero_right, le_zero_left]
      exact ⟨⟨hx.1.1, h.1⟩, hx.2.1, h.2⟩
    rw [not_and_or, not_le, not_le] at hz'
    rcases hz' with hz' | hz'
    · -- positive: lower end is finite
      rcases pA with ⟨-, h1 | h1⟩ | ⟨a, ha, h2⟩
      · exact absurd h1 hx.1.ne_top
      · rw [h1] at hz'; simp at hz'
      · left
        have h4 : a ≤ x := by have := hx.1.2; rw [ha.2] at this; exact_mod_cast this
        have h5 : 0 < a := by rw [ha.2] at hz'; exact_mod_cast hz'
        exact h2.1.mono (Real.cosh_le_cosh.2 (by
          rw [abs_of_pos h5, abs_of_pos (h5.trans_le h4)]; exact h4))
    · rcases pB with ⟨-, h1 | h1⟩ | ⟨a, ha, h2⟩
      · rw [h1] at hz'; simp at hz'
      · exact absurd h1 hx.2.ne_bot
      · right
        have h4 : x ≤ a := by have := hx.2.2; rw [ha.2] at this; exact_mod_cast this
        have h5 : a < 0 := by rw [ha.2] at hz'; exact_mod_cast hz'
        exact h2.1.mono (Real.cosh_le_cosh.2 (by
          rw [abs_of_neg h5, abs_of_neg (h4.trans_lt h5)]; linarith))

theorem tanh_eq_pos (c : ℝ) : Real.tanh c = 1 - 2 / (1 + Real.exp (2 * c)) := by
  rw [Real.tanh_eq_sinh_div_cosh, Real.sinh_eq, Real.cosh_eq]
  have h1 := Real.exp_pos c
  have h2 : Real.exp (2 * c) = Real.exp c * Real.exp c := by rw [two_mul, Real.exp_add]
  rw [h2, Real.exp_neg]
  field_simp
  ring

theorem tanh_mono : Monotone Real.tanh := by
  intro a b h
  rw [tanh_eq_pos, tanh_eq_pos]
  have h1 := Real.exp_pos (2 * a)
  have h2 : Real.exp (2 * a) ≤ Real.exp (2 * b) := Real.exp_monotone (by linarith)
  have : 2 / (1 + Real.exp (2 * b)) ≤ 2 / (1 + Real.exp (2 * a)) :=
    div_le_div_of_nonneg_left (by norm_num) (by linarith) (by linarith)
  linarith

theorem rep64_two : binary64.Rep 2 := by
  have := rep_int (F := binary64) (n := 2) (by decide); simpa using this

/-- the quotient in the outer branches of `tanh` -/
theorem tanh_branch {E Q : Interval D}
    (hQ : sDiv two (sAdd one E) = .ok Q) :
    ∀ y : ℝ, y ∈ E → 2 / (1 + y) ∈ Q := fun _ hy => sDiv_mem hQ (sAdd_mem hy is_one) is_two

theorem tanhPoint_enc {fuel : ℕ} {x : D} {Z : Interval D} (hn : ¬ nan x)
    (h : tanhPoint fuel x = .ok Z) : PtEnc Real.tanh (val x) Z := by
  have big : ∀ d : ℝ, (binary64.maxQ : ℝ) ≤ d → d ∈ (⟨Rop.maxv, Rop.inf⟩ : Interval D) := fun d hd =>
    ⟨Hw.lo_fin.2 hd, hi_inf _⟩
  have mpos : (0 : ℝ) < (binary64.maxQ : ℝ) := by exact_mod_cast Format.maxQ_pos
  unfold tanhPoint at h
  split_ifs at h with h0 h1
  · obtain ⟨E, hE, h⟩ := bind_ok.1 h
    obtain ⟨Q, hQ, h⟩ := bind_ok.1 h
    cases h
    have key := tanh_branch hQ
    rw [lt_iff, is_half.2] at h0
    rcases cases_val hn with hx | hx | ⟨c, hx⟩
    · -- +∞
      have e : Rop.mul (two : D) x = Rop.inf := by
        rcases Hw.cases' x with rfl | rfl | rfl | ⟨q, hq, rfl⟩
        · exact absurd rfl hn
        · decide +kernel
        · cases hx
        · simp at hx
      rw [e, expPoint_top inf_val.1 inf_val.2] at hE
      cases hE
      refine ⟨fun c hc => by rw [hx] at hc; simp at hc, fun c _ => ?_⟩
      have h1 := sSub_mem (key _ (big (Max.max (Real.exp (2 * c)) binary64.maxQ) (le_max_right _ _))) (is_one (T := D))
      refine h1.2.mono ?_
      rw [tanh_eq_pos]
      have h2 := Real.exp_pos (2 * c)
      have h3 := le_max_left (Real.exp (2 * c)) (binary64.maxQ : ℝ)
      have : 2 / (1 + Max.max (Real.exp (2 * c)) (binary64.maxQ : ℝ)) ≤ 2 / (1 + Real.exp (2 * c)) :=
        div_le_div_of_nonneg_left (by norm_num) (by linarith) (by linarith)
      linarith
    · rw [hx] at h0; simp at h0
    · refine PtEnc.of_mem tanh_mono hx.2 ?_
      have hc : 1 / 2 < c := by have := h0.2.2; rw [hx.2] at this; exact_mod_cast this
      rw [tanh_eq_pos]
      refine sSub_mem (key _ ?_) is_one
      rcases two_mul_spec hx rep64_two with h2 | ⟨h2, h3⟩ | ⟨h2, h3⟩
      · exact expPoint_mem h2 hE
      · have h2' : Rop.mul (two : D) x = Rop.inf := h2
        rw [h2', expPoint_top inf_val.1 inf_val.2] at hE
        cases hE
        exact big _ (by have := Real.add_one_le_exp (2 * c); linarith)
      · linarith
  · obtain ⟨E, hE, h⟩ := bind_ok.1 h
    obtain ⟨Q, hQ, h⟩ := bind_ok.1 h
    cases h
    have key := tanh_branch hQ
    rw [lt_iff, is_neg_half.2] at h1
    have hn' : ¬ nan (Rop.neg x) := fun h => hn ((nan_neg _).1 h)
    have teq : ∀ c : ℝ, Real.tanh c = 2 / (1 + Real.exp (-(2 * c))) - 1 := by
      intro c
      have := tanh_eq_pos (-c)
      rw [Real.tanh_neg, mul_neg] at this
      linarith
    rcases cases_val hn with hx | hx | ⟨c, hx⟩
    · rw [hx] at h1; simp at h1
    · have e : Rop.mul (lit (-2) : D) x = Rop.inf := by
        rcases Hw.cases' x with rfl | rfl | rfl | ⟨q, hq, rfl⟩
        · exact absurd rfl hn
        · cases hx
        · decide +kernel
        · simp at hx
      rw [e, expPoint_top inf_val.1 inf_val.2] at hE
      cases hE
      refine ⟨fun c _ => ?_, fun c hc => by rw [hx] at hc; simp at hc⟩
      have h1 := subS_mem (key _ (big (Max.max (Real.exp (-(2 * c))) binary64.maxQ) (le_max_right _ _))) (is_one (T := D))
      refine h1.1.mono ?_
      rw [teq]
      have h2 := Real.exp_pos (-(2 * c))
      have h3 := le_max_left (Real.exp (-(2 * c))) (binary64.maxQ : ℝ)
      have : 2 / (1 + Max.max (Real.exp (-(2 * c))) (binary64.maxQ : ℝ)) ≤ 2 / (1 + Real.exp (-(2 * c))) :=
        div_le_div_of_nonneg_left (by norm_num) (by linarith) (by linarith)
      linarith
    · refine PtEnc.of_mem tanh_mono hx.2 ?_
      have hc : c < -1 / 2 := by have := h1.2.2; rw [hx.2] at this; exact_mod_cast this
      rw [teq]
      refine subS_mem (key _ ?_) is_one
      -- `(-2) * x = 2 * (-x)`
      have e : Rop.mul (lit (-2) : D) x = Rop.mul (lit 2 : D) (Rop.neg x) := by
        obtain ⟨q, hq, rfl, -⟩ := Hw.is_iff.1 hx
        have e2 : (lit (-2) : D) = Hw.fin (-2) rep64_two.neg := Hw.lit_eq rep64_two.neg
        rw [e2, Hw.lit_eq rep64_two, Hw.neg_eq]
        show Fl.round _ _ = Fl.round _ _
        congr 1; ring
      rw [e] at hE
      rcases two_mul_spec (is_neg hx) rep64_two with h2 | ⟨h2, h3⟩ | ⟨h2, h3⟩
      · have := expPoint_mem h2 hE
        rwa [mul_neg] at this
      · rw [h2, expPoint_top inf_val.1 inf_val.2] at hE
        cases hE
        refine big _ ?_
        have := Real.add_one_le_exp (-(2 * c))
        linarith
      · linarith
  · obtain ⟨S, hS, h⟩ := bind_ok.1 h
    obtain ⟨C, hC, h⟩ := bind_ok.1 h
    rw [lt_iff, is_half.2] at h0
    rw [lt_iff, is_neg_half.2] at h1
    rcases cases_val hn with hx | hx | ⟨c, hx⟩
    · rw [hx] at h0; exact absurd ⟨is_half.1, hn, EReal.coe_lt_top _⟩ h0
    · rw [hx] at h1; exact absurd ⟨hn, is_neg_half.1, EReal.bot_lt_coe _⟩ h1
    · rw [hx.2, EReal.coe_lt_coe_iff] at h0 h1
      have g0 : c ≤ 1 / 2 := by by_contra hc; exact h0 ⟨is_half.1, hx.1, not_le.1 hc⟩
      have g1 : -1 / 2 ≤ c := by by_contra hc; exact h1 ⟨hx.1, is_neg_half.1, not_le.1 hc⟩
      refine PtEnc.of_mem tanh_mono hx.2 ?_
      rw [Real.tanh_eq_sinh_div_cosh]
      exact div_mem h (sinhOrigin_mem hx (by rw [abs_le]; constructor <;> linarith) hS)
        (coshPoint_mem hx hC)

end Interval
end Kv
