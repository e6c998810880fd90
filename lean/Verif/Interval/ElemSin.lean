import Verif.Interval.ElemTrig
import Verif.Props.Sets
import Verif.Props.Arith

/-! # Helper lemmas: `sin`, `cos`, `tan` of an interval -/

namespace Kv
open RopSem
open Rop (lit)

namespace Interval

/-! ## NaN arguments never return -/

def NN : D := Rop.sub Rop.inf Rop.inf
theorem nan_eq {x : D} (h : nan x) : x = NN := h
theorem nan_NN : nan NN := rfl

theorem divS_NN {i : ℕ} (h0 : i ≠ 0) (h : i < intMax) :
    divS (⟨NN, NN⟩ : Interval D) (lit i) = .ok ⟨NN, NN⟩ := by
  unfold divS
  have h1 := Is.lit_nat (T := D) (n := i) (by unfold intMax at h; omega)
  rw [if_pos ((lt_of_is is_zero h1).2 (by exact_mod_cast Nat.pos_of_ne_zero h0))]
  rfl

theorem sinLoop_NN : ∀ {fuel i : ℕ} {r y Z : Interval D}, i ≠ 0 → i ≤ intMax →
    (mul y ⟨NN, NN⟩ = ⟨NN, NN⟩) → sinLoop ⟨NN, NN⟩ fuel i r y ≠ .ok Z := by
  intro fuel
  induction fuel with
  | zero => intro i r y Z _ _ _ h; simp [sinLoop] at h
  | succ fuel ih =>
    intro i r y Z h0 h1 hy h
    rw [sinLoop] at h
    by_cases c1 : i = intMax
    · rw [if_pos c1] at h; cases h
    rw [if_neg c1, hy, divS_NN h0 (by omega)] at h
    change (if _ then _ else _) = _ at h
    rw [if_neg (by decide +kernel)] at h
    exact ih (by omega) (by omega) (by decide +kernel) h

theorem cosLoop_NN : ∀ {fuel i : ℕ} {r y Z : Interval D}, i ≠ 0 → i ≤ intMax →
    (mul y ⟨NN, NN⟩ = ⟨NN, NN⟩) → cosLoop ⟨NN, NN⟩ fuel i r y ≠ .ok Z := by
  intro fuel
  induction fuel with
  | zero => intro i r y Z _ _ _ h; simp [cosLoop] at h
  | succ fuel ih =>
    intro i r y Z h0 h1 hy h
    rw [cosLoop] at h
    by_cases c1 : i = intMax
    · rw [if_pos c1] at h; cases h
    rw [if_neg c1, hy, divS_NN h0 (by omega)] at h
    change (if _ then _ else _) = _ at h
    rw [if_neg (by decide +kernel)] at h
    exact ih (by omega) (by omega) (by decide +kernel) h

theorem sinPoint_NN {fuel : ℕ} {Z : Interval D} : sinPoint fuel (point NN) ≠ .ok Z := by
  intro h
  obtain ⟨P, hP, h⟩ := bind_ok.1 h
  rw [constPi_eq hP] at h
  cases fuel with
  | zero => simp [sinPointR] at h
  | succ f =>
    rw [sinPointR] at h
    rw [if_neg (by decide +kernel), if_neg (by decide +kernel), if_neg (by decide +kernel),
      if_neg (by decide +kernel), if_neg (by decide +kernel), if_neg (by decide +kernel),
      if_neg (by decide +kernel), if_neg (by decide +kernel),
      show sub P0 (point NN) = ⟨NN, NN⟩ by decide +kernel] at h
    exact sinLoop_NN (by omega) (by unfold intMax; omega) (by decide +kernel) h

theorem cosPoint_NN {fuel : ℕ} {Z : Interval D} : cosPoint fuel (point NN) ≠ .ok Z := by
  intro h
  obtain ⟨P, hP, h⟩ := bind_ok.1 h
  rw [constPi_eq hP] at h
  cases fuel with
  | zero => simp [cosPointR] at h
  | succ f =>
    rw [cosPointR] at h
    rw [if_neg (by decide +kernel), if_neg (by decide +kernel), if_neg (by decide +kernel),
      if_neg (by decide +kernel), if_neg (by decide +kernel), if_neg (by decide +kernel),
      if_neg (by decide +kernel), if_neg (by decide +kernel),
      show sub P0 (point NN) = ⟨NN, NN⟩ by decide +kernel] at h
    obtain ⟨W, hW, -⟩ := map_ok.1 h
    exact cosLoop_NN (by omega) (by unfold intMax; omega) (by decide +kernel) hW

/-! ## argument reduction -/

/-- the number of periods computed from a finite lower endpoint is an integer -/
theorem reduce_n {a : ℚ} (ha : binary64.Rep a) {q : ℚ} (hq : binary64.Rep q) (h3 : 3 ≤ q) :
    ∃ k : ℤ, Is (Rop.floor (Rop.add (Rop.div (Hw.fin a ha) (Hw.fin q hq)) half) : D) k := by
  obtain ⟨B, hB⟩ : ∃ B : ℚ, B = 2 ^ (971 : ℤ) := ⟨_, rfl⟩
  have B1 : 1 ≤ B := by rw [hB]; exact one_le_zpow₀ (by norm_num) (by norm_num)
  have r1 : binary64.Rep (2 ^ 52 * B) := by
    have := rep64 (m := 2 ^ 52) (e := 971) (by norm_num) (by norm_num) (by norm_num)
    rw [← hB] at this; push_cast at this; exact this
  have hab := abs_le.1 ha.abs_le
  have hm : binary64.maxQ = (2 ^ 53 - 1) * B := by rw [hB]; rfl
  clear hB
  rw [hm] at hab
  have q0 : 0 < q := by linarith
  have e1 : (Rop.div (Hw.fin a ha) (Hw.fin q hq) : D) = Fl.round .near (a / q) := by
    show Fl.div .near (Fl.fin a ha) (Fl.fin q hq) = _
    simp [Fl.div, q0.ne']
  have g : 2 ^ 52 * B * 3 ≤ 2 ^ 52 * B * q := by gcongr
  have b1 : -(2 ^ 52 * B : ℚ) ≤ a / q := by
    rw [le_div_iff₀ q0]; linarith [hab.1, hab.2]
  have b2 : a / q ≤ (2 ^ 52 * B : ℚ) := by
    rw [div_le_iff₀ q0]; linarith [hab.1, hab.2]
  obtain ⟨m, hm1, e2, m1, m2⟩ := round_eq_fin .near r1.neg r1 b1 b2
  have e3 : (half : D) = Hw.fin (1 / 2) Format.rep_half := Hw.lit_eq _
  have e4 : (Rop.add (Hw.fin m hm1) (Hw.fin (1 / 2) Format.rep_half) : D) = Fl.round .near (m + 1 / 2) := rfl
  have mr : binary64.Rep binary64.maxQ := Format.maxQ_rep
  obtain ⟨m', hm2, e5, -, -⟩ := round_eq_fin .near mr.neg mr (q := m + 1 / 2) (by rw [hm]; linarith)
    (by rw [hm]; linarith)
  refine ⟨⌊m'⌋, ?_⟩
  have : (Rop.floor (Rop.add (Rop.div (Hw.fin a ha) (Hw.fin q hq)) half) : D) = Hw.fin _ hm2.floor := by
    rw [e1, e2, e3]
    change Rop.floor (Rop.add (Hw.fin m hm1) (Hw.fin (1 / 2) Format.rep_half) : D) = _
    rw [e4, e5]; exact Hw.floor_eq hm2
  rw [this]
  have := Hw.is_fin hm2.floor
  push_cast at this; exact this

theorem reduce_spec {bound : D} {a b : ℚ} {ha : binary64.Rep a} {hb : binary64.Rep b} (h3 : 3 ≤ a)
    (hab : a ≤ b) {t : ℝ} (ht : t ∈ (⟨Hw.fin a ha, Hw.fin b hb⟩ : Interval D)) :
    ∀ {f : ℕ} {I R : Interval D} {x : ℝ}, x ∈ I → reduce bound ⟨Hw.fin a ha, Hw.fin b hb⟩ f I = .ok R →
    nan R.inf ∨ (∃ k : ℤ, x - k * t ∈ R) ∧ ¬ Rop.le R.inf (Rop.neg bound) = true ∧
      ¬ Rop.le bound R.inf = true := by
  intro f
  induction f with
  | zero => intro I R x _ h; simp [reduce] at h
  | succ f ih =>
    intro I R x hx h
    rw [reduce] at h
    by_cases c : (Rop.le I.inf (Rop.neg bound) || Rop.le bound I.inf) = true
    · rw [if_pos c] at h
      rcases D_cases I.inf with h1 | h1 | h1 | ⟨q, hq, h1⟩
      · exact absurd h1 hx.1.1
      · exact absurd (by rw [h1]; exact inf_val.2) hx.1.ne_top
      · -- the lower endpoint has overflowed: the next one is NaN
        left
        have e1 : (Rop.div (Rop.neg Rop.inf) (Hw.fin a ha) : D) = Rop.neg Rop.inf := by
          show Fl.div .near Fl.ninf (Fl.fin a ha) = Fl.ninf
          simp [Fl.div, Fl.infOfSign, Fl.sgn, show ¬ a < 0 by linarith]
        have e2 : (Rop.floor (Rop.add (Rop.neg Rop.inf) half) : D) = Rop.neg Rop.inf := by decide +kernel
        have e3 : sMul (Rop.neg Rop.inf : D) ⟨Hw.fin a ha, Hw.fin b hb⟩ =
            ⟨Rop.neg Rop.inf, Rop.neg Rop.inf⟩ := by
          unfold sMul
          rw [if_neg (by decide +kernel), if_pos (by decide +kernel)]
          have f1 : (Rop.mulDown (Rop.neg Rop.inf) (Hw.fin b hb) : D) = Rop.neg Rop.inf := by
            show Fl.neg (Fl.mul .up (Fl.neg Fl.ninf) (Fl.fin b hb)) = Fl.ninf
            simp [Fl.mul, Fl.infOfSign, Fl.sgn, Fl.neg, show 0 < b by linarith]
          have f2 : (Rop.mulUp (Rop.neg Rop.inf) (Hw.fin a ha) : D) = Rop.neg Rop.inf := by
            show Fl.mul .up Fl.ninf (Fl.fin a ha) = Fl.ninf
            simp [Fl.mul, Fl.infOfSign, Fl.sgn, show 0 < a by linarith]
          rw [f1, f2]
        rw [h1] at h
        dsimp only at h
        rw [e1, e2, e3] at h
        have e4 : (sub I ⟨Rop.neg Rop.inf, Rop.neg Rop.inf⟩).inf = NN := by
          show Rop.subDown I.inf (Rop.neg Rop.inf) = NN
          rw [h1]; decide +kernel
        cases f with
        | zero => simp [reduce] at h
        | succ f =>
          rw [reduce, if_neg] at h
          · cases h; rw [e4]; exact nan_NN
          · rw [e4, Bool.or_eq_true, le_iff, le_iff]
            have := nan_NN
            tauto
      · obtain ⟨k, hk⟩ := reduce_n hq ha h3
        rw [h1] at h
        rcases ih (sub_mem hx (sMul_mem ht hk)) h with h2 | ⟨⟨j, hj⟩, h3⟩
        · exact Or.inl h2
        · refine Or.inr ⟨⟨k + j, ?_⟩, h3⟩
          rwa [show x - ((k + j : ℤ) : ℝ) * t = x - k * t - j * t by push_cast; ring]
    · rw [if_neg c] at h
      cases h
      rw [Bool.or_eq_true, not_or] at c
      exact Or.inr ⟨⟨0, by simpa using hx⟩, c⟩

/-! ## extremum candidates -/

theorem cand {E R : Interval D} {c l u t : ℝ} {a b : ℚ} (hc : 0 < c)
    (hE1 : ∀ s : D, ¬ nan s → val s ≤ (((a : ℝ) * c : ℝ) : EReal) → Rop.le s E.inf = true)
    (hE2 : ∀ s : D, ¬ nan s → (((b : ℝ) * c : ℝ) : EReal) ≤ val s → Rop.le E.sup s = true)
    (hl : Is R.inf l) (hu : Is R.sup u) (ha : (a : ℝ) ≤ t) (hb : t ≤ b) (h1 : l ≤ t * c) (h2 : t * c ≤ u)
    (hn : ¬ subset E R = true) :
    ∃ p : ℝ, (a : ℝ) ≤ p ∧ p ≤ b ∧ (Is R.inf (p * c) ∨ Is R.sup (p * c)) := by
  unfold subset at hn
  rw [Bool.and_eq_true, not_and_or] at hn
  rcases hn with hn | hn
  · have : (a : ℝ) * c < l := by
      by_contra h
      push Not at h
      exact hn (hE1 _ hl.1 (by rw [hl.2]; exact EReal.coe_le_coe_iff.2 h))
    refine ⟨l / c, ?_, ?_, Or.inl ?_⟩
    · rw [le_div_iff₀ hc]; exact this.le
    · rw [div_le_iff₀ hc]; nlinarith
    · rwa [div_mul_cancel₀ _ hc.ne']
  · have : u < (b : ℝ) * c := by
      by_contra h
      push Not at h
      exact hn (hE2 _ hu.1 (by rw [hu.2]; exact EReal.coe_le_coe_iff.2 h))
    refine ⟨u / c, ?_, ?_, Or.inr ?_⟩
    · rw [le_div_iff₀ hc]; nlinarith
    · rw [div_le_iff₀ hc]; exact this.le
    · rwa [div_mul_cancel₀ _ hc.ne']

theorem cand_mul {R : Interval D} {k : D} {c l u t : ℝ} {a b : ℚ} {ha' : binary64.Rep a}
    {hb' : binary64.Rep b} (hk : Is k c) (hc : 0 < c)
    (hl : Is R.inf l) (hu : Is R.sup u) (ha : (a : ℝ) ≤ t) (hb : t ≤ b) (h1 : l ≤ t * c) (h2 : t * c ≤ u)
    (hn : ¬ subset (mulS ⟨Hw.fin a ha', Hw.fin b hb'⟩ k) R = true) :
    ∃ p : ℝ, (a : ℝ) ≤ p ∧ p ≤ b ∧ (Is R.inf (p * c) ∨ Is R.sup (p * c)) := by
  have hk' : Rop.lt (lit 0) k = true := (lt_of_is is_zero hk).2 hc
  have e : mulS (⟨Hw.fin a ha', Hw.fin b hb'⟩ : Interval D) k =
      ⟨Rop.mulDown (Hw.fin a ha') k, Rop.mulUp (Hw.fin b hb') k⟩ := by
    unfold mulS; rw [if_pos hk']
  rw [e] at hn
  have vk : Fl.toE k = (c : EReal) := hk.2
  refine cand hc ?_ ?_ hl hu ha hb h1 h2 hn
  · intro s hs hv
    have := Fl.mul_down_isDown (F := binary64) (x := Hw.fin a ha') (y := k) (by simp [Hw.fin]) hk.1
      (by rw [vk]; simp) (by rw [vk]; intro; simp [Hw.fin])
    rw [le_iff]
    refine ⟨hs, this.1, this.2.2 s hs ?_⟩
    rw [vk]
    rw [show Fl.toE (Hw.fin a ha') = ((a : ℝ) : EReal) from rfl, ← EReal.coe_mul]
    exact hv
  · intro s hs hv
    have := Fl.mul_up_isUp (F := binary64) (x := Hw.fin b hb') (y := k) (by simp [Hw.fin]) hk.1
      (by rw [vk]; simp) (by rw [vk]; intro; simp [Hw.fin])
    rw [le_iff]
    refine ⟨this.1, hs, this.2.2 s hs ?_⟩
    rw [vk]
    rw [show Fl.toE (Hw.fin b hb') = ((b : ℝ) : EReal) from rfl, ← EReal.coe_mul]
    exact hv

theorem cand_fin {R : Interval D} {l u t : ℝ} {a b : ℚ} {ha' : binary64.Rep a}
    {hb' : binary64.Rep b}
    (hl : Is R.inf l) (hu : Is R.sup u) (ha : (a : ℝ) ≤ t) (hb : t ≤ b) (h1 : l ≤ t) (h2 : t ≤ u)
    (hn : ¬ subset ⟨Hw.fin a ha', Hw.fin b hb'⟩ R = true) :
    ∃ p : ℝ, (a : ℝ) ≤ p ∧ p ≤ b ∧ (Is R.inf p ∨ Is R.sup p) := by
  have := cand (E := ⟨Hw.fin a ha', Hw.fin b hb'⟩) (c := 1) one_pos ?_ ?_ hl hu ha hb
    (by simpa using h1) (by simpa using h2) hn
  · simpa using this
  · intro s hs hv; rw [le_iff]; exact ⟨hs, (Hw.is_fin ha').1, by rw [(Hw.is_fin ha').2]; simpa using hv⟩
  · intro s hs hv; rw [le_iff]; exact ⟨(Hw.is_fin hb').1, hs, by rw [(Hw.is_fin hb').2]; simpa using hv⟩

/-! ## the maximum of a cosine on a segment -/

theorem cos_quasi {t1 t t2 : ℝ} (h0 : 0 ≤ t1) (h1 : t1 ≤ t) (h2 : t ≤ t2) (h3 : t2 ≤ 2 * Real.pi) :
    Real.cos t ≤ Max.max (Real.cos t1) (Real.cos t2) := by
  rcases le_total t Real.pi with h | h
  · exact le_max_of_le_left (Real.cos_le_cos_of_nonneg_of_le_pi h0 h h1)
  · refine le_max_of_le_right ?_
    rw [← Real.cos_two_pi_sub t, ← Real.cos_two_pi_sub t2]
    exact Real.cos_le_cos_of_nonneg_of_le_pi (by linarith) (by linarith) (by linarith)

theorem cos_max_cases (a : ℝ) {l x u : ℝ} (h1 : l ≤ x) (h2 : x ≤ u) :
    (∃ k : ℤ, l ≤ a + k * (2 * Real.pi) ∧ a + k * (2 * Real.pi) ≤ u) ∨
    Real.cos (x - a) ≤ Max.max (Real.cos (l - a)) (Real.cos (u - a)) := by
  by_cases h : ∃ k : ℤ, l ≤ a + k * (2 * Real.pi) ∧ a + k * (2 * Real.pi) ≤ u
  · exact Or.inl h
  right
  push Not at h
  have p0 : 0 < 2 * Real.pi := by positivity
  set k : ℤ := ⌊(l - a) / (2 * Real.pi)⌋ with hk
  have k1 : (k : ℝ) * (2 * Real.pi) ≤ l - a := by
    rw [← le_div_iff₀ p0]; exact Int.floor_le _
  have k2 : l - a < ((k : ℝ) + 1) * (2 * Real.pi) := by
    rw [← div_lt_iff₀ p0]; exact Int.lt_floor_add_one _
  have k3 := h (k + 1) (by push_cast; linarith)
  push_cast at k3
  have := cos_quasi (t1 := l - a - k * (2 * Real.pi)) (t := x - a - k * (2 * Real.pi))
    (t2 := u - a - k * (2 * Real.pi)) (by linarith) (by linarith) (by linarith) (by linarith)
  rwa [Real.cos_sub_int_mul_two_pi, Real.cos_sub_int_mul_two_pi, Real.cos_sub_int_mul_two_pi] at this

theorem ite_hullS_mem {r : Interval D} {k : D} {c t : ℝ} (b : Bool) (hk : Is k c) (ht : t ∈ r) :
    t ∈ (if b = true then hullS r k else r) := by
  split
  · exact hullS_mem ht hk Set.right_mem_uIcc
  · exact ht

theorem ite_hullS_mem' {r : Interval D} {k : D} {c t : ℝ} {b : Bool} (hk : Is k c) (ht : t ∈ r)
    (hb : b = true) : c ∈ (if b = true then hullS r k else r) := by
  rw [if_pos hb]; exact hullS_mem ht hk Set.left_mem_uIcc

theorem hull_mem_left {X Y : Interval D} {x y : ℝ} (hx : x ∈ X) (hy : y ∈ Y) : x ∈ hull X Y :=
  ⟨hull_lo (Or.inl hx.1) hx.1.1 hy.1.1, hull_hi (Or.inl hx.2) hx.2.1 hy.2.1⟩
theorem hull_mem_right {X Y : Interval D} {x y : ℝ} (hx : x ∈ X) (hy : y ∈ Y) : y ∈ hull X Y :=
  ⟨hull_lo (Or.inr hy.1) hx.1.1 hy.1.1, hull_hi (Or.inr hy.2) hx.2.1 hy.2.1⟩

/-! ## sin -/

theorem is_52 : Is (lit (5 / 2) : D) (5 / 2) := by
  have := is_cst (q := 5 / 2) 5 (-1) (by norm_num) (by norm_num) (by norm_num) (by norm_num)
  push_cast at this; exact this
theorem is_32 : Is (lit (3 / 2) : D) (3 / 2) := by
  have := is_cst (q := 3 / 2) 3 (-1) (by norm_num) (by norm_num) (by norm_num) (by norm_num)
  push_cast at this; exact this

theorem P2_eq' : mulS P0 two = ⟨Hw.fin (2 * piL) rep_2piL, Hw.fin (2 * piU) rep_2piU⟩ := by
  rw [P2_eq, Hw.lit_eq rep_2piL, Hw.lit_eq rep_2piU]

theorem negP0_eq : neg P0 = ⟨Hw.fin (-piU) rep_piU.neg, Hw.fin (-piL) rep_piL.neg⟩ := rfl

theorem not_abs_inf {x : D} (h : ¬ Rop.eq (Rop.abs x) (Rop.inf : D) = true) :
    val x ≠ ⊤ ∧ val x ≠ ⊥ := by
  rcases D_cases x with h1 | h1 | h1 | ⟨q, hq, h1⟩
  · have e : val x = ((0 : ℝ) : EReal) := by rw [nan_eq h1]; rfl
    rw [e]; simp
  · rw [h1] at h; exact absurd (by decide +kernel) h
  · rw [h1] at h; exact absurd (by decide +kernel) h
  · rw [h1, (Hw.is_fin hq).2]; simp

/-- after the reduction and the width check both endpoints are finite and less than a period apart -/
theorem reduced_bounds {R : Interval D} {x : ℝ} (hx : x ∈ R)
    (h1 : ¬ Rop.le R.inf (Rop.neg P0.sup) = true) (h2 : ¬ Rop.le P0.sup R.inf = true)
    (h3 : ¬ Rop.le (mulS P0 two).sup (subS (point R.sup) R.inf).inf = true) :
    ∃ l u : ℝ, Is R.inf l ∧ Is R.sup u ∧ -(piU : ℝ) < l ∧ l < piU ∧ u - l < 2 * piU ∧ l ≤ x ∧ x ≤ u := by
  have hU : Is P0.sup (piU : ℝ) := Hw.is_fin rep_piU
  have hU2 : Is (mulS P0 two).sup ((2 * piU : ℚ) : ℝ) := by rw [P2_eq']; exact Hw.is_fin rep_2piU
  obtain ⟨l, hl⟩ : ∃ l, Is R.inf l := by
    rcases cases_val hx.1.1 with h | h | h
    · exact absurd h hx.1.ne_top
    · refine absurd ((le_iff _ _).2 ⟨hx.1.1, (is_neg hU).1, ?_⟩) h1
      rw [h]; exact bot_le
    · exact h
  rw [le_of_is hl (is_neg hU), not_le] at h1
  rw [le_of_is hU hl, not_le] at h2
  have eS : (subS (point R.sup) R.inf).inf = Rop.subDown R.sup R.inf := rfl
  rw [eS] at h3
  have vl : Fl.toE R.inf = (l : EReal) := hl.2
  have hD := Fl.sub_down_isDown (F := binary64) (x := R.sup) (y := R.inf) hx.2.1 hx.1.1
    (by rw [vl]; simp) (by rw [vl]; simp)
  have h4 : ¬ (((2 * piU : ℚ) : ℝ) : EReal) ≤ Fl.toE R.sup - Fl.toE R.inf := by
    intro h
    refine h3 ((le_iff _ _).2 ⟨hU2.1, hD.1, ?_⟩)
    refine hD.2.2 _ hU2.1 ?_
    rw [show Fl.toE (mulS P0 two).sup = (((2 * piU : ℚ) : ℝ) : EReal) from hU2.2]
    exact h
  obtain ⟨u, hu⟩ : ∃ u, Is R.sup u := by
    rcases cases_val hx.2.1 with h | h | h
    · refine absurd ?_ h4
      rw [show Fl.toE R.sup = ⊤ from h, vl, EReal.top_sub_coe]; exact le_top
    · exact absurd h hx.2.ne_bot
    · exact h
  rw [show Fl.toE R.sup = (u : EReal) from hu.2, vl, ← EReal.coe_sub, EReal.coe_le_coe_iff, not_le] at h4
  push_cast at h4
  refine ⟨l, u, hl, hu, h1, h2, h4, ?_, ?_⟩
  · have := hx.1.2; rw [hl.2] at this; exact EReal.coe_le_coe_iff.1 this
  · have := hx.2.2; rw [hu.2] at this; exact EReal.coe_le_coe_iff.1 this

/-- the enclosure obtained from end values and extremum flags -/
theorem seg_mem {S : Interval D} {m M v vl vu : ℝ} (hl : vl ∈ S) (hu : vu ∈ S)
    (hM : M ∈ S ∨ v ≤ Max.max vl vu) (hm : m ∈ S ∨ Min.min vl vu ≤ v) (h1 : m ≤ v) (h2 : v ≤ M) : v ∈ S := by
  constructor
  · rcases hm with h | h
    · exact h.1.mono h1
    · rcases min_choice vl vu with e | e
      · rw [e] at h; exact hl.1.mono h
      · rw [e] at h; exact hu.1.mono h
  · rcases hM with h | h
    · exact h.2.mono h2
    · rcases max_choice vl vu with e | e
      · rw [e] at h; exact hl.2.mono h
      · rw [e] at h; exact hu.2.mono h

theorem sin_mem {fuel : ℕ} {I Z : Interval D} {x : ℝ} (h : sin fuel I = .ok Z) (hx : x ∈ I) :
    Real.sin x ∈ Z := by
  unfold sin at h
  obtain ⟨P, hP, h⟩ := bind_ok.1 h
  rw [constPi_eq hP] at h
  have unit1 : Real.sin x ∈ hullSS (lit (-1) : D) one := hullSS_mem is_neg_one is_one (by
    rw [Set.mem_uIcc]; exact Or.inl ⟨Real.neg_one_le_sin x, Real.sin_le_one x⟩)
  have unit2 : Real.sin x ∈ (⟨lit (-1), one⟩ : Interval D) :=
    unit_mem (Real.neg_one_le_sin x) (Real.sin_le_one x)
  dsimp only at h
  by_cases c1 : Rop.eq (Rop.abs I.inf) (Rop.inf : D) = true
  · rw [if_pos c1] at h; cases h; exact unit1
  rw [if_neg c1] at h
  by_cases c2 : Rop.eq (Rop.abs I.sup) (Rop.inf : D) = true
  · rw [if_pos c2] at h; cases h; exact unit1
  rw [if_neg c2] at h
  obtain ⟨R, hR, h⟩ := bind_ok.1 h
  have ht : 2 * Real.pi ∈ (⟨Hw.fin (2 * piL) rep_2piL, Hw.fin (2 * piU) rep_2piU⟩ : Interval D) := by
    have := mulS_mem pi_mem_P0 (is_two (T := D))
    rw [mul_comm (2 : ℝ)]
    rwa [P2_eq'] at this
  have hR' := hR
  rw [P2_eq'] at hR'
  rcases reduce_spec (by norm_num [piL]) (by norm_num [piL, piU]) ht hx hR' with hn | ⟨⟨k, hk⟩, n1, n2⟩
  · exfalso
    rw [if_neg] at h
    · obtain ⟨a, ha, h⟩ := bind_ok.1 h
      rw [nan_eq hn] at ha
      exact sinPoint_NN ha
    · rw [le_iff]
      rintro ⟨-, h2, -⟩
      apply h2
      show nan (Rop.subDown R.sup R.inf)
      rw [nan_eq hn]
      show Fl.neg (Fl.sub .up (Fl.neg R.sup) (Fl.neg Fl.nan)) = Fl.nan
      cases hh : (Fl.neg R.sup) <;> rfl
  by_cases c3 : Rop.le (mulS P0 two).sup (subS (point R.sup) R.inf).inf = true
  · rw [if_pos c3] at h; cases h; exact unit2
  rw [if_neg c3] at h
  obtain ⟨l, u, hl, hu, l1, l2, ul, xl, xu⟩ := reduced_bounds hk n1 n2 c3
  obtain ⟨a, ha, h⟩ := bind_ok.1 h
  obtain ⟨b, hb, h⟩ := bind_ok.1 h
  set y := x - k * (2 * Real.pi) with hy
  have ey : Real.sin x = Real.sin y := by rw [hy, Real.sin_sub_int_mul_two_pi]
  have sl := sinPoint_mem (point_mem hl) ha
  have su := sinPoint_mem (point_mem hu) hb
  generalize g1 : subset (mulS P0 half) R = f1 at h
  generalize g2 : subset (mulS P0 (lit (5 / 2))) R = f2 at h
  generalize g3 : subset (mulS (neg P0) half) R = f3 at h
  generalize g4 : subset (mulS P0 (lit (3 / 2))) R = f4 at h
  set r1 := (if f1 = true then (hull a b).hullS one else hull a b) with e1
  set r2 := (if f2 = true then r1.hullS one else r1) with e2
  set r3 := (if f3 = true then r2.hullS (lit (-1)) else r2) with e3
  set r4 := (if f4 = true then r3.hullS (lit (-1)) else r3) with e4
  have up1 : ∀ t : ℝ, t ∈ hull a b → t ∈ r1 := fun t ht => ite_hullS_mem f1 is_one ht
  have up2 : ∀ t : ℝ, t ∈ r1 → t ∈ r2 := fun t ht => ite_hullS_mem f2 is_one ht
  have up3 : ∀ t : ℝ, t ∈ r2 → t ∈ r3 := fun t ht => ite_hullS_mem f3 is_neg_one ht
  have up4 : ∀ t : ℝ, t ∈ r3 → t ∈ r4 := fun t ht => ite_hullS_mem f4 is_neg_one ht
  have hL := hull_mem_left sl su
  have hU := hull_mem_right sl su
  have fa : ∀ t : ℝ, t ∈ a → t ∈ hull a b := fun t ht => hull_mem_left ht su
  have fb : ∀ t : ℝ, t ∈ b → t ∈ hull a b := fun t ht => hull_mem_right sl ht
  have pl := piL_lo
  have pu := piU_hi
  have q1 := P0_lo pi_mem_P0
  have q2 := P0_hi pi_mem_P0
  have hpL := (mem_P0.1 pi_mem_P0).1
  have hpU := (mem_P0.1 pi_mem_P0).2
  have mem : Real.sin y ∈ r4 := by
    refine seg_mem (m := -1) (M := 1) (up4 _ (up3 _ (up2 _ (up1 _ hL)))) (up4 _ (up3 _ (up2 _ (up1 _ hU))))
      ?_ ?_ (Real.neg_one_le_sin _) (Real.sin_le_one _)
    · rcases cos_max_cases (Real.pi / 2) xl xu with ⟨j, j1, j2⟩ | hc
      · left
        have ja : (-1 : ℝ) < j := by
          by_contra hcon; push Not at hcon; nlinarith
        have jb : (j : ℝ) < 2 := by
          by_contra hcon; push Not at hcon; nlinarith
        have ja' : -1 < j := by exact_mod_cast ja
        have jb' : j < 2 := by exact_mod_cast jb
        obtain rfl | rfl : j = 0 ∨ j = 1 := by omega
        · by_cases hf : f1 = true
          · exact up4 _ (up3 _ (up2 _ (ite_hullS_mem' is_one hL hf)))
          · rw [← g1] at hf
            obtain ⟨p, p1, p2, p3⟩ := cand_mul (t := Real.pi) is_half (by norm_num) hl hu hpL hpU
              (by push_cast at j1; linarith) (by push_cast at j2; linarith) hf
            have hp := mem_P0.2 ⟨p1, p2⟩
            refine up4 _ (up3 _ (up2 _ (up1 _ ?_)))
            rcases p3 with p3 | p3
            · exact fa _ (sinPt_half hp p3 ha)
            · exact fb _ (sinPt_half hp p3 hb)
        · by_cases hf : f2 = true
          · exact up4 _ (up3 _ (ite_hullS_mem' is_one (up1 _ hL) hf))
          · rw [← g2] at hf
            obtain ⟨p, p1, p2, p3⟩ := cand_mul (t := Real.pi) is_52 (by norm_num) hl hu hpL hpU
              (by push_cast at j1; linarith) (by push_cast at j2; linarith) hf
            have hp := mem_P0.2 ⟨p1, p2⟩
            refine up4 _ (up3 _ (up2 _ (up1 _ ?_)))
            rcases p3 with p3 | p3
            · exact fa _ (sinPt_52 hp p3 ha)
            · exact fb _ (sinPt_52 hp p3 hb)
      · right
        simpa only [Real.cos_sub_pi_div_two] using hc
    · rcases cos_max_cases (-(Real.pi / 2)) xl xu with ⟨j, j1, j2⟩ | hc
      · left
        have ja : (-1 : ℝ) < j := by
          by_contra hcon; push Not at hcon; nlinarith
        have jb : (j : ℝ) < 2 := by
          by_contra hcon; push Not at hcon; nlinarith
        have ja' : -1 < j := by exact_mod_cast ja
        have jb' : j < 2 := by exact_mod_cast jb
        obtain rfl | rfl : j = 0 ∨ j = 1 := by omega
        · by_cases hf : f3 = true
          · exact up4 _ (ite_hullS_mem' is_neg_one (up2 _ (up1 _ hL)) hf)
          · rw [← g3, negP0_eq] at hf
            obtain ⟨p, p1, p2, p3⟩ := cand_mul (t := -Real.pi) is_half (by norm_num) hl hu
              (by push_cast; linarith) (by push_cast; linarith)
              (by push_cast at j1; linarith) (by push_cast at j2; linarith) hf
            push_cast at p1 p2
            have hp : -p ∈ P0 := mem_P0.2 ⟨by linarith, by linarith⟩
            refine up4 _ (up3 _ (up2 _ (up1 _ ?_)))
            rcases p3 with p3 | p3
            · exact fa _ (sinPt_neg_half hp (by rwa [neg_neg]) ha)
            · exact fb _ (sinPt_neg_half hp (by rwa [neg_neg]) hb)
        · by_cases hf : f4 = true
          · exact ite_hullS_mem' is_neg_one (up3 _ (up2 _ (up1 _ hL))) hf
          · rw [← g4] at hf
            obtain ⟨p, p1, p2, p3⟩ := cand_mul (t := Real.pi) is_32 (by norm_num) hl hu hpL hpU
              (by push_cast at j1; linarith) (by push_cast at j2; linarith) hf
            have hp := mem_P0.2 ⟨p1, p2⟩
            refine up4 _ (up3 _ (up2 _ (up1 _ ?_)))
            rcases p3 with p3 | p3
            · exact fa _ (sinPt_32 hp p3 ha)
            · exact fb _ (sinPt_32 hp p3 hb)
      · right
        simp only [sub_neg_eq_add, Real.cos_add_pi_div_two] at hc
        rw [max_neg_neg] at hc
        linarith
  cases h
  rw [ey] at unit2 ⊢
  exact (mem_intersect ⟨mem.1.1, mem.2.1⟩ ⟨unit2.1.1, unit2.2.1⟩).2 ⟨mem, unit2⟩

theorem cos_mem {fuel : ℕ} {I Z : Interval D} {x : ℝ} (h : cos fuel I = .ok Z) (hx : x ∈ I) :
    Real.cos x ∈ Z := by
  unfold cos at h
  obtain ⟨P, hP, h⟩ := bind_ok.1 h
  rw [constPi_eq hP] at h
  have unit1 : Real.cos x ∈ hullSS (lit (-1) : D) one := hullSS_mem is_neg_one is_one (by
    rw [Set.mem_uIcc]; exact Or.inl ⟨Real.neg_one_le_cos x, Real.cos_le_one x⟩)
  have unit2 : Real.cos x ∈ (⟨lit (-1), one⟩ : Interval D) :=
    unit_mem (Real.neg_one_le_cos x) (Real.cos_le_one x)
  dsimp only at h
  by_cases c1 : Rop.eq (Rop.abs I.inf) (Rop.inf : D) = true
  · rw [if_pos c1] at h; cases h; exact unit1
  rw [if_neg c1] at h
  by_cases c2 : Rop.eq (Rop.abs I.sup) (Rop.inf : D) = true
  · rw [if_pos c2] at h; cases h; exact unit1
  rw [if_neg c2] at h
  obtain ⟨R, hR, h⟩ := bind_ok.1 h
  have ht : 2 * Real.pi ∈ (⟨Hw.fin (2 * piL) rep_2piL, Hw.fin (2 * piU) rep_2piU⟩ : Interval D) := by
    have := mulS_mem pi_mem_P0 (is_two (T := D))
    rw [mul_comm (2 : ℝ)]
    rwa [P2_eq'] at this
  have hR' := hR
  rw [P2_eq'] at hR'
  rcases reduce_spec (by norm_num [piL]) (by norm_num [piL, piU]) ht hx hR' with hn | ⟨⟨k, hk⟩, n1, n2⟩
  · exfalso
    rw [if_neg] at h
    · obtain ⟨a, ha, h⟩ := bind_ok.1 h
      rw [nan_eq hn] at ha
      exact cosPoint_NN ha
    · rw [le_iff]
      rintro ⟨-, h2, -⟩
      apply h2
      show nan (Rop.subDown R.sup R.inf)
      rw [nan_eq hn]
      show Fl.neg (Fl.sub .up (Fl.neg R.sup) (Fl.neg Fl.nan)) = Fl.nan
      cases hh : (Fl.neg R.sup) <;> rfl
  by_cases c3 : Rop.le (mulS P0 two).sup (subS (point R.sup) R.inf).inf = true
  · rw [if_pos c3] at h; cases h; exact unit2
  rw [if_neg c3] at h
  obtain ⟨l, u, hl, hu, l1, l2, ul, xl, xu⟩ := reduced_bounds hk n1 n2 c3
  obtain ⟨a, ha, h⟩ := bind_ok.1 h
  obtain ⟨b, hb, h⟩ := bind_ok.1 h
  set y := x - k * (2 * Real.pi) with hy
  have ey : Real.cos x = Real.cos y := by rw [hy, Real.cos_sub_int_mul_two_pi]
  have sl := cosPoint_mem (point_mem hl) ha
  have su := cosPoint_mem (point_mem hu) hb
  generalize g1 : mem (lit 0) R = f1 at h
  generalize g2 : subset (mulS P0 two) R = f2 at h
  generalize g3 : subset (neg P0) R = f3 at h
  generalize g4 : subset P0 R = f4 at h
  generalize g5 : subset (mulS P0 (lit 3)) R = f5 at h
  set r1 := (if f1 = true then (hull a b).hullS one else hull a b) with e1
  set r2 := (if f2 = true then r1.hullS one else r1) with e2
  set r3 := (if f3 = true then r2.hullS (lit (-1)) else r2) with e3
  set r4 := (if f4 = true then r3.hullS (lit (-1)) else r3) with e4
  set r5 := (if f5 = true then r4.hullS (lit (-1)) else r4) with e5
  have up1 : ∀ t : ℝ, t ∈ hull a b → t ∈ r1 := fun t ht => ite_hullS_mem f1 is_one ht
  have up2 : ∀ t : ℝ, t ∈ r1 → t ∈ r2 := fun t ht => ite_hullS_mem f2 is_one ht
  have up3 : ∀ t : ℝ, t ∈ r2 → t ∈ r3 := fun t ht => ite_hullS_mem f3 is_neg_one ht
  have up4 : ∀ t : ℝ, t ∈ r3 → t ∈ r4 := fun t ht => ite_hullS_mem f4 is_neg_one ht
  have up5 : ∀ t : ℝ, t ∈ r4 → t ∈ r5 := fun t ht => ite_hullS_mem f5 is_neg_one ht
  have up : ∀ t : ℝ, t ∈ hull a b → t ∈ r5 := fun t ht => up5 _ (up4 _ (up3 _ (up2 _ (up1 _ ht))))
  have hL := hull_mem_left sl su
  have hU := hull_mem_right sl su
  have fa : ∀ t : ℝ, t ∈ a → t ∈ hull a b := fun t ht => hull_mem_left ht su
  have fb : ∀ t : ℝ, t ∈ b → t ∈ hull a b := fun t ht => hull_mem_right sl ht
  have pl := piL_lo
  have pu := piU_hi
  have q1 := P0_lo pi_mem_P0
  have q2 := P0_hi pi_mem_P0
  have hpL := (mem_P0.1 pi_mem_P0).1
  have hpU := (mem_P0.1 pi_mem_P0).2
  have mem : Real.cos y ∈ r5 := by
    refine seg_mem (m := -1) (M := 1) (up _ hL) (up _ hU)
      ?_ ?_ (Real.neg_one_le_cos _) (Real.cos_le_one _)
    · rcases cos_max_cases 0 xl xu with ⟨j, j1, j2⟩ | hc
      · left
        have ja : (-1 : ℝ) < j := by
          by_contra hcon; push Not at hcon; nlinarith
        have jb : (j : ℝ) < 2 := by
          by_contra hcon; push Not at hcon; nlinarith
        have ja' : -1 < j := by exact_mod_cast ja
        have jb' : j < 2 := by exact_mod_cast jb
        obtain rfl | rfl : j = 0 ∨ j = 1 := by omega
        · have hf : f1 = true := by
            rw [← g1]; unfold Interval.mem
            rw [Bool.and_eq_true, le_of_is hl is_zero, le_of_is is_zero hu]
            push_cast at j1 j2
            constructor <;> linarith
          exact up5 _ (up4 _ (up3 _ (up2 _ (ite_hullS_mem' is_one hL hf))))
        · by_cases hf : f2 = true
          · exact up5 _ (up4 _ (up3 _ (ite_hullS_mem' is_one (up1 _ hL) hf)))
          · rw [← g2] at hf
            obtain ⟨p, p1, p2, p3⟩ := cand_mul (t := Real.pi) is_two (by norm_num) hl hu hpL hpU
              (by push_cast at j1; linarith) (by push_cast at j2; linarith) hf
            have hp := mem_P0.2 ⟨p1, p2⟩
            refine up _ ?_
            rcases p3 with p3 | p3
            · exact fa _ (cosPt_two hp p3 ha)
            · exact fb _ (cosPt_two hp p3 hb)
      · right
        simpa only [sub_zero] using hc
    · rcases cos_max_cases Real.pi xl xu with ⟨j, j1, j2⟩ | hc
      · left
        have ja : (-2 : ℝ) < j := by
          by_contra hcon; push Not at hcon; nlinarith
        have jb : (j : ℝ) < 2 := by
          by_contra hcon; push Not at hcon; nlinarith
        have ja' : -2 < j := by exact_mod_cast ja
        have jb' : j < 2 := by exact_mod_cast jb
        obtain rfl | rfl | rfl : j = -1 ∨ j = 0 ∨ j = 1 := by omega
        · by_cases hf : f3 = true
          · exact up5 _ (up4 _ (ite_hullS_mem' is_neg_one (up2 _ (up1 _ hL)) hf))
          · rw [← g3, negP0_eq] at hf
            obtain ⟨p, p1, p2, p3⟩ := cand_fin (t := -Real.pi) hl hu
              (by push_cast; linarith) (by push_cast; linarith)
              (by push_cast at j1; linarith) (by push_cast at j2; linarith) hf
            push_cast at p1 p2
            have hp : -p ∈ P0 := mem_P0.2 ⟨by linarith, by linarith⟩
            refine up _ ?_
            rcases p3 with p3 | p3
            · exact fa _ (cosPt_neg hp (by rwa [neg_neg]) ha)
            · exact fb _ (cosPt_neg hp (by rwa [neg_neg]) hb)
        · by_cases hf : f4 = true
          · exact up5 _ (ite_hullS_mem' is_neg_one (up3 _ (up2 _ (up1 _ hL))) hf)
          · rw [← g4] at hf
            obtain ⟨p, p1, p2, p3⟩ := cand_fin (t := Real.pi) hl hu hpL hpU
              (by push_cast at j1; linarith) (by push_cast at j2; linarith) hf
            have hp := mem_P0.2 ⟨p1, p2⟩
            refine up _ ?_
            rcases p3 with p3 | p3
            · exact fa _ (cosPt_one hp p3 ha)
            · exact fb _ (cosPt_one hp p3 hb)
        · by_cases hf : f5 = true
          · exact ite_hullS_mem' is_neg_one (up4 _ (up3 _ (up2 _ (up1 _ hL)))) hf
          · rw [← g5] at hf
            obtain ⟨p, p1, p2, p3⟩ := cand_mul (t := Real.pi) is_three (by norm_num) hl hu hpL hpU
              (by push_cast at j1; linarith) (by push_cast at j2; linarith) hf
            have hp := mem_P0.2 ⟨p1, p2⟩
            refine up _ ?_
            rcases p3 with p3 | p3
            · exact fa _ (cosPt_three hp p3 ha)
            · exact fb _ (cosPt_three hp p3 hb)
      · right
        simp only [Real.cos_sub_pi] at hc
        rw [max_neg_neg] at hc
        linarith
  cases h
  rw [ey] at unit2 ⊢
  exact (mem_intersect ⟨mem.1.1, mem.2.1⟩ ⟨unit2.1.1, unit2.2.1⟩).2 ⟨mem, unit2⟩

/-! ## tan -/

theorem rep_piUh : binary64.Rep (piU / 2) := by
  have := rep_b (m := 7074237752028445) (k := 52) (by norm_num) (by norm_num)
  have e : piU / 2 = 7074237752028445 / 2 ^ 52 := by norm_num [piU]
  rw [e]; push_cast at this; exact this

theorem pih_sup : (mulS P0 half).sup = Hw.fin (piU / 2) rep_piUh := by
  rw [← Hw.lit_eq rep_piUh]; decide +kernel

theorem tan_mem {fuel : ℕ} {I Z : Interval D} {x : ℝ} (h : tan fuel I = .ok Z) (hx : x ∈ I) :
    Real.tan x ∈ Z := by
  unfold tan at h
  obtain ⟨P, hP, h⟩ := bind_ok.1 h
  rw [constPi_eq hP] at h
  have whole1 : Real.tan x ∈ hullSS (Rop.neg Rop.inf : D) Rop.inf := by
    have : hullSS (Rop.neg Rop.inf : D) Rop.inf = ⟨Rop.neg Rop.inf, Rop.inf⟩ := by decide +kernel
    rw [this]; exact ⟨lo_neg_inf _, hi_inf _⟩
  have whole2 : Real.tan x ∈ (whole : Interval D) := ⟨lo_neg_inf _, hi_inf _⟩
  dsimp only at h
  by_cases c1 : Rop.eq (Rop.abs I.inf) (Rop.inf : D) = true
  · rw [if_pos c1] at h; cases h; exact whole1
  rw [if_neg c1] at h
  by_cases c2 : Rop.eq (Rop.abs I.sup) (Rop.inf : D) = true
  · rw [if_pos c2] at h; cases h; exact whole1
  rw [if_neg c2] at h
  obtain ⟨R, hR, h⟩ := bind_ok.1 h
  rcases reduce_spec (by norm_num [piL]) (by norm_num [piL, piU]) pi_mem_P0 hx hR with hn | ⟨⟨k, hk⟩, n1, n2⟩
  · by_cases c3 : Rop.le (mulS P0 half).sup R.sup = true
    · rw [if_pos c3] at h; cases h; exact whole2
    rw [if_neg c3] at h
    obtain ⟨a, ha, h⟩ := bind_ok.1 h
    obtain ⟨s, hs, ha⟩ := bind_ok.1 ha
    rw [nan_eq hn] at hs
    exact absurd hs sinPoint_NN
  by_cases c3 : Rop.le (mulS P0 half).sup R.sup = true
  · rw [if_pos c3] at h; cases h; exact whole2
  rw [if_neg c3] at h
  rw [pih_sup] at n1 n2 c3
  have hUh := Hw.is_fin rep_piUh
  obtain ⟨l, hl⟩ : ∃ l, Is R.inf l := by
    rcases cases_val hk.1.1 with h | h | h
    · exact absurd h hk.1.ne_top
    · refine absurd ((le_iff _ _).2 ⟨hk.1.1, (is_neg hUh).1, ?_⟩) n1
      rw [h]; exact bot_le
    · exact h
  obtain ⟨u, hu⟩ : ∃ u, Is R.sup u := by
    rcases cases_val hk.2.1 with h | h | h
    · refine absurd ((le_iff _ _).2 ⟨hUh.1, hk.2.1, ?_⟩) c3
      rw [h]; exact le_top
    · exact absurd h hk.2.ne_bot
    · exact h
  rw [le_of_is hl (is_neg hUh), not_le] at n1
  rw [le_of_is hUh hl, not_le] at n2
  rw [le_of_is hUh hu, not_le] at c3
  push_cast at n1 n2 c3
  set y := x - k * Real.pi with hy
  have ey : Real.tan x = Real.tan y := by rw [hy, Real.tan_sub_int_mul_pi]
  have yl : l ≤ y := by have := hk.1.2; rw [hl.2] at this; exact EReal.coe_le_coe_iff.1 this
  have yu : y ≤ u := by have := hk.2.2; rw [hu.2] at this; exact EReal.coe_le_coe_iff.1 this
  obtain ⟨a, ha, h⟩ := bind_ok.1 h
  obtain ⟨b, hb, h⟩ := bind_ok.1 h
  obtain ⟨sa, hsa, ha⟩ := bind_ok.1 ha
  obtain ⟨ca, hca, ha⟩ := bind_ok.1 ha
  obtain ⟨sb, hsb, hb⟩ := bind_ok.1 hb
  obtain ⟨cb, hcb, hb⟩ := bind_ok.1 hb
  have hpL := (mem_P0.1 pi_mem_P0).1
  have hpU := (mem_P0.1 pi_mem_P0).2
  have l3 : -(Real.pi / 2) < l := by
    by_contra hcon
    push Not at hcon
    have hp : -(2 * l) ∈ P0 := mem_P0.2 ⟨by linarith, by linarith⟩
    have := cosPt_neg_half hp (by rwa [show -(-(2 * l)) * (1 / 2) = l by ring]) hca
    have e := (C03_div_error_iff sa this).2 this
    rw [e] at ha; cases ha
  have u3 : u < Real.pi / 2 := by
    by_contra hcon
    push Not at hcon
    have hp : 2 * u ∈ P0 := mem_P0.2 ⟨by linarith, by linarith⟩
    have := cosPt_half hp (by rwa [show (2 * u) * (1 / 2) = u by ring]) hcb
    have e := (C03_div_error_iff sb this).2 this
    rw [e] at hb; cases hb
  have m1 := (div_mem ha (sinPoint_mem (point_mem hl) hsa) (cosPoint_mem (point_mem hl) hca))
  have m2 := (div_mem hb (sinPoint_mem (point_mem hu) hsb) (cosPoint_mem (point_mem hu) hcb))
  rw [← Real.tan_eq_sin_div_cos] at m1 m2
  cases h
  rw [ey]
  have mono := Real.strictMonoOn_tan.monotoneOn
  exact ⟨m1.1.mono (mono ⟨by linarith, by linarith⟩ ⟨by linarith, by linarith⟩ yl),
    m2.2.mono (mono ⟨by linarith, by linarith⟩ ⟨by linarith, by linarith⟩ yu)⟩

end Interval
end Kv
