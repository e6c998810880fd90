import Verif.Interval.Basic
import Mathlib.Tactic.Linarith

/-! # Meaning of intervals: sets of real numbers, and helper lemmas -/

namespace Kv
open Rop RopSem

variable {T : Type} [RopSem T]

/-- `a` is a proper (non-NaN) lower bound of the real `x`. -/
def Lo (a : T) (x : ℝ) : Prop := ¬ nan a ∧ val a ≤ (x : EReal)

/-- `a` is a proper (non-NaN) upper bound of the real `x`. -/
def Hi (a : T) (x : ℝ) : Prop := ¬ nan a ∧ (x : EReal) ≤ val a

/-- The real number `x` belongs to the interval `I`: neither bound is NaN and
`I.inf ≤ x ≤ I.sup` holds in the extended reals. -/
def Interval.Has (I : Interval T) (x : ℝ) : Prop := Lo I.inf x ∧ Hi I.sup x

instance : Membership ℝ (Interval T) := ⟨Interval.Has⟩

theorem Interval.mem_iff {I : Interval T} {x : ℝ} :
    x ∈ I ↔ ¬ nan I.inf ∧ ¬ nan I.sup ∧ val I.inf ≤ (x : EReal) ∧ (x : EReal) ≤ val I.sup := by
  show (Lo I.inf x ∧ Hi I.sup x) ↔ _
  unfold Lo Hi; tauto

theorem Interval.mem_mk {a b : T} {x : ℝ} : x ∈ (⟨a, b⟩ : Interval T) ↔ Lo a x ∧ Hi b x := Iff.rfl
theorem Interval.mem_def {I : Interval T} {x : ℝ} : x ∈ I ↔ Lo I.inf x ∧ Hi I.sup x := Iff.rfl

theorem Lo.ne_top {a : T} {x : ℝ} (h : Lo a x) : val a ≠ ⊤ := by
  intro h'; have := h.2; rw [h'] at this; simp at this
theorem Hi.ne_bot {a : T} {x : ℝ} (h : Hi a x) : val a ≠ ⊥ := by
  intro h'; have := h.2; rw [h'] at this; simp at this
theorem Lo.mono {a : T} {x y : ℝ} (h : Lo a x) (hxy : x ≤ y) : Lo a y :=
  ⟨h.1, h.2.trans (EReal.coe_le_coe_iff.2 hxy)⟩
theorem Hi.mono {a : T} {x y : ℝ} (h : Hi a x) (hxy : y ≤ x) : Hi a y :=
  ⟨h.1, (EReal.coe_le_coe_iff.2 hxy).trans h.2⟩

theorem lo_zero : Lo (lit 0 : T) 0 := ⟨lit_zero.1, by rw [lit_zero.2]; simp⟩
theorem hi_zero : Hi (lit 0 : T) 0 := ⟨lit_zero.1, by rw [lit_zero.2]; simp⟩
theorem lo_zero_iff {x : ℝ} : Lo (lit 0 : T) x ↔ 0 ≤ x := by
  unfold Lo; rw [lit_zero.2]
  have := (lit_zero (T := T)).1
  simp [this]
theorem hi_zero_iff {x : ℝ} : Hi (lit 0 : T) x ↔ x ≤ 0 := by
  unfold Hi; rw [lit_zero.2]
  have := (lit_zero (T := T)).1
  simp only [this, not_false_iff, true_and]
  exact_mod_cast Iff.rfl
theorem lo_one : Lo (lit 1 : T) 1 := ⟨lit_one.1, by rw [lit_one.2]; simp⟩
theorem hi_one : Hi (lit 1 : T) 1 := ⟨lit_one.1, by rw [lit_one.2]; simp⟩
theorem hi_inf (x : ℝ) : Hi (Rop.inf : T) x := ⟨inf_val.1, by rw [inf_val.2]; exact le_top⟩
theorem lo_neg_inf (x : ℝ) : Lo (Rop.neg Rop.inf : T) x := by
  refine ⟨fun h => inf_val.1 ((nan_neg _).1 h), ?_⟩
  rw [val_neg _ inf_val.1, inf_val.2]; simp

theorem Hi.neg {a : T} {x : ℝ} (h : Hi a x) : Lo (Rop.neg a) (-x) := by
  refine ⟨fun h' => h.1 ((nan_neg _).1 h'), ?_⟩
  rw [val_neg _ h.1, EReal.coe_neg]; exact EReal.neg_le_neg_iff.2 h.2
theorem Lo.neg {a : T} {x : ℝ} (h : Lo a x) : Hi (Rop.neg a) (-x) := by
  refine ⟨fun h' => h.1 ((nan_neg _).1 h'), ?_⟩
  rw [val_neg _ h.1, EReal.coe_neg]; exact EReal.neg_le_neg_iff.2 h.2

theorem le_zero_left {a : T} : le (lit 0) a = true ↔ ¬ nan a ∧ 0 ≤ val a := by
  rw [le_iff, lit_zero.2]; have := (lit_zero (T := T)).1; tauto
theorem le_zero_right {a : T} : le a (lit 0) = true ↔ ¬ nan a ∧ val a ≤ 0 := by
  rw [le_iff, lit_zero.2]; have := (lit_zero (T := T)).1; tauto
theorem lt_zero_left {a : T} : lt (lit 0) a = true ↔ ¬ nan a ∧ 0 < val a := by
  rw [lt_iff, lit_zero.2]; have := (lit_zero (T := T)).1; tauto
theorem lt_zero_right {a : T} : lt a (lit 0) = true ↔ ¬ nan a ∧ val a < 0 := by
  rw [lt_iff, lit_zero.2]; have := (lit_zero (T := T)).1; tauto
theorem eq_zero_right {a : T} : eq a (lit 0) = true ↔ ¬ nan a ∧ val a = 0 := by
  rw [eq_iff, lit_zero.2]; have := (lit_zero (T := T)).1; tauto

theorem Lo.add {a b : T} {x y : ℝ} (h1 : Lo a x) (h2 : Lo b y) : Lo (addDown a b) (x + y) := by
  obtain ⟨h, h'⟩ := add_down a b h1.1 h2.1 (fun h => h1.ne_top h.1) (fun h => h2.ne_top h.2)
  exact ⟨h, h'.trans (by rw [EReal.coe_add]; exact add_le_add h1.2 h2.2)⟩
theorem Hi.add {a b : T} {x y : ℝ} (h1 : Hi a x) (h2 : Hi b y) : Hi (addUp a b) (x + y) := by
  obtain ⟨h, h'⟩ := add_up a b h1.1 h2.1 (fun h => h2.ne_bot h.2) (fun h => h1.ne_bot h.1)
  exact ⟨h, le_trans (by rw [EReal.coe_add]; exact add_le_add h1.2 h2.2) h'⟩
theorem Lo.sub {a b : T} {x y : ℝ} (h1 : Lo a x) (h2 : Hi b y) : Lo (subDown a b) (x - y) := by
  obtain ⟨h, h'⟩ := sub_down a b h1.1 h2.1 (fun h => h1.ne_top h.1) (fun h => h2.ne_bot h.2)
  exact ⟨h, h'.trans (by rw [EReal.coe_sub]; exact EReal.sub_le_sub h1.2 h2.2)⟩
theorem Hi.sub {a b : T} {x y : ℝ} (h1 : Hi a x) (h2 : Lo b y) : Hi (subUp a b) (x - y) := by
  obtain ⟨h, h'⟩ := sub_up a b h1.1 h2.1 (fun h => h2.ne_top h.2) (fun h => h1.ne_bot h.1)
  exact ⟨h, le_trans (by rw [EReal.coe_sub]; exact EReal.sub_le_sub h1.2 h2.2) h'⟩

/-! ## multiplication: quadrant lemmas -/

/-- No `0 * ∞` in the product of `a` and `b`. -/
def NoZI (a b : EReal) : Prop := (a = 0 → b ≠ ⊤ ∧ b ≠ ⊥) ∧ (b = 0 → a ≠ ⊤ ∧ a ≠ ⊥)

theorem NoZI.of_ne {a b : EReal} (h1 : a ≠ 0) (h2 : b ≠ 0) : NoZI a b :=
  ⟨fun h => absurd h h1, fun h => absurd h h2⟩
theorem NoZI.of_fin {a b : EReal} (h1 : a ≠ ⊤ ∧ a ≠ ⊥) (h2 : b ≠ ⊤ ∧ b ≠ ⊥) : NoZI a b :=
  ⟨fun _ => h2, fun _ => h1⟩

theorem hi_mul {a b : T} (ha : ¬ nan a) (hb : ¬ nan b) (hz : NoZI (val a) (val b)) {z : ℝ}
    (h : (z : EReal) ≤ val a * val b) : Hi (mulUp a b) z :=
  let h' := mul_up a b ha hb hz.1 hz.2; ⟨h'.1, h.trans h'.2⟩
theorem lo_mul {a b : T} (ha : ¬ nan a) (hb : ¬ nan b) (hz : NoZI (val a) (val b)) {z : ℝ}
    (h : val a * val b ≤ (z : EReal)) : Lo (mulDown a b) z :=
  let h' := mul_down a b ha hb hz.1 hz.2; ⟨h'.1, h'.2.trans h⟩

theorem E_mul1 {x y : ℝ} {a b : EReal} (hx : 0 ≤ x) (hxa : (x : EReal) ≤ a) (hyb : (y : EReal) ≤ b)
    (hb : 0 ≤ b) : ((x * y : ℝ) : EReal) ≤ a * b := by
  rw [EReal.coe_mul]
  exact (mul_le_mul_of_nonneg_left hyb (by exact_mod_cast hx)).trans
    (mul_le_mul_of_nonneg_right hxa hb)

theorem E_mul2 {x y : ℝ} {a b : EReal} (ha : 0 ≤ a) (hax : a ≤ (x : EReal)) (hyb : (y : EReal) ≤ b)
    (hy : y ≤ 0) : ((x * y : ℝ) : EReal) ≤ a * b := by
  have e : ((x * y : ℝ) : EReal) = -((x : EReal) * ((-y : ℝ) : EReal)) := by
    rw [← EReal.coe_mul, ← EReal.coe_neg]; simp
  rw [e]
  refine EReal.neg_le_of_neg_le ?_
  calc -(a * b) = a * (-b) := by rw [mul_neg]
    _ ≤ a * ((-y : ℝ) : EReal) := mul_le_mul_of_nonneg_left
        (by rw [EReal.coe_neg]; exact EReal.neg_le_neg_iff.2 hyb) ha
    _ ≤ (x : EReal) * ((-y : ℝ) : EReal) := mul_le_mul_of_nonneg_right hax
        (by have : 0 ≤ -y := by linarith
            exact_mod_cast this)

theorem E_neg_mul {x y : ℝ} {a b : EReal} (h : (((-x) * y : ℝ) : EReal) ≤ (-a) * b) :
    a * b ≤ ((x * y : ℝ) : EReal) := by
  have := EReal.neg_le_neg_iff.2 h
  rw [EReal.neg_mul, neg_neg] at this
  have e : -(((-x * y : ℝ)) : EReal) = ((x * y : ℝ) : EReal) := by rw [← EReal.coe_neg]; simp
  rwa [e] at this

theorem E_mul1' {x y : ℝ} {a b : EReal} (hxa : (x : EReal) ≤ a) (ha : 0 ≤ a) (hy : 0 ≤ y)
    (hyb : (y : EReal) ≤ b) : ((x * y : ℝ) : EReal) ≤ a * b := by
  rw [mul_comm x, mul_comm a]; exact E_mul1 hy hyb hxa ha

theorem E_mul2' {x y : ℝ} {a b : EReal} (hxa : (x : EReal) ≤ a) (hx : x ≤ 0) (hb : 0 ≤ b)
    (hby : b ≤ (y : EReal)) : ((x * y : ℝ) : EReal) ≤ a * b := by
  rw [mul_comm x, mul_comm a]; exact E_mul2 hb hby hxa hx

theorem E_negle {x : ℝ} {a : EReal} (h : a ≤ (x : EReal)) : ((-x : ℝ) : EReal) ≤ -a := by
  rw [EReal.coe_neg]; exact EReal.neg_le_neg_iff.2 h
theorem E_negge {x : ℝ} {a : EReal} (h : (x : EReal) ≤ a) : -a ≤ ((-x : ℝ) : EReal) := by
  rw [EReal.coe_neg]; exact EReal.neg_le_neg_iff.2 h
theorem E_neg0 {a : EReal} (h : a ≤ 0) : 0 ≤ -a := by
  have := EReal.neg_le_neg_iff.2 h; simpa using this

theorem E_mul3 {x y : ℝ} {a b : EReal} (hx : x ≤ 0) (hax : a ≤ (x : EReal)) (hby : b ≤ (y : EReal))
    (hb : b ≤ 0) : ((x * y : ℝ) : EReal) ≤ a * b := by
  have := E_mul1 (x := -x) (y := -y) (a := -a) (b := -b) (by linarith) (E_negle hax) (E_negle hby)
    (E_neg0 hb)
  rwa [neg_mul_neg, neg_mul_neg] at this

theorem E_mul3' {x y : ℝ} {a b : EReal} (hax : a ≤ (x : EReal)) (ha : a ≤ 0) (hy : y ≤ 0)
    (hby : b ≤ (y : EReal)) : ((x * y : ℝ) : EReal) ≤ a * b := by
  rw [mul_comm x, mul_comm a]; exact E_mul3 hy hby hax ha

/-- lower bounds -/
theorem E_low1 {x y : ℝ} {a b : EReal} (hx : x ≤ 0) (hax : a ≤ (x : EReal)) (hyb : (y : EReal) ≤ b)
    (hb : 0 ≤ b) : a * b ≤ ((x * y : ℝ) : EReal) :=
  E_neg_mul (E_mul1 (by linarith) (E_negle hax) hyb hb)

theorem E_low1' {x y : ℝ} {a b : EReal} (hax : a ≤ (x : EReal)) (ha : a ≤ 0) (hy : 0 ≤ y)
    (hyb : (y : EReal) ≤ b) : a * b ≤ ((x * y : ℝ) : EReal) :=
  E_neg_mul (E_mul1' (E_negle hax) (E_neg0 ha) hy hyb)

theorem E_low2 {x y : ℝ} {a b : EReal} (hx : 0 ≤ x) (hxa : (x : EReal) ≤ a) (hby : b ≤ (y : EReal))
    (hb : b ≤ 0) : a * b ≤ ((x * y : ℝ) : EReal) := by
  rw [mul_comm x, mul_comm a]; exact E_low1' hby hb hx hxa

theorem E_low2' {x y : ℝ} {a b : EReal} (hxa : (x : EReal) ≤ a) (ha : 0 ≤ a) (hy : y ≤ 0)
    (hby : b ≤ (y : EReal)) : a * b ≤ ((x * y : ℝ) : EReal) := by
  rw [mul_comm x, mul_comm a]; exact E_low1 hy hby hxa ha

theorem E_low3 {x y : ℝ} {a b : EReal} (ha : 0 ≤ a) (hax : a ≤ (x : EReal)) (hby : b ≤ (y : EReal))
    (hy : 0 ≤ y) : a * b ≤ ((x * y : ℝ) : EReal) := by
  rw [EReal.coe_mul]
  exact (mul_le_mul_of_nonneg_left hby ha).trans
    (mul_le_mul_of_nonneg_right hax (by exact_mod_cast hy))

theorem E_low4 {x y : ℝ} {a b : EReal} (ha : a ≤ 0) (hxa : (x : EReal) ≤ a) (hyb : (y : EReal) ≤ b)
    (hy : y ≤ 0) : a * b ≤ ((x * y : ℝ) : EReal) := by
  have := E_low3 (x := -x) (y := -y) (a := -a) (b := -b) (E_neg0 ha) (E_negge hxa) (E_negge hyb)
    (by linarith)
  rwa [neg_mul_neg, neg_mul_neg] at this

theorem coe_nonneg {x : ℝ} {a : EReal} (h : 0 ≤ a) (h' : a ≤ (x : EReal)) : 0 ≤ x := by
  exact_mod_cast h.trans h'
theorem coe_nonpos {x : ℝ} {a : EReal} (h : a ≤ 0) (h' : (x : EReal) ≤ a) : x ≤ 0 := by
  exact_mod_cast h'.trans h
theorem fin_of {x : ℝ} {a : EReal} (h : 0 ≤ a) (h' : a ≤ (x : EReal)) : a ≠ ⊤ ∧ a ≠ ⊥ := by
  refine ⟨?_, ?_⟩ <;> rintro rfl <;> simp at h h'
theorem fin_of' {x : ℝ} {a : EReal} (h : a ≤ 0) (h' : (x : EReal) ≤ a) : a ≠ ⊤ ∧ a ≠ ⊥ := by
  refine ⟨?_, ?_⟩ <;> rintro rfl <;> simp at h h'

theorem not_le_zero_left {a : T} (h : ¬ le (lit 0) a = true) (hn : ¬ nan a) : val a < 0 := by
  rw [le_zero_left] at h; push Not at h; exact h hn
theorem not_le_zero_right {a : T} (h : ¬ le a (lit 0) = true) (hn : ¬ nan a) : 0 < val a := by
  rw [le_zero_right] at h; push Not at h; exact h hn
theorem not_eq_zero {a : T} (h : ¬ eq a (lit 0) = true) (hn : ¬ nan a) : val a ≠ 0 := by
  rw [eq_zero_right] at h; push Not at h; exact h hn
theorem not_lt_zero_left {a : T} (h : ¬ lt (lit 0) a = true) (hn : ¬ nan a) : val a ≤ 0 := by
  rw [lt_zero_left] at h; push Not at h; exact h hn
theorem not_lt_zero_right {a : T} (h : ¬ lt a (lit 0) = true) (hn : ¬ nan a) : 0 ≤ val a := by
  rw [lt_zero_right] at h; push Not at h; exact h hn

theorem lo_ite_min {a b : T} {x : ℝ} (h : Lo a x ∨ Lo b x) (ha : ¬ nan a) (hb : ¬ nan b) :
    Lo (if lt a b then a else b) x := by
  split_ifs with h1
  · rw [lt_iff] at h1
    rcases h with h | h
    · exact h
    · exact ⟨ha, h1.2.2.le.trans h.2⟩
  · rw [lt_iff] at h1; push Not at h1
    rcases h with h | h
    · exact ⟨hb, (h1 ha hb).trans h.2⟩
    · exact h
theorem hi_ite_max {a b : T} {x : ℝ} (h : Hi a x ∨ Hi b x) (ha : ¬ nan a) (hb : ¬ nan b) :
    Hi (if lt a b then b else a) x := by
  split_ifs with h1
  · rw [lt_iff] at h1
    rcases h with h | h
    · exact ⟨hb, h.2.trans h1.2.2.le⟩
    · exact h
  · rw [lt_iff] at h1; push Not at h1
    rcases h with h | h
    · exact h
    · exact ⟨ha, h.2.trans (h1 ha hb)⟩

theorem Interval.mem_zero {x : ℝ} (h : x = 0) : x ∈ (⟨lit 0, lit 0⟩ : Interval T) := by
  subst h; exact ⟨lo_zero, hi_zero⟩

theorem Interval.mul_mem {X Y : Interval T} {x y : ℝ} (hx : x ∈ X) (hy : y ∈ Y) :
    x * y ∈ Interval.mul X Y := by
  obtain ⟨⟨n1, a1⟩, n2, a2⟩ := hx
  obtain ⟨⟨m1, b1⟩, m2, b2⟩ := hy
  unfold Interval.mul
  split_ifs with h1 h2 h3 h4 h5 h6 h7 h8 h9 h10 h11 h12
  all_goals
    simp only [Interval.O] at *
  · -- x = 0
    rw [le_zero_left] at h1; rw [eq_zero_right] at h2
    apply Interval.mem_zero
    have : x = 0 := le_antisymm (coe_nonpos h2.2.le a2) (coe_nonneg h1.2 a1)
    simp [this]
  · rw [le_zero_left] at h3; rw [eq_zero_right] at h4
    apply Interval.mem_zero
    have : y = 0 := le_antisymm (coe_nonpos h4.2.le b2) (coe_nonneg h3.2 b1)
    simp [this]
  · rw [le_zero_left] at h1 h3
    have p := not_eq_zero h2 n2
    have q := not_eq_zero h4 m2
    exact ⟨lo_mul n1 m1 (.of_fin (fin_of h1.2 a1) (fin_of h3.2 b1))
        (E_low3 h1.2 a1 b1 (coe_nonneg h3.2 b1)),
      hi_mul n2 m2 (.of_ne p q)
        (E_mul1 (coe_nonneg h1.2 a1) a2 b2 ((h3.2.trans b1).trans b2))⟩
  · rw [le_zero_left] at h1
    rw [le_zero_right] at h5
    have p := not_eq_zero h2 n2
    have q := not_le_zero_left h3 m1
    exact ⟨lo_mul n2 m1 (.of_ne p q.ne) (E_low2 (coe_nonneg h1.2 a1) a2 b1 q.le),
      hi_mul n1 m2 (.of_fin (fin_of h1.2 a1) (fin_of' h5.2 b2))
        (E_mul2 h1.2 a1 b2 (coe_nonpos h5.2 b2))⟩
  · rw [le_zero_left] at h1
    have p := not_eq_zero h2 n2
    have q := not_le_zero_left h3 m1
    have r := not_le_zero_right h5 m2
    exact ⟨lo_mul n2 m1 (.of_ne p q.ne) (E_low2 (coe_nonneg h1.2 a1) a2 b1 q.le),
      hi_mul n2 m2 (.of_ne p r.ne') (E_mul1 (coe_nonneg h1.2 a1) a2 b2 r.le)⟩
  · rw [le_zero_left] at h7; rw [eq_zero_right] at h8
    apply Interval.mem_zero
    have : y = 0 := le_antisymm (coe_nonpos h8.2.le b2) (coe_nonneg h7.2 b1)
    simp [this]
  · rw [le_zero_right] at h6; rw [le_zero_left] at h7
    have p := not_le_zero_left h1 n1
    have q := not_eq_zero h8 m2
    exact ⟨lo_mul n1 m2 (.of_ne p.ne q) (E_low1 (coe_nonpos h6.2 a2) a1 b2 ((h7.2.trans b1).trans b2)),
      hi_mul n2 m1 (.of_fin (fin_of' h6.2 a2) (fin_of h7.2 b1))
        (E_mul2' a2 (coe_nonpos h6.2 a2) h7.2 b1)⟩
  · rw [le_zero_right] at h6 h9
    have p := not_le_zero_left h1 n1
    have q := not_le_zero_left h7 m1
    exact ⟨lo_mul n2 m2 (.of_fin (fin_of' h6.2 a2) (fin_of' h9.2 b2))
        (E_low4 h6.2 a2 b2 (coe_nonpos h9.2 b2)),
      hi_mul n1 m1 (.of_ne p.ne q.ne) (E_mul3 (coe_nonpos h6.2 a2) a1 b1 q.le)⟩
  · rw [le_zero_right] at h6
    have p := not_le_zero_left h1 n1
    have q := not_le_zero_left h7 m1
    have r := not_le_zero_right h9 m2
    exact ⟨lo_mul n1 m2 (.of_ne p.ne r.ne') (E_low1 (coe_nonpos h6.2 a2) a1 b2 r.le),
      hi_mul n1 m1 (.of_ne p.ne q.ne) (E_mul3 (coe_nonpos h6.2 a2) a1 b1 q.le)⟩
  · rw [le_zero_left] at h10; rw [eq_zero_right] at h11
    apply Interval.mem_zero
    have : y = 0 := le_antisymm (coe_nonpos h11.2.le b2) (coe_nonneg h10.2 b1)
    simp [this]
  · rw [le_zero_left] at h10
    have p := not_le_zero_left h1 n1
    have q := not_le_zero_right h6 n2
    have r := not_eq_zero h11 m2
    exact ⟨lo_mul n1 m2 (.of_ne p.ne r) (E_low1' a1 p.le (coe_nonneg h10.2 b1) b2),
      hi_mul n2 m2 (.of_ne q.ne' r) (E_mul1' a2 q.le (coe_nonneg h10.2 b1) b2)⟩
  · rw [le_zero_right] at h12
    have p := not_le_zero_left h1 n1
    have q := not_le_zero_right h6 n2
    have r := not_le_zero_left h10 m1
    exact ⟨lo_mul n2 m1 (.of_ne q.ne' r.ne) (E_low2' a2 q.le (coe_nonpos h12.2 b2) b1),
      hi_mul n1 m1 (.of_ne p.ne r.ne) (E_mul3' a1 p.le (coe_nonpos h12.2 b2) b1)⟩
  · have p := not_le_zero_left h1 n1
    have q := not_le_zero_right h6 n2
    have r := not_le_zero_left h10 m1
    have s := not_le_zero_right h12 m2
    have k1 := mul_down _ _ n1 m2 (NoZI.of_ne p.ne s.ne').1 (NoZI.of_ne p.ne s.ne').2
    have k2 := mul_down _ _ n2 m1 (NoZI.of_ne q.ne' r.ne).1 (NoZI.of_ne q.ne' r.ne).2
    have k3 := mul_up _ _ n1 m1 (NoZI.of_ne p.ne r.ne).1 (NoZI.of_ne p.ne r.ne).2
    have k4 := mul_up _ _ n2 m2 (NoZI.of_ne q.ne' s.ne').1 (NoZI.of_ne q.ne' s.ne').2
    refine ⟨lo_ite_min ?_ k2.1 k1.1, hi_ite_max ?_ k3.1 k4.1⟩
    · rcases le_total 0 x with h | h
      · exact Or.inl ⟨k2.1, k2.2.trans (E_low2 h a2 b1 r.le)⟩
      · exact Or.inr ⟨k1.1, k1.2.trans (E_low1 h a1 b2 s.le)⟩
    · rcases le_total 0 x with h | h
      · exact Or.inr ⟨k4.1, (E_mul1 h a2 b2 s.le).trans k4.2⟩
      · exact Or.inl ⟨k3.1, (E_mul3 h a1 b1 r.le).trans k3.2⟩

/-- Scalar times interval: `c` is the real value of the scalar. -/
theorem Interval.mulS_mem {X : Interval T} {k : T} {x c : ℝ} (hx : x ∈ X)
    (hk : ¬ nan k ∧ val k = c) : x * c ∈ Interval.mulS X k := by
  obtain ⟨⟨n1, a1⟩, n2, a2⟩ := hx
  obtain ⟨n, hc⟩ := hk
  have hf : val k ≠ ⊤ ∧ val k ≠ ⊥ := by rw [hc]; simp
  unfold Interval.mulS
  split_ifs with h1 h2 <;> simp only [Interval.O] at *
  · rw [lt_zero_left] at h1
    have hc0 : 0 ≤ c := by have := h1.2; rw [hc] at this; exact_mod_cast this.le
    have z : NoZI (val X.inf) (val k) := ⟨fun _ => hf, fun h => absurd h h1.2.ne'⟩
    have z' : NoZI (val X.sup) (val k) := ⟨fun _ => hf, fun h => absurd h h1.2.ne'⟩
    refine ⟨lo_mul n1 n z ?_, hi_mul n2 n z' ?_⟩
    · rw [hc, EReal.coe_mul]; exact mul_le_mul_of_nonneg_right a1 (by exact_mod_cast hc0)
    · rw [hc, EReal.coe_mul]; exact mul_le_mul_of_nonneg_right a2 (by exact_mod_cast hc0)
  · rw [lt_zero_right] at h2
    have hc0 : c ≤ 0 := by have := h2.2; rw [hc] at this; exact_mod_cast this.le
    have z : NoZI (val X.inf) (val k) := ⟨fun _ => hf, fun h => absurd h h2.2.ne⟩
    have z' : NoZI (val X.sup) (val k) := ⟨fun _ => hf, fun h => absurd h h2.2.ne⟩
    have key : ∀ a b : EReal, a ≤ b → b * (c : EReal) ≤ a * (c : EReal) := by
      intro a b hab
      have e : ∀ t : EReal, t * (c : EReal) = -(t * ((-c : ℝ) : EReal)) := by
        intro t; rw [EReal.coe_neg, mul_neg, neg_neg]
      rw [e a, e b, EReal.neg_le_neg_iff]
      exact mul_le_mul_of_nonneg_right hab (by have : 0 ≤ -c := by linarith
                                               exact_mod_cast this)
    refine ⟨lo_mul n2 n z' ?_, hi_mul n1 n z ?_⟩
    · rw [hc, EReal.coe_mul]; exact key _ _ a2
    · rw [hc, EReal.coe_mul]; exact key _ _ a1
  · have p := not_lt_zero_left h1 n
    have q := not_lt_zero_right h2 n
    have : c = 0 := by
      have := le_antisymm p q; rw [hc] at this; exact_mod_cast this
    exact Interval.mem_zero (by simp [this])

theorem Interval.sMul_mem {X : Interval T} {k : T} {x c : ℝ} (hx : x ∈ X)
    (hk : ¬ nan k ∧ val k = c) : c * x ∈ Interval.sMul k X := by
  obtain ⟨⟨n1, a1⟩, n2, a2⟩ := hx
  obtain ⟨n, hc⟩ := hk
  have hf : val k ≠ ⊤ ∧ val k ≠ ⊥ := by rw [hc]; simp
  unfold Interval.sMul
  split_ifs with h1 h2 <;> simp only [Interval.O] at *
  · rw [lt_zero_left] at h1
    have hc0 : 0 ≤ c := by have := h1.2; rw [hc] at this; exact_mod_cast this.le
    have z : NoZI (val k) (val X.inf) := ⟨fun h => absurd h h1.2.ne', fun _ => hf⟩
    have z' : NoZI (val k) (val X.sup) := ⟨fun h => absurd h h1.2.ne', fun _ => hf⟩
    refine ⟨lo_mul n n1 z ?_, hi_mul n n2 z' ?_⟩
    · rw [hc, EReal.coe_mul]; exact mul_le_mul_of_nonneg_left a1 (by exact_mod_cast hc0)
    · rw [hc, EReal.coe_mul]; exact mul_le_mul_of_nonneg_left a2 (by exact_mod_cast hc0)
  · rw [lt_zero_right] at h2
    have hc0 : c ≤ 0 := by have := h2.2; rw [hc] at this; exact_mod_cast this.le
    have z : NoZI (val k) (val X.inf) := ⟨fun h => absurd h h2.2.ne, fun _ => hf⟩
    have z' : NoZI (val k) (val X.sup) := ⟨fun h => absurd h h2.2.ne, fun _ => hf⟩
    have key : ∀ a b : EReal, a ≤ b → (c : EReal) * b ≤ (c : EReal) * a := by
      intro a b hab
      have e : ∀ t : EReal, (c : EReal) * t = -(((-c : ℝ) : EReal) * t) := by
        intro t; rw [EReal.coe_neg, neg_mul, neg_neg]
      rw [e a, e b, EReal.neg_le_neg_iff]
      exact mul_le_mul_of_nonneg_left hab (by have : 0 ≤ -c := by linarith
                                              exact_mod_cast this)
    refine ⟨lo_mul n n2 z' ?_, hi_mul n n1 z ?_⟩
    · rw [hc, EReal.coe_mul]; exact key _ _ a2
    · rw [hc, EReal.coe_mul]; exact key _ _ a1
  · have p := not_lt_zero_left h1 n
    have q := not_lt_zero_right h2 n
    have : c = 0 := by
      have := le_antisymm p q; rw [hc] at this; exact_mod_cast this
    exact Interval.mem_zero (by simp [this])

end Kv
