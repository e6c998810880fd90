import Verif.Interval.Mem
import Mathlib.Algebra.Order.Ring.Abs

/-! # Helper lemmas: division, square root, extended division, integer power -/

namespace Kv
open Rop RopSem

variable {T : Type} [RopSem T]

/-! ## inverses -/

theorem E_inv_le {y : ℝ} {b : EReal} (hb : 0 < b) (h : b ≤ (y : EReal)) :
    ((y⁻¹ : ℝ) : EReal) ≤ b⁻¹ := by
  induction b with
  | bot => simp at hb
  | top => simp at h
  | coe b =>
    rw [← EReal.coe_inv, EReal.coe_le_coe_iff]
    have hb' : 0 < b := by exact_mod_cast hb
    exact inv_anti₀ hb' (by exact_mod_cast h)

theorem E_le_inv {y : ℝ} {b : EReal} (hy : 0 < y) (h : (y : EReal) ≤ b) :
    b⁻¹ ≤ ((y⁻¹ : ℝ) : EReal) := by
  induction b with
  | bot => simp at h
  | top => simp only [EReal.inv_top]; exact_mod_cast (inv_pos.2 hy).le
  | coe b =>
    rw [← EReal.coe_inv, EReal.coe_le_coe_iff]
    exact inv_anti₀ hy (by exact_mod_cast h)

theorem E_inv_le' {y : ℝ} {b : EReal} (hy : y < 0) (h : b ≤ (y : EReal)) :
    ((y⁻¹ : ℝ) : EReal) ≤ b⁻¹ := by
  have := E_le_inv (y := -y) (b := -b) (by linarith) (E_negle h)
  rw [EReal.inv_neg, inv_neg, EReal.coe_neg] at this
  exact EReal.neg_le_neg_iff.1 this

theorem E_le_inv' {y : ℝ} {b : EReal} (hb : b < 0) (h : (y : EReal) ≤ b) :
    b⁻¹ ≤ ((y⁻¹ : ℝ) : EReal) := by
  have := E_inv_le (y := -y) (b := -b) (by rw [← neg_zero, EReal.neg_lt_neg_iff]; exact hb) (E_negge h)
  rw [EReal.inv_neg, inv_neg, EReal.coe_neg] at this
  exact EReal.neg_le_neg_iff.1 this

/-- No `∞ / ∞` and no division by zero. -/
def OkDiv (a b : EReal) : Prop := b ≠ 0 ∧ ((a = ⊤ ∨ a = ⊥) → b ≠ ⊤ ∧ b ≠ ⊥)

theorem hi_div {a b : T} (ha : ¬ nan a) (hb : ¬ nan b) (hz : OkDiv (val a) (val b)) {x w : ℝ}
    (h : ((x * w⁻¹ : ℝ) : EReal) ≤ val a * (val b)⁻¹) : Hi (divUp a b) (x / w) :=
  let h' := div_up a b ha hb hz.1 hz.2
  ⟨h'.1, by rw [div_eq_mul_inv]; exact h.trans (by rw [← div_eq_mul_inv]; exact h'.2)⟩
theorem lo_div {a b : T} (ha : ¬ nan a) (hb : ¬ nan b) (hz : OkDiv (val a) (val b)) {x w : ℝ}
    (h : val a * (val b)⁻¹ ≤ ((x * w⁻¹ : ℝ) : EReal)) : Lo (divDown a b) (x / w) :=
  let h' := div_down a b ha hb hz.1 hz.2
  ⟨h'.1, by rw [div_eq_mul_inv]; exact le_trans (by rw [← div_eq_mul_inv]; exact h'.2) h⟩

theorem OkDiv.of_fin_num {a b : EReal} (h : a ≠ ⊤ ∧ a ≠ ⊥) (hb : b ≠ 0) : OkDiv a b :=
  ⟨hb, fun h' => by rcases h' with h' | h' <;> simp [h'] at h⟩
theorem OkDiv.of_fin_den {a b : EReal} (h : b ≠ ⊤ ∧ b ≠ ⊥) (hb : b ≠ 0) : OkDiv a b :=
  ⟨hb, fun _ => h⟩

theorem E_pos_of {y : ℝ} {b : EReal} (hb : 0 < b) (h : b ≤ (y : EReal)) : 0 < y := by
  exact_mod_cast hb.trans_le h
theorem E_neg_of {y : ℝ} {b : EReal} (hb : b < 0) (h : (y : EReal) ≤ b) : y < 0 := by
  exact_mod_cast h.trans_lt hb

/-! the eight one-sided quotient bounds -/

section
variable {a b : T} {x y : ℝ}

/-- `0 ≤ a ≤ x`, `0 < y ≤ b`: `a/b` is a lower bound -/
theorem div_lo_pp (ha : Lo a x) (ha0 : 0 ≤ val a) (hy : 0 < y) (hb : Hi b y) :
    Lo (divDown a b) (x / y) := by
  have hb0 : 0 < val b := lt_of_lt_of_le (by exact_mod_cast hy) hb.2
  exact lo_div ha.1 hb.1 (.of_fin_num (fin_of ha0 ha.2) hb0.ne')
    (E_low3 ha0 ha.2 (E_le_inv hy hb.2) (inv_pos.2 hy).le)

/-- `0 ≤ x ≤ a`, `0 < b ≤ y`: `a/b` is an upper bound -/
theorem div_hi_pp (hx : 0 ≤ x) (ha : Hi a x) (hb : Lo b y) (hb0 : 0 < val b) :
    Hi (divUp a b) (x / y) :=
  hi_div ha.1 hb.1 (.of_fin_den (fin_of hb0.le hb.2) hb0.ne')
    (E_mul1 hx ha.2 (E_inv_le hb0 hb.2) (EReal.inv_nonneg_of_nonneg hb0.le))

/-- `a ≤ x`, `a ≤ 0`, `0 < b ≤ y`: `a/b` is a lower bound -/
theorem div_lo_np (ha : Lo a x) (ha0 : val a ≤ 0) (hb : Lo b y) (hb0 : 0 < val b) :
    Lo (divDown a b) (x / y) := by
  have hy := E_pos_of hb0 hb.2
  exact lo_div ha.1 hb.1 (.of_fin_den (fin_of hb0.le hb.2) hb0.ne')
    (E_low1' ha.2 ha0 (inv_pos.2 hy).le (E_inv_le hb0 hb.2))

/-- `x ≤ a`, `0 ≤ a`, `0 < b ≤ y`: `a/b` is an upper bound -/
theorem div_hi_pp' (ha : Hi a x) (ha0 : 0 ≤ val a) (hb : Lo b y) (hb0 : 0 < val b) :
    Hi (divUp a b) (x / y) := by
  have hy := E_pos_of hb0 hb.2
  exact hi_div ha.1 hb.1 (.of_fin_den (fin_of hb0.le hb.2) hb0.ne')
    (E_mul1' ha.2 ha0 (inv_pos.2 hy).le (E_inv_le hb0 hb.2))

/-- `x ≤ a ≤ 0`, `0 < y ≤ b`: `a/b` is an upper bound -/
theorem div_hi_np (ha : Hi a x) (ha0 : val a ≤ 0) (hy : 0 < y) (hb : Hi b y) :
    Hi (divUp a b) (x / y) := by
  have hb0 : 0 < val b := lt_of_lt_of_le (by exact_mod_cast hy) hb.2
  exact hi_div ha.1 hb.1 (.of_fin_num (fin_of' ha0 ha.2) hb0.ne')
    (E_mul2' ha.2 (coe_nonpos ha0 ha.2) (EReal.inv_nonneg_of_nonneg hb0.le) (E_le_inv hy hb.2))

/-- `x ≤ a`, `0 ≤ a`, `y ≤ b < 0`: `a/b` is a lower bound -/
theorem div_lo_pn (ha : Hi a x) (ha0 : 0 ≤ val a) (hb : Hi b y) (hb0 : val b < 0) :
    Lo (divDown a b) (x / y) := by
  have hy := E_neg_of hb0 hb.2
  exact lo_div ha.1 hb.1 (.of_fin_den (fin_of' hb0.le hb.2) hb0.ne)
    (E_low2' ha.2 ha0 (inv_neg''.2 hy).le (E_le_inv' hb0 hb.2))

/-- `0 ≤ a ≤ x`, `b ≤ y < 0`: `a/b` is an upper bound -/
theorem div_hi_pn (ha : Lo a x) (ha0 : 0 ≤ val a) (hy : y < 0) (hb : Lo b y) :
    Hi (divUp a b) (x / y) := by
  have hb0 : val b < 0 := lt_of_le_of_lt hb.2 (by exact_mod_cast hy)
  exact hi_div ha.1 hb.1 (.of_fin_num (fin_of ha0 ha.2) hb0.ne)
    (E_mul2 ha0 ha.2 (E_inv_le' hy hb.2) (inv_neg''.2 hy).le)

/-- `x ≤ a ≤ 0`, `b ≤ y < 0`: `a/b` is a lower bound -/
theorem div_lo_nn (ha : Hi a x) (ha0 : val a ≤ 0) (hy : y < 0) (hb : Lo b y) :
    Lo (divDown a b) (x / y) := by
  have hb0 : val b < 0 := lt_of_le_of_lt hb.2 (by exact_mod_cast hy)
  exact lo_div ha.1 hb.1 (.of_fin_num (fin_of' ha0 ha.2) hb0.ne)
    (E_low4 ha0 ha.2 (E_inv_le' hy hb.2) (inv_neg''.2 hy).le)

/-- `a ≤ x`, `a ≤ 0`, `y ≤ b < 0`: `a/b` is an upper bound -/
theorem div_hi_nn (ha : Lo a x) (ha0 : val a ≤ 0) (hb : Hi b y) (hb0 : val b < 0) :
    Hi (divUp a b) (x / y) := by
  have hy := E_neg_of hb0 hb.2
  exact hi_div ha.1 hb.1 (.of_fin_den (fin_of' hb0.le hb.2) hb0.ne)
    (E_mul3' ha.2 ha0 (inv_neg''.2 hy).le (E_le_inv' hb0 hb.2))
end

namespace Interval

theorem div_mem {X Y Z : Interval T} {x y : ℝ} (h : div X Y = .ok Z) (hx : x ∈ X) (hy : y ∈ Y) :
    x / y ∈ Z := by
  obtain ⟨a1, a2⟩ := hx
  obtain ⟨b1, b2⟩ := hy
  unfold div at h
  simp only [O] at h
  split_ifs at h with h1 h2 h3 h4 h5 h6 <;> simp only [Except.ok.injEq] at h <;> subst h
  · rw [lt_zero_left] at h1; rw [le_zero_left] at h2
    have hy := E_pos_of h1.2 b1.2
    exact ⟨div_lo_pp a1 h2.2 hy b2, div_hi_pp (coe_nonneg h2.2 a1.2) a2 b1 h1.2⟩
  · rw [lt_zero_left] at h1; rw [le_zero_right] at h3
    have p := not_le_zero_left h2 a1.1
    have hy := E_pos_of h1.2 b1.2
    exact ⟨div_lo_np a1 p.le b1 h1.2, div_hi_np a2 h3.2 hy b2⟩
  · rw [lt_zero_left] at h1
    have p := not_le_zero_left h2 a1.1
    have q := not_le_zero_right h3 a2.1
    exact ⟨div_lo_np a1 p.le b1 h1.2, div_hi_pp' a2 q.le b1 h1.2⟩
  · rw [lt_zero_right] at h4; rw [le_zero_left] at h5
    have hy := E_neg_of h4.2 b2.2
    exact ⟨div_lo_pn a2 ((h5.2.trans a1.2).trans a2.2) b2 h4.2, div_hi_pn a1 h5.2 hy b1⟩
  · rw [lt_zero_right] at h4; rw [le_zero_right] at h6
    have p := not_le_zero_left h5 a1.1
    have hy := E_neg_of h4.2 b2.2
    exact ⟨div_lo_nn a2 h6.2 hy b1, div_hi_nn a1 p.le b2 h4.2⟩
  · rw [lt_zero_right] at h4
    have p := not_le_zero_left h5 a1.1
    have q := not_le_zero_right h6 a2.1
    exact ⟨div_lo_pn a2 q.le b2 h4.2, div_hi_nn a1 p.le b2 h4.2⟩

theorem point_mem {k : T} {c : ℝ} (hk : ¬ nan k ∧ val k = c) : c ∈ point k :=
  ⟨⟨hk.1, hk.2.le⟩, hk.1, hk.2.ge⟩

theorem divS_mem {X Z : Interval T} {k : T} {x c : ℝ} (h : divS X k = .ok Z) (hx : x ∈ X)
    (hk : ¬ nan k ∧ val k = c) : x / c ∈ Z := by
  obtain ⟨a1, a2⟩ := hx
  have lk : Lo k c := ⟨hk.1, hk.2.le⟩
  have hk' : Hi k c := ⟨hk.1, hk.2.ge⟩
  unfold divS at h
  simp only [O] at h
  have key : ∀ t : T, val t ≤ 0 ∨ 0 ≤ val t := fun t => le_total _ _
  split_ifs at h with h1 h2 <;> simp only [Except.ok.injEq] at h <;> subst h
  · rw [lt_zero_left] at h1
    have hc : 0 < c := E_pos_of h1.2 lk.2
    refine ⟨?_, ?_⟩
    · rcases key X.inf with h | h
      · exact div_lo_np a1 h lk h1.2
      · exact div_lo_pp a1 h hc hk'
    · rcases key X.sup with h | h
      · exact div_hi_np a2 h hc hk'
      · exact div_hi_pp' a2 h lk h1.2
  · rw [lt_zero_right] at h2
    have hc : c < 0 := E_neg_of h2.2 hk'.2
    refine ⟨?_, ?_⟩
    · rcases key X.sup with h | h
      · exact div_lo_nn a2 h hc lk
      · exact div_lo_pn a2 h hk' h2.2
    · rcases key X.inf with h | h
      · exact div_hi_nn a1 h hk' h2.2
      · exact div_hi_pn a1 h hc lk

theorem sDiv_mem {Y Z : Interval T} {k : T} {y c : ℝ} (h : sDiv k Y = .ok Z) (hy : y ∈ Y)
    (hk : ¬ nan k ∧ val k = c) : c / y ∈ Z := by
  obtain ⟨b1, b2⟩ := hy
  have lk : Lo k c := ⟨hk.1, hk.2.le⟩
  have hk' : Hi k c := ⟨hk.1, hk.2.ge⟩
  unfold sDiv at h
  simp only [O] at h
  split_ifs at h with h1 h2 <;> simp only [Except.ok.injEq] at h <;> subst h
  · rw [le_zero_left] at h2
    have hc : 0 ≤ c := coe_nonneg h2.2 lk.2
    rw [Bool.or_eq_true, lt_zero_left, lt_zero_right] at h1
    rcases h1 with h1 | h1
    · exact ⟨div_lo_pp lk h2.2 (E_pos_of h1.2 b1.2) b2, div_hi_pp hc hk' b1 h1.2⟩
    · exact ⟨div_lo_pn hk' h2.2 b2 h1.2, div_hi_pn lk h2.2 (E_neg_of h1.2 b2.2) b1⟩
  · have p := not_le_zero_left h2 hk.1
    rw [Bool.or_eq_true, lt_zero_left, lt_zero_right] at h1
    rcases h1 with h1 | h1
    · exact ⟨div_lo_np lk p.le b1 h1.2, div_hi_np hk' p.le (E_pos_of h1.2 b1.2) b2⟩
    · exact ⟨div_lo_nn hk' p.le (E_neg_of h1.2 b2.2) b1, div_hi_nn lk p.le b2 h1.2⟩

theorem sqrt_mem {X Z : Interval T} {x : ℝ} (h : sqrt X = .ok Z) (hx : x ∈ X) :
    Real.sqrt x ∈ Z := by
  obtain ⟨a1, a2⟩ := hx
  unfold sqrt at h
  simp only [O] at h
  split_ifs at h with h1; simp only [Except.ok.injEq] at h; subst h
  have p := not_lt_zero_right h1 a1.1
  have hx := coe_nonneg p a1.2
  have q : 0 ≤ val X.sup := le_trans (by exact_mod_cast hx) a2.2
  exact ⟨⟨(sqrt_down _ a1.1 p).1, (sqrt_down _ a1.1 p).2 x a1.2⟩,
    ⟨(sqrt_up _ a2.1 q).1, (sqrt_up _ a2.1 q).2 x a2.2⟩⟩

theorem divisionPart_mem {X Y Z1 Z2 : Interval T} {p : Bool} {x y : ℝ}
    (h1 : divisionPart1 X Y = .ok (Z1, p)) (h2 : divisionPart2 X Y = .ok Z2)
    (hx : x ∈ X) (hy : y ∈ Y) (hy0 : y ≠ 0) : x / y ∈ Z1 ∨ (p = true ∧ x / y ∈ Z2) := by
  have ⟨a1, a2⟩ := hx
  have ⟨b1, b2⟩ := hy
  unfold divisionPart1 at h1
  unfold divisionPart2 at h2
  simp only [O] at h1 h2
  split_ifs at h1 with c1 c2 c3 c4 c5 c6 c7 c8 c9 c10 c11 c12 c13
  · cases hd : div X Y with
    | error e => rw [hd] at h1; cases h1
    | ok Z =>
      rw [hd] at h1; cases h1
      exact Or.inl (div_mem hd hx hy)
  all_goals
    simp only [c1, c2, c3] at h2
    simp only [Bool.false_eq_true, if_false, if_true] at h2
  all_goals
    cases h1
  all_goals
    simp only [Bool.or_eq_true, Bool.and_eq_true, lt_zero_left, lt_zero_right, eq_zero_right,
      le_zero_left, le_zero_right, a1.1, a2.1, b1.1, b2.1, not_false_iff, true_and] at *
  -- Y = [neg, 0]
  · have : x = 0 := le_antisymm (coe_nonpos c4.2.le a2.2) (coe_nonneg c4.1.ge a1.2)
    exact Or.inl (mem_zero (by simp [this]))
  · have hy' : y < 0 := lt_of_le_of_ne (coe_nonpos c3.2.le b2.2) hy0
    exact Or.inl ⟨lo_neg_inf _, div_hi_pn a1 c5 hy' b1⟩
  · have hy' : y < 0 := lt_of_le_of_ne (coe_nonpos c3.2.le b2.2) hy0
    exact Or.inl ⟨div_lo_nn a2 c6 hy' b1, hi_inf _⟩
  · exact Or.inl ⟨lo_neg_inf _, hi_inf _⟩
  -- Y = [0, pos]
  · have : x = 0 := le_antisymm (coe_nonpos c8.2.le a2.2) (coe_nonneg c8.1.ge a1.2)
    exact Or.inl (mem_zero (by simp [this]))
  · have hy' : 0 < y := lt_of_le_of_ne (coe_nonneg c7.1.ge b1.2) hy0.symm
    exact Or.inl ⟨div_lo_pp a1 c9 hy' b2, hi_inf _⟩
  · have hy' : 0 < y := lt_of_le_of_ne (coe_nonneg c7.1.ge b1.2) hy0.symm
    exact Or.inl ⟨lo_neg_inf _, div_hi_np a2 c10 hy' b2⟩
  · exact Or.inl ⟨lo_neg_inf _, hi_inf _⟩
  -- zero strictly inside
  · have : x = 0 := le_antisymm (coe_nonpos c11.2.le a2.2) (coe_nonneg c11.1.ge a1.2)
    exact Or.inl (mem_zero (by simp [this]))
  · rcases lt_or_gt_of_ne hy0 with hy' | hy'
    · exact Or.inl ⟨lo_neg_inf _, div_hi_pn a1 c12.le hy' b1⟩
    · rw [if_neg c7, if_neg c11, if_pos c12] at h2
      cases h2
      exact Or.inr ⟨div_lo_pp a1 c12.le hy' b2, hi_inf _⟩
  · rcases lt_or_gt_of_ne hy0 with hy' | hy'
    · rw [if_neg c7, if_neg c11, if_neg c12, if_pos c13] at h2
      cases h2
      exact Or.inr ⟨div_lo_nn a2 c13.le hy' b1, hi_inf _⟩
    · exact Or.inl ⟨lo_neg_inf _, div_hi_np a2 c13.le hy' b2⟩
  · exact Or.inl ⟨lo_neg_inf _, hi_inf _⟩

/-! ## integer power -/

theorem powLoop_mem (n : ℕ) : ∀ {R X : Interval T} {r x : ℝ}, r ∈ R → x ∈ X →
    r * x ^ n ∈ powLoop R X n := by
  induction n using Nat.strong_induction_on with
  | _ n ih =>
    intro R X r x hr hx
    unfold powLoop
    split_ifs with h h2
    · subst h; simpa using hr
    · have := ih (n / 2) (by omega) (mul_mem hr hx) (mul_mem hx hx)
      have e : r * x * (x * x) ^ (n / 2) = r * x ^ n := by
        have : n = 2 * (n / 2) + 1 := by omega
        conv_rhs => rw [this, pow_succ, pow_mul]
        ring
      rwa [e] at this
    · have := ih (n / 2) (by omega) hr (mul_mem hx hx)
      have e : r * (x * x) ^ (n / 2) = r * x ^ n := by
        have : n = 2 * (n / 2) := by omega
        conv_rhs => rw [this, pow_mul]
        ring
      rwa [e] at this

theorem one_mem : (1 : ℝ) ∈ point (lit 1 : T) := ⟨lo_one, hi_one⟩

theorem powPoint_mem {k : T} {c : ℝ} (hk : ¬ nan k ∧ val k = c) (n : ℕ) :
    c ^ n ∈ powPoint k n := by
  have := powLoop_mem n (one_mem (T := T)) (point_mem hk)
  rwa [one_mul] at this

/-- Both ends are non-NaN and have the same extended value `s`. -/
def IsPt (I : Interval T) (s : EReal) : Prop :=
  ¬ nan I.inf ∧ ¬ nan I.sup ∧ val I.inf = s ∧ val I.sup = s

theorem IsPt.mul {I J : Interval T} {a b : EReal} (hI : IsPt I a) (hJ : IsPt J b) (ha : a ≠ 0)
    (hb : b ≠ 0) (hi : a = ⊤ ∨ a = ⊥ ∨ b = ⊤ ∨ b = ⊥) : IsPt (mul I J) (a * b) := by
  obtain ⟨n1, n2, v1, v2⟩ := hI
  obtain ⟨m1, m2, w1, w2⟩ := hJ
  have P : ∀ x y : T, ¬ nan x → ¬ nan y → val x = a → val y = b →
      (¬ nan (mulDown x y) ∧ val (mulDown x y) = a * b) ∧
      (¬ nan (mulUp x y) ∧ val (mulUp x y) = a * b) := by
    intro x y hx hy ex ey
    have hx0 : val x ≠ 0 := by rw [ex]; exact ha
    have hy0 : val y ≠ 0 := by rw [ey]; exact hb
    have z := NoZI.of_ne hx0 hy0
    have hm := mul_inf x y hx hy hx0 hy0 (by rw [ex, ey]; exact hi)
    rw [ex, ey] at hm
    exact ⟨⟨(mul_down x y hx hy z.1 z.2).1, hm.2⟩, (mul_up x y hx hy z.1 z.2).1, hm.1⟩
  have p11 := P _ _ n1 m1 v1 w1
  have p12 := P _ _ n1 m2 v1 w2
  have p21 := P _ _ n2 m1 v2 w1
  have p22 := P _ _ n2 m2 v2 w2
  unfold Interval.mul
  have z1 : ¬ eq I.sup (O : T) = true := by rw [eq_zero_right, v2]; tauto
  have z2 : ¬ eq J.sup (O : T) = true := by rw [eq_zero_right, w2]; tauto
  rw [if_neg z1, if_neg z2]
  have key : ∀ x y x' y' : T, (¬ nan (mulDown x y) ∧ val (mulDown x y) = a * b) →
      (¬ nan (mulUp x' y') ∧ val (mulUp x' y') = a * b) →
      IsPt (⟨mulDown x y, mulUp x' y'⟩ : Interval T) (a * b) :=
    fun x y x' y' h h' => ⟨h.1, h'.1, h.2, h'.2⟩
  have last : IsPt (⟨if lt (mulDown I.sup J.inf) (mulDown I.inf J.sup) then mulDown I.sup J.inf
        else mulDown I.inf J.sup,
      if lt (mulUp I.inf J.inf) (mulUp I.sup J.sup) then mulUp I.sup J.sup
        else mulUp I.inf J.inf⟩ : Interval T) (a * b) := by
    refine ⟨?_, ?_, ?_, ?_⟩ <;> dsimp only <;> split_ifs
    · exact p21.1.1
    · exact p12.1.1
    · exact p22.2.1
    · exact p11.2.1
    · exact p21.1.2
    · exact p12.1.2
    · exact p22.2.2
    · exact p11.2.2
  split_ifs
  · exact key _ _ _ _ p11.1 p22.2
  · exact key _ _ _ _ p21.1 p12.2
  · exact key _ _ _ _ p21.1 p22.2
  · exact key _ _ _ _ p12.1 p21.2
  · exact key _ _ _ _ p22.1 p11.2
  · exact key _ _ _ _ p12.1 p11.2
  · exact key _ _ _ _ p12.1 p22.2
  · exact key _ _ _ _ p21.1 p11.2
  · exact last

/-- an infinite point multiplied in: signs only -/
theorem powLoop_inf (n : ℕ) : ∀ {R X : Interval T} {s v : EReal}, n ≠ 0 → IsPt R s → IsPt X v →
    (s = 1 ∨ s = ⊤ ∨ s = ⊥) → (v = ⊤ ∨ v = ⊥) →
    IsPt (powLoop R X n) (if n % 2 = 0 then s * ⊤ else s * v) := by
  induction n using Nat.strong_induction_on with
  | _ n ih =>
    intro R X s v hn hR hX hs hv
    have hs0 : s ≠ 0 := by rcases hs with h | h | h <;> rw [h] <;> simp
    have hv0 : v ≠ 0 := by rcases hv with h | h <;> rw [h] <;> simp
    have hvv : v * v = ⊤ := by rcases hv with h | h <;> rw [h] <;> simp
    have hvi : v = ⊤ ∨ v = ⊥ ∨ v = ⊤ ∨ v = ⊥ := by tauto
    have hsv : s * v = ⊤ ∨ s * v = ⊥ := by
      rcases hs with h | h | h <;> rcases hv with h' | h' <;> rw [h, h'] <;> simp
    have hsvT : s * v * ⊤ = s * v := by rcases hsv with h | h <;> rw [h] <;> simp
    have hsT : s * ⊤ = 1 * (s * ⊤) := by rw [one_mul]
    have hXX : IsPt (mul X X) ⊤ := by
      have := hX.mul hX hv0 hv0 hvi
      rwa [hvv] at this
    have hRX : IsPt (mul R X) (s * v) := hR.mul hX hs0 hv0 (by tauto)
    unfold powLoop
    rw [dif_neg hn]
    by_cases h2 : n % 2 = 0
    · rw [if_neg (by simpa using h2), if_pos h2]
      have := ih (n / 2) (by omega) (by omega) hR hXX hs (Or.inl rfl)
      simpa using this
    · rw [if_pos h2, if_neg h2]
      by_cases h3 : n / 2 = 0
      · rw [h3]; unfold powLoop; simpa using hRX
      · have := ih (n / 2) (by omega) h3 hRX hXX (Or.inr hsv) (Or.inl rfl)
        simp only [ite_self] at this
        rwa [hsvT] at this

theorem powPoint_inf {k : T} (hk : ¬ nan k) (n : ℕ) (hn : n ≠ 0) (hv : val k = ⊤ ∨ val k = ⊥) :
    IsPt (powPoint k n) (if n % 2 = 0 then ⊤ else val k) := by
  have h1 : IsPt (point (lit 1 : T)) 1 := ⟨lit_one.1, lit_one.1, lit_one.2, lit_one.2⟩
  have := powLoop_inf n hn h1 (⟨hk, hk, rfl, rfl⟩ : IsPt (point k) (val k)) (Or.inl rfl) hv
  unfold powPoint
  simpa using this

theorem E_cases (a : EReal) : (a = ⊤ ∨ a = ⊥) ∨ ∃ c : ℝ, a = c := by
  induction a with
  | bot => simp
  | top => simp
  | coe c => exact Or.inr ⟨c, rfl⟩

/-- Bounds of `pow_point` at a lower endpoint. -/
theorem powPoint_lo {k : T} {x : ℝ} (h : Lo k x) {n : ℕ} (hn : n ≠ 0)
    (hm : Odd n ∨ 0 ≤ val k) : Lo (powPoint k n).inf (x ^ n) ∧ ¬ nan (powPoint k n).sup := by
  rcases E_cases (val k) with hv | ⟨c, hc⟩
  · rcases hv with hv | hv
    · exact absurd hv h.ne_top
    · rcases hm with hm | hm
      · have := powPoint_inf h.1 n hn (Or.inr hv)
        have hodd : ¬ n % 2 = 0 := by rw [Nat.odd_iff] at hm; omega
        rw [if_neg hodd, hv] at this
        exact ⟨⟨this.1, by rw [this.2.2.1]; exact bot_le⟩, this.2.1⟩
      · rw [hv] at hm; simp at hm
  · have hm' := powPoint_mem ⟨h.1, hc⟩ n
    refine ⟨hm'.1.mono ?_, hm'.2.1⟩
    have hcx : c ≤ x := by have := h.2; rw [hc] at this; exact_mod_cast this
    rcases hm with hm | hm
    · exact hm.strictMono_pow.monotone hcx
    · rw [hc] at hm
      exact pow_le_pow_left₀ (by exact_mod_cast hm) hcx n

theorem powPoint_hi {k : T} {x : ℝ} (h : Hi k x) {n : ℕ} (hn : n ≠ 0)
    (hm : Odd n ∨ 0 ≤ x) : Hi (powPoint k n).sup (x ^ n) ∧ ¬ nan (powPoint k n).inf := by
  rcases E_cases (val k) with hv | ⟨c, hc⟩
  · rcases hv with hv | hv
    · have := powPoint_inf h.1 n hn (Or.inl hv)
      rw [hv, ite_self] at this
      exact ⟨⟨this.2.1, by rw [this.2.2.2]; exact le_top⟩, this.1⟩
    · exact absurd hv h.ne_bot
  · have hm' := powPoint_mem ⟨h.1, hc⟩ n
    refine ⟨hm'.2.mono ?_, hm'.1.1⟩
    have hcx : x ≤ c := by have := h.2; rw [hc] at this; exact_mod_cast this
    rcases hm with hm | hm
    · exact hm.strictMono_pow.monotone hcx
    · exact pow_le_pow_left₀ hm hcx n

/-- even powers of nonpositive numbers: the lower endpoint gives the upper bound -/
theorem powPoint_hi_even {k : T} {x : ℝ} (h : Lo k x) (hx : x ≤ 0) {n : ℕ} (hn : n ≠ 0)
    (he : Even n) : Hi (powPoint k n).sup (x ^ n) ∧ ¬ nan (powPoint k n).inf := by
  rcases E_cases (val k) with hv | ⟨c, hc⟩
  · have := powPoint_inf h.1 n hn hv
    rw [if_pos (by rw [Nat.even_iff] at he; exact he)] at this
    exact ⟨⟨this.2.1, by rw [this.2.2.2]; exact le_top⟩, this.1⟩
  · have hm' := powPoint_mem ⟨h.1, hc⟩ n
    refine ⟨hm'.2.mono ?_, hm'.1.1⟩
    have hcx : c ≤ x := by have := h.2; rw [hc] at this; exact_mod_cast this
    rw [← he.neg_pow x, ← he.neg_pow c]
    exact pow_le_pow_left₀ (by linarith) (by linarith) n

theorem powPoint_lo_even {k : T} {x : ℝ} (h : Hi k x) (hx : val k ≤ 0) {n : ℕ}
    (he : Even n) : Lo (powPoint k n).inf (x ^ n) ∧ ¬ nan (powPoint k n).sup := by
  rcases E_cases (val k) with hv | ⟨c, hc⟩
  · rcases hv with hv | hv
    · rw [hv] at hx; simp at hx
    · exact absurd hv h.ne_bot
  · have hm' := powPoint_mem ⟨h.1, hc⟩ n
    refine ⟨hm'.1.mono ?_, hm'.2.1⟩
    have hcx : x ≤ c := by have := h.2; rw [hc] at this; exact_mod_cast this
    have hc0 : c ≤ 0 := by rw [hc] at hx; exact_mod_cast hx
    rw [← he.neg_pow x, ← he.neg_pow c]
    exact pow_le_pow_left₀ (by linarith) (by linarith) n

theorem norm_hi {X : Interval T} {x : ℝ} (hx : x ∈ X) : Hi (norm X) |x| := by
  obtain ⟨a1, a2⟩ := hx
  unfold norm
  simp only [O]
  split_ifs with h1 h2 h3
  · rw [le_zero_left] at h1
    rw [abs_of_nonneg (coe_nonneg h1.2 a1.2)]; exact a2
  · rw [le_zero_right] at h2
    rw [abs_of_nonpos (coe_nonpos h2.2 a2.2)]; exact a1.neg
  · rw [lt_iff] at h3
    rcases abs_cases x with h | h <;> rw [h.1]
    · exact a2
    · exact ⟨a2.1, a1.neg.2.trans h3.2.2.le⟩
  · have n1 : ¬ nan (Rop.neg X.inf) := a1.neg.1
    rw [lt_iff] at h3; push Not at h3
    rcases abs_cases x with h | h <;> rw [h.1]
    · exact ⟨n1, a2.2.trans (h3 n1 a2.1)⟩
    · exact a1.neg

theorem hull_lo {X Y : Interval T} {x : ℝ} (h : Lo X.inf x ∨ Lo Y.inf x) (hX : ¬ nan X.inf)
    (hY : ¬ nan Y.inf) : Lo (hull X Y).inf x := lo_ite_min h.symm hY hX
theorem hull_hi {X Y : Interval T} {x : ℝ} (h : Hi X.sup x ∨ Hi Y.sup x) (hX : ¬ nan X.sup)
    (hY : ¬ nan Y.sup) : Hi (hull X Y).sup x := hi_ite_max h hX hY

/-- the part of `pow` before the possible reciprocal -/
theorem powAbs_mem {X : Interval T} {x : ℝ} (hx : x ∈ X) {n : ℕ} (hn : n ≠ 0) :
    x ^ n ∈ (if n % 2 == 0 && mem O X then sHull O (powPoint (mag X) n)
      else hull (powPoint X.inf n) (powPoint X.sup n)) := by
  have hn2 := norm_hi hx
  obtain ⟨a1, a2⟩ := hx
  split_ifs with h
  · rw [Bool.and_eq_true, beq_iff_eq] at h
    have he : Even n := Nat.even_iff.2 h.1
    obtain ⟨h1, h2⟩ := powPoint_hi (n := n) hn2 hn (Or.inr (abs_nonneg x))
    rw [he.pow_abs] at h1
    refine ⟨lo_ite_min (Or.inr (lo_zero_iff.2 (he.pow_nonneg x))) h2 lit_zero.1,
      hi_ite_max (Or.inr h1) lit_zero.1 h1.1⟩
  · rw [Bool.and_eq_true, beq_iff_eq] at h
    rcases Nat.even_or_odd n with he | ho
    · have hz : ¬ mem O X = true := fun h' => h ⟨Nat.even_iff.1 he, h'⟩
      unfold mem at hz
      simp only [Interval.O] at hz
      rw [Bool.and_eq_true, le_zero_right, le_zero_left] at hz
      simp only [a1.1, a2.1, not_false_iff, true_and, not_and_or, not_le] at hz
      rcases hz with hz | hz
      · have hx0 := E_pos_of hz a1.2
        have p1 := powPoint_lo a1 hn (Or.inr hz.le)
        have p2 := powPoint_hi a2 hn (Or.inr hx0.le)
        exact ⟨hull_lo (Or.inl p1.1) p1.1.1 p2.2, hull_hi (Or.inr p2.1) p1.2 p2.1.1⟩
      · have hx0 := E_neg_of hz a2.2
        have p1 := powPoint_hi_even a1 hx0.le hn he
        have p2 := powPoint_lo_even a2 hz.le he
        exact ⟨hull_lo (Or.inr p2.1) p1.2 p2.1.1, hull_hi (Or.inl p1.1) p1.1.1 p2.2⟩
    · have p1 := powPoint_lo a1 hn (Or.inl ho)
      have p2 := powPoint_hi a2 hn (Or.inl ho)
      exact ⟨hull_lo (Or.inl p1.1) p1.1.1 p2.2, hull_hi (Or.inr p2.1) p1.2 p2.1.1⟩

theorem powInt_mem {X Z : Interval T} {x : ℝ} {n : ℤ} (h : powInt X n = .ok Z) (hx : x ∈ X) :
    x ^ n ∈ Z := by
  unfold powInt at h
  split_ifs at h with h0 h1 h2
  · cases h; subst h0; simpa using one_mem (T := T)
  · obtain ⟨m, rfl⟩ : ∃ m : ℕ, n = -(m : ℤ) := ⟨n.natAbs, by omega⟩
    have hm : m ≠ 0 := by omega
    have := powAbs_mem (n := m) hx hm
    have e : (-(m : ℤ)).natAbs = m := by simp
    simp only [e] at h
    have := sDiv_mem h this ⟨lit_one.1, by rw [lit_one.2]; rfl⟩
    rw [zpow_neg, zpow_natCast, ← one_div]; exact this
  · obtain ⟨m, rfl⟩ := Int.eq_ofNat_of_zero_le (not_lt.1 h2)
    cases h
    have hm : m ≠ 0 := by omega
    have := powAbs_mem (n := m) hx hm
    rw [zpow_natCast]
    simpa using this

end Interval
end Kv
