import Verif.Double.Fin
import Verif.Float.Exact
import Verif.Interval.ElemMem

/-! # The elementary-function primitives for `double`, and helper lemmas -/

namespace Kv
open RopSem
open Rop (lit)

/-- `(double)x_i` as a natural number, the exponent given by `std::frexp`, decimal strings rounded
up/down (interval.hpp:1104-1107, 1184, 1878; `stringtod` of conv-double.hpp is taken to round
correctly here, see `Verif/Conv`). -/
instance instRopXHw (F : Format) : RopX (Hw F) where
  toNat := fun x : Fl F =>
    match x with
    | .fin q _ => if q.den = 1 ∧ 0 ≤ q.num then some q.num.toNat else none
    | _ => none
  frexpE := fun x : Fl F =>
    match x with
    | .fin q _ => if q = 0 then 0 else Int.log 2 |q| + 1
    | _ => 0
  strUp q := (Fl.round .up q : Fl F)
  strDown q := (Fl.round .down q : Fl F)

namespace Hw
variable {F : Format}

theorem is_fin {q : ℚ} (h : F.Rep q) : Is (Hw.fin q h) (q : ℝ) := ⟨not_nan_fin q h, rfl⟩

theorem is_iff {x : Hw F} {c : ℝ} : Is x c ↔ ∃ (q : ℚ) (h : F.Rep q), x = Hw.fin q h ∧ (q : ℝ) = c := by
  constructor
  · rintro ⟨h1, h2⟩
    change ¬ x = Fl.nan at h1
    change Fl.toE x = _ at h2
    cases x with
    | nan => exact absurd rfl h1
    | pinf => simp at h2
    | ninf => simp at h2
    | fin q h =>
      refine ⟨q, h, rfl, ?_⟩
      rw [Fl.toE_fin] at h2
      exact_mod_cast h2
  · rintro ⟨q, h, rfl, rfl⟩
    exact is_fin h

theorem cases' (x : Hw F) : x = Fl.nan ∨ x = Fl.pinf ∨ x = Fl.ninf ∨ ∃ q h, x = Hw.fin q h := by
  cases x with
  | nan => exact Or.inl rfl
  | pinf => exact Or.inr (Or.inl rfl)
  | ninf => exact Or.inr (Or.inr (Or.inl rfl))
  | fin q h => exact Or.inr (Or.inr (Or.inr ⟨q, h, rfl⟩))

theorem lit_eq {q : ℚ} (h : F.Rep q) : (lit q : Hw F) = Hw.fin q h := Fl.round_of_rep _ _

theorem is_lit {q : ℚ} (h : F.Rep q) : Is (lit q : Hw F) q := by
  rw [lit_eq h]; exact is_fin h

theorem add_eq {a b : ℚ} (ha : F.Rep a) (hb : F.Rep b) (h : F.Rep (a + b)) :
    Rop.add (Hw.fin a ha) (Hw.fin b hb) = Hw.fin _ h := Fl.round_of_rep _ _
theorem sub_eq {a b : ℚ} (ha : F.Rep a) (hb : F.Rep b) (h : F.Rep (a - b)) :
    Rop.sub (Hw.fin a ha) (Hw.fin b hb) = Hw.fin _ h := by
  have : (Rop.sub (Hw.fin a ha) (Hw.fin b hb) : Hw F) = Fl.round .near (a + -b) := rfl
  rw [this]
  have h' : F.Rep (a + -b) := by rw [← sub_eq_add_neg]; exact h
  rw [Fl.round_of_rep _ h']
  show Fl.fin _ _ = Fl.fin _ _
  congr 1
  ring
theorem mul_eq {a b : ℚ} (ha : F.Rep a) (hb : F.Rep b) (h : F.Rep (a * b)) :
    Rop.mul (Hw.fin a ha) (Hw.fin b hb) = Hw.fin _ h := Fl.round_of_rep _ _
theorem neg_eq {a : ℚ} (ha : F.Rep a) : Rop.neg (Hw.fin a ha) = Hw.fin _ ha.neg := rfl
theorem floor_eq {a : ℚ} (ha : F.Rep a) : Rop.floor (Hw.fin a ha) = Hw.fin _ ha.floor :=
  Fl.round_of_rep _ _

/-- exact sum of doubles -/
theorem is_add {x y : Hw F} {a b : ℚ} (hx : Is x a) (hy : Is y b) (h : F.Rep (a + b)) :
    Is (Rop.add x y) ((a : ℝ) + b) := by
  obtain ⟨q, hq, rfl, e1⟩ := is_iff.1 hx
  obtain ⟨r, hr, rfl, e2⟩ := is_iff.1 hy
  have e1 : q = a := by exact_mod_cast e1
  have e2 : r = b := by exact_mod_cast e2
  subst e1 e2
  rw [add_eq hq hr h]
  have := is_fin h; push_cast at this; exact this
/-- exact difference of doubles -/
theorem is_sub {x y : Hw F} {a b : ℚ} (hx : Is x a) (hy : Is y b) (h : F.Rep (a - b)) :
    Is (Rop.sub x y) ((a : ℝ) - b) := by
  obtain ⟨q, hq, rfl, e1⟩ := is_iff.1 hx
  obtain ⟨r, hr, rfl, e2⟩ := is_iff.1 hy
  have e1 : q = a := by exact_mod_cast e1
  have e2 : r = b := by exact_mod_cast e2
  subst e1 e2
  rw [sub_eq hq hr h]
  have := is_fin h; push_cast at this; exact this

theorem le_fin {a b : ℚ} (ha : F.Rep a) (hb : F.Rep b) :
    Rop.le (Hw.fin a ha) (Hw.fin b hb) = true ↔ a ≤ b := by
  show decide (a ≤ b) = true ↔ _; simp
theorem lt_fin {a b : ℚ} (ha : F.Rep a) (hb : F.Rep b) :
    Rop.lt (Hw.fin a ha) (Hw.fin b hb) = true ↔ a < b := by
  show decide (a < b) = true ↔ _; simp

end Hw

theorem rep64 {m e : ℤ} (hm : |m| < 2 ^ 53) (h1 : -1074 ≤ e) (h2 : e ≤ 971) :
    binary64.Rep (m * 2 ^ e) := ⟨m, e, hm, h1, h2, rfl⟩

instance instRopXSemD : RopXSem D where
  lit_exact m k hm hk := by
    have h : binary64.Rep ((m : ℚ) / 2 ^ k) := by
      have : (m : ℚ) / 2 ^ k = m * 2 ^ (-(k : ℤ)) := by
        rw [zpow_neg, zpow_natCast, div_eq_mul_inv]
      rw [this]
      exact rep64 (lt_of_le_of_lt hm (by norm_num)) (by omega) (by omega)
    have := Hw.is_lit h
    push_cast at this
    exact this
  toNat_some a n h := by
    rcases Hw.cases' a with rfl | rfl | rfl | ⟨q, hq, rfl⟩
    · cases h
    · cases h
    · cases h
    · change (if q.den = 1 ∧ 0 ≤ q.num then some q.num.toNat else none) = some n at h
      split_ifs at h with h1
      obtain ⟨h1, h2⟩ := h1
      have e : q = (n : ℚ) := by
        have h3 : q.num.toNat = n := by simpa using h
        rw [← h3]
        have h4 : ((q.num.toNat : ℕ) : ℚ) = ((q.num : ℤ) : ℚ) := by
          exact_mod_cast congrArg (Int.cast : ℤ → ℚ) (Int.toNat_of_nonneg h2)
        rw [h4]
        exact (Rat.den_eq_one_iff q).1 h1 |>.symm
      subst e
      simpa using Hw.is_fin hq
  strUp_spec q := ⟨(Fl.round_up_isUp (F := binary64) q).1, (Fl.round_up_isUp (F := binary64) q).2.1⟩
  strDown_spec q :=
    ⟨(Fl.round_down_isDown (F := binary64) q).1, (Fl.round_down_isDown (F := binary64) q).2.1⟩

/-! ## the split `x = x_i + x_f` of `exp` -/

theorem cast_abs_half {a : ℚ} (h : |a| ≤ 1 / 2) : |(a : ℝ)| ≤ 1 / 2 := by
  have : ((|a| : ℚ) : ℝ) ≤ ((1 / 2 : ℚ) : ℝ) := Rat.cast_le.2 h
  push_cast at this; exact this

theorem expSplit_spec {F : Format} {x : Hw F} {c : ℝ} (hx : Is x c) :
    ∃ i f : ℝ, Is (Interval.expSplit x).1 i ∧ Is (Interval.expSplit x).2 f ∧ i + f = c ∧ |f| ≤ 1 / 2 := by
  obtain ⟨q, hq, rfl, rfl⟩ := Hw.is_iff.1 hx
  have r0 : F.Rep 0 := Format.rep_zero
  have r1 : F.Rep 1 := Format.rep_one
  have rh : F.Rep (1 / 2) := Format.rep_half
  have rmh : F.Rep (-1 / 2) := by have := rh.neg; rwa [← neg_div] at this
  -- the nonnegative case for rationals
  have key : ∀ p : ℚ, F.Rep p → 0 ≤ p → F.Rep (p - (⌊p⌋ : ℤ)) ∧
      ((1 / 2 : ℚ) ≤ p - (⌊p⌋ : ℤ) → F.Rep (((⌊p⌋ : ℤ) : ℚ) + 1) ∧ F.Rep (p - (⌊p⌋ : ℤ) - 1)) := by
    intro p hp p0
    refine ⟨rep_fract hp p0, fun h => ⟨?_, ?_⟩⟩
    · have h1 := abs_lt_of_not_int hp (by intro hc; rw [← hc] at h; norm_num at h)
      rw [abs_of_nonneg p0] at h1
      have h2 : ⌊p⌋ < (2 ^ F.p : ℤ) := Int.floor_lt.2 (by push_cast; exact h1)
      have := rep_int (F := F) (n := ⌊p⌋ + 1) (by
        rw [abs_of_nonneg (by have := Int.floor_nonneg.2 p0; omega)]; omega)
      push_cast at this; exact this
    · have h2 := Int.lt_floor_add_one p
      exact sterbenz (rep_fract hp p0) r1 (by linarith) (by linarith)
  unfold Interval.expSplit Interval.one Interval.half
  rw [Hw.lit_eq r0, Hw.lit_eq r1, Hw.lit_eq rh, Hw.lit_eq rmh]
  have fl := Int.floor_le q
  have fl2 := Int.lt_floor_add_one q
  by_cases h0 : Rop.le (Hw.fin 0 r0) (Hw.fin q hq) = true
  · rw [if_pos h0]
    rw [Hw.le_fin] at h0
    obtain ⟨k1, k2⟩ := key q hq h0
    rw [Hw.floor_eq]
    dsimp only
    rw [Hw.sub_eq hq hq.floor k1]
    by_cases h1 : Rop.le (Hw.fin (1 / 2) rh) (Hw.fin _ k1) = true
    · rw [if_pos h1]
      rw [Hw.le_fin] at h1
      obtain ⟨k3, k4⟩ := k2 h1
      rw [Hw.add_eq hq.floor r1 k3, Hw.sub_eq k1 r1 k4]
      refine ⟨_, _, Hw.is_fin _, Hw.is_fin _, ?_, ?_⟩
      · push_cast; ring
      · have : |q - (⌊q⌋ : ℤ) - 1| ≤ 1 / 2 := by rw [abs_le]; constructor <;> linarith
        exact cast_abs_half this
    · rw [if_neg h1]
      rw [Hw.le_fin] at h1
      refine ⟨_, _, Hw.is_fin hq.floor, Hw.is_fin k1, by push_cast; ring, ?_⟩
      have : |q - (⌊q⌋ : ℤ)| ≤ 1 / 2 := by rw [abs_le]; constructor <;> linarith
      exact cast_abs_half this
  · rw [if_neg h0]
    rw [Hw.le_fin] at h0
    have fl := Int.floor_le (-q)
    have fl2 := Int.lt_floor_add_one (-q)
    obtain ⟨k1, k2⟩ := key (-q) hq.neg (by linarith)
    set g := ⌊-q⌋ with hg
    have k1' : F.Rep (q - -((g : ℤ) : ℚ)) := by
      have := k1.neg
      rwa [neg_sub, sub_eq_add_neg, neg_neg, add_comm, ← sub_neg_eq_add] at this
    rw [Hw.neg_eq, Hw.floor_eq, Hw.neg_eq]
    dsimp only
    rw [Hw.sub_eq hq hq.neg.floor.neg k1']
    by_cases h1 : Rop.le (Hw.fin _ k1') (Hw.fin (-1 / 2) rmh) = true
    · rw [if_pos h1]
      rw [Hw.le_fin] at h1
      change q - -(g : ℚ) ≤ -1 / 2 at h1
      obtain ⟨k3, k4⟩ := k2 (by linarith)
      have k3' : F.Rep (-(g : ℚ) - 1) := by
        have := k3.neg; rwa [neg_add, ← sub_eq_add_neg] at this
      have k4' : F.Rep (q - -(g : ℚ) + 1) := by
        have e : q - -(g : ℚ) + 1 = -(-q - g - 1) := by ring
        rw [e]; exact k4.neg
      rw [Hw.sub_eq _ r1 k3', Hw.add_eq _ r1 k4']
      refine ⟨_, _, Hw.is_fin _, Hw.is_fin _, ?_, ?_⟩
      · push_cast; ring
      · have : |q - -(g : ℚ) + 1| ≤ 1 / 2 := by rw [abs_le]; constructor <;> linarith
        exact cast_abs_half this
    · rw [if_neg h1]
      rw [Hw.le_fin] at h1
      change ¬ q - -(g : ℚ) ≤ -1 / 2 at h1
      refine ⟨_, _, Hw.is_fin hq.neg.floor.neg, Hw.is_fin k1', by push_cast; ring, ?_⟩
      have : |q - -(g : ℚ)| ≤ 1 / 2 := by rw [abs_le]; constructor <;> linarith
      exact cast_abs_half this

/-- doubling is exact or overflows -/
theorem two_mul_spec {F : Format} {x : Hw F} {c : ℝ} (hx : Is x c) (h2 : F.Rep 2) :
    Is (Rop.mul (lit 2) x) (2 * c) ∨
    (Rop.mul (lit 2) x = (Rop.inf : Hw F) ∧ (F.maxQ : ℝ) ≤ 2 * c) ∨
    (Rop.mul (lit 2) x = Rop.neg (Rop.inf : Hw F) ∧ 2 * c ≤ -(F.maxQ : ℝ)) := by
  obtain ⟨q, hq, rfl, rfl⟩ := Hw.is_iff.1 hx
  rw [Hw.lit_eq h2]
  have hU : F.RepU (2 * q) := RepU.two_mul hq.repU
  by_cases h : |2 * q| ≤ F.maxQ
  · left
    have hr := Format.rep_of_repU hU h
    rw [Hw.mul_eq h2 hq hr]
    have := Hw.is_fin hr; push_cast at this; exact this
  · right
    have e : Rop.mul (Hw.fin 2 h2) (Hw.fin q hq) = (Fl.overflow .near (decide (0 < 2 * q)) : Fl F) := by
      show Fl.round .near (2 * q) = _
      unfold Fl.round Fl.pack
      have e2 := hU.roundQ_eq .near
      rw [dif_neg (by rw [e2]; exact h), e2]
    rw [e]
    rcases le_or_gt (2 * q) 0 with h0 | h0
    · right
      refine ⟨by rw [decide_eq_false (by linarith)]; rfl, ?_⟩
      rw [abs_of_nonpos h0] at h
      have : 2 * q ≤ - F.maxQ := by linarith
      exact_mod_cast this
    · left
      refine ⟨by rw [decide_eq_true h0]; rfl, ?_⟩
      rw [abs_of_pos h0] at h
      have : F.maxQ ≤ 2 * q := by linarith
      exact_mod_cast this

/-- `1 - x` is exact for `x ∈ [1/2, 2]` -/
theorem one_sub_spec {F : Format} {x : Hw F} {c : ℝ} (hx : Is x c) (h1 : 1 / 2 ≤ c) (h2 : c ≤ 2) :
    Is (Rop.sub (lit 1) x) (1 - c) := by
  obtain ⟨q, hq, rfl, rfl⟩ := Hw.is_iff.1 hx
  have h1 : (1 / 2 : ℚ) ≤ q := by
    have : ((1 / 2 : ℚ) : ℝ) ≤ q := by push_cast; exact h1
    exact_mod_cast this
  have h2 : q ≤ 2 := by exact_mod_cast h2
  have := Hw.is_sub (Hw.is_lit Format.rep_one) (Hw.is_fin hq)
    (sterbenz Format.rep_one hq (by linarith) (by linarith))
  simpa using this

/-- `x - 1` is exact for `x ∈ [1/2, 2]` -/
theorem sub_one_spec {F : Format} {x : Hw F} {c : ℝ} (hx : Is x c) (h1 : 1 / 2 ≤ c) (h2 : c ≤ 2) :
    Is (Rop.sub x (lit 1)) (c - 1) := by
  obtain ⟨q, hq, rfl, rfl⟩ := Hw.is_iff.1 hx
  have h1 : (1 / 2 : ℚ) ≤ q := by
    have : ((1 / 2 : ℚ) : ℝ) ≤ q := by push_cast; exact h1
    exact_mod_cast this
  have h2 : q ≤ 2 := by exact_mod_cast h2
  have := Hw.is_sub (Hw.is_fin hq) (Hw.is_lit Format.rep_one)
    (sterbenz hq Format.rep_one (by linarith) (by linarith))
  simpa using this

/-- `1 + x` is exact for `x ∈ [-2, -1/2]` -/
theorem one_add_spec {F : Format} {x : Hw F} {c : ℝ} (hx : Is x c) (h1 : -2 ≤ c) (h2 : c ≤ -(1 / 2)) :
    Is (Rop.add (lit 1) x) (1 + c) := by
  obtain ⟨q, hq, rfl, rfl⟩ := Hw.is_iff.1 hx
  have h1 : (-2 : ℚ) ≤ q := by exact_mod_cast h1
  have h2 : q ≤ -(1 / 2) := by
    have : (q : ℝ) ≤ (-(1 / 2) : ℚ) := by push_cast; exact h2
    exact_mod_cast this
  have h := sterbenz Format.rep_one hq.neg (by linarith) (by linarith)
  rw [sub_neg_eq_add] at h
  have := Hw.is_add (Hw.is_lit Format.rep_one) (Hw.is_fin hq) h
  simpa using this

end Kv
