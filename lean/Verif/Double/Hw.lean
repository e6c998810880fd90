import Verif.Rop
import Verif.Float.SqrtLemmas

/-!
# `rop<double>` with hardware rounding

/repo/kv/rdouble-hwround.hpp.  All `_up`/`_down` members are called between `begin()` (mode up,
line 87) and `end()` (mode nearest, line 91), so `+ - * / sqrt` inside them round up; the `_down`
members negate operands and result, except `sqrt_down` which switches to mode down (line 71).
Ordinary operators of `double` round to nearest.  The mode register itself is modelled in
`Verif/Double/Mode.lean`.
-/

namespace Kv
open Fl

/-- C++ `double` with `rop<double>` of /repo/kv/rdouble-hwround.hpp, for any binary format. -/
def Hw (F : Format) : Type := Fl F

namespace Hw
variable {F : Format}

/-- rdouble-hwround.hpp:18-22 -/
def addUp (x y : Fl F) : Fl F := add .up x y
/-- rdouble-hwround.hpp:24-29 -/
def addDown (x y : Fl F) : Fl F := neg (add .up (neg x) (neg y))
/-- rdouble-hwround.hpp:31-35 -/
def subUp (x y : Fl F) : Fl F := sub .up x y
/-- rdouble-hwround.hpp:37-42 -/
def subDown (x y : Fl F) : Fl F := neg (sub .up (neg x) (neg y))
/-- rdouble-hwround.hpp:44-48 -/
def mulUp (x y : Fl F) : Fl F := mul .up x y
/-- rdouble-hwround.hpp:50-55 -/
def mulDown (x y : Fl F) : Fl F := neg (mul .up (neg x) y)
/-- rdouble-hwround.hpp:57-61 -/
def divUp (x y : Fl F) : Fl F := div .up x y
/-- rdouble-hwround.hpp:63-68 -/
def divDown (x y : Fl F) : Fl F := neg (div .up (neg x) y)
/-- rdouble-hwround.hpp:70-74 -/
def sqrtUp (x : Fl F) : Fl F := sqrt .up x
/-- rdouble-hwround.hpp:76-88 (the disabled `#if 0` part is not modelled) -/
def sqrtDown (x : Fl F) : Fl F := sqrt .down x

end Hw

theorem Format.rep_one {F : Format} : F.Rep 1 := by
  have := Format.rep_two_zpow (F := F) (e := 0) (by have := F.emin_le; omega)
    (by have := F.emax_ge; omega)
  simpa using this

theorem Format.rep_half {F : Format} : F.Rep (1 / 2) := by
  have := Format.rep_two_zpow (F := F) (e := -1)
    (by have := F.emin_le; have := F.one_lt_p; omega) (by have := F.emax_ge; omega)
  simpa [zpow_neg] using this

/-- The interface `Rop` of hardware-rounded double. -/
instance instRopHw (F : Format) : Rop (Hw F) where
  addUp := Hw.addUp
  addDown := Hw.addDown
  subUp := Hw.subUp
  subDown := Hw.subDown
  mulUp := Hw.mulUp
  mulDown := Hw.mulDown
  divUp := Hw.divUp
  divDown := Hw.divDown
  sqrtUp := Hw.sqrtUp
  sqrtDown := Hw.sqrtDown
  neg := Fl.neg
  abs := Fl.abs
  add := Fl.add .near
  sub := Fl.sub .near
  mul := Fl.mul .near
  div := Fl.div .near
  floor := Fl.floor
  ceil := Fl.ceil
  lt := Fl.lt
  le := Fl.le
  eq := Fl.eq
  lit := Fl.lit
  inf := Fl.pinf
  maxv := Fl.maxF
  denormMin := Fl.lit F.minQ
  eps := Fl.lit (2 ^ (1 - F.p : ℤ))

theorem Fl.sqrt_up_spec {F : Format} (x : Fl F) (hx : x ≠ nan) (h0 : 0 ≤ toE x) :
    sqrt .up x ≠ nan ∧ ∀ a : ℝ, (a : EReal) ≤ toE x → ((Real.sqrt a : ℝ) : EReal) ≤ toE (sqrt .up x) := by
  cases x with
  | nan => exact absurd rfl hx
  | pinf => exact ⟨by simp [sqrt], fun a _ => le_top⟩
  | ninf => simp at h0
  | fin q h =>
    have hq : (0 : ℚ) ≤ q := by rw [toE_fin] at h0; exact_mod_cast h0
    obtain ⟨h1, h2, -⟩ := sqrt_up_isUp h hq
    refine ⟨h1, fun a ha => le_trans ?_ h2⟩
    rw [toE_fin, EReal.coe_le_coe_iff] at ha
    exact EReal.coe_le_coe_iff.2 (Real.sqrt_le_sqrt ha)

theorem Fl.sqrt_down_spec {F : Format} (x : Fl F) (hx : x ≠ nan) (h0 : 0 ≤ toE x) :
    sqrt .down x ≠ nan ∧
      ∀ a : ℝ, toE x ≤ (a : EReal) → toE (sqrt .down x) ≤ ((Real.sqrt a : ℝ) : EReal) := by
  cases x with
  | nan => exact absurd rfl hx
  | pinf => exact ⟨by simp [sqrt], fun a ha => by simp at ha⟩
  | ninf => simp at h0
  | fin q h =>
    have hq : (0 : ℚ) ≤ q := by rw [toE_fin] at h0; exact_mod_cast h0
    obtain ⟨h1, h2, -⟩ := sqrt_down_isDown h hq
    refine ⟨h1, fun a ha => le_trans h2 ?_⟩
    rw [toE_fin, EReal.coe_le_coe_iff] at ha
    exact EReal.coe_le_coe_iff.2 (Real.sqrt_le_sqrt ha)

theorem Fl.IsUp.eq_inf {F : Format} {x : EReal} {r : Fl F} (h : IsUp x r) (hx : x = ⊤ ∨ x = ⊥) :
    toE r = x := by
  rcases hx with rfl | rfl
  · exact top_le_iff.1 h.2.1
  · exact le_bot_iff.1 (h.2.2 ninf (by simp) (by simp))

theorem Fl.IsDown.eq_inf {F : Format} {x : EReal} {r : Fl F} (h : IsDown x r)
    (hx : x = ⊤ ∨ x = ⊥) : toE r = x := by
  rcases hx with rfl | rfl
  · exact top_le_iff.1 (h.2.2 pinf (by simp) (by simp))
  · exact le_bot_iff.1 h.2.1

theorem E_mul_inf {a b : EReal} (h1 : a ≠ 0) (h2 : b ≠ 0)
    (h3 : a = ⊤ ∨ a = ⊥ ∨ b = ⊤ ∨ b = ⊥) : a * b = ⊤ ∨ a * b = ⊥ := by
  have key : ∀ c : EReal, c ≠ 0 → (⊤ * c = ⊤ ∨ ⊤ * c = ⊥) ∧ (⊥ * c = ⊤ ∨ ⊥ * c = ⊥) := by
    intro c hc
    rcases lt_or_gt_of_ne hc with h | h
    · exact ⟨Or.inr (EReal.top_mul_of_neg h), Or.inl (EReal.bot_mul_of_neg h)⟩
    · exact ⟨Or.inl (EReal.top_mul_of_pos h), Or.inr (EReal.bot_mul_of_pos h)⟩
  rcases h3 with rfl | rfl | rfl | rfl
  · exact (key b h2).1
  · exact (key b h2).2
  · rw [mul_comm]; exact (key a h1).1
  · rw [mul_comm]; exact (key a h1).2

/-- Hardware-rounded double satisfies the laws of directed rounding. -/
noncomputable instance instRopSemHw (F : Format) : RopSem (Hw F) where
  val := Fl.toE
  nan x := x = Fl.nan
  lt_iff := Fl.lt_iff
  le_iff := Fl.le_iff
  eq_iff := Fl.eq_iff
  nan_neg x := by
    have := neg_ne_nan (x := x); tauto
  val_neg x _ := Fl.toE_neg x
  lit_zero := by
    have : (Fl.lit 0 : Fl F) = Fl.fin 0 Format.rep_zero := round_of_rep _ _
    refine ⟨by show ¬ (Fl.lit 0 : Fl F) = _; rw [this]; simp, ?_⟩
    show Fl.toE (Fl.lit 0 : Fl F) = 0
    rw [this]; simp
  lit_one := by
    have : (Fl.lit 1 : Fl F) = Fl.fin 1 Format.rep_one := round_of_rep _ _
    refine ⟨by show ¬ (Fl.lit 1 : Fl F) = _; rw [this]; simp, ?_⟩
    show Fl.toE (Fl.lit 1 : Fl F) = 1
    rw [this]; simp
  lit_half := by
    have : (Fl.lit (1 / 2) : Fl F) = Fl.fin (1 / 2) Format.rep_half := round_of_rep _ _
    refine ⟨by show ¬ (Fl.lit (1 / 2) : Fl F) = _; rw [this]; simp, ?_⟩
    show Fl.toE (Fl.lit (1 / 2) : Fl F) = _
    rw [this]; simp
  inf_val := ⟨by show ¬ (Fl.pinf : Fl F) = _; simp, rfl⟩
  add_up x y hx hy h1 h2 := let h := add_up_isUp hx hy h1 h2; ⟨h.1, h.2.1⟩
  add_down x y hx hy h1 h2 := let h := add_down_isDown hx hy h1 h2; ⟨h.1, h.2.1⟩
  sub_up x y hx hy h1 h2 := let h := sub_up_isUp hx hy h1 h2; ⟨h.1, h.2.1⟩
  sub_down x y hx hy h1 h2 := let h := sub_down_isDown hx hy h1 h2; ⟨h.1, h.2.1⟩
  mul_up x y hx hy h1 h2 := let h := mul_up_isUp hx hy h1 h2; ⟨h.1, h.2.1⟩
  mul_down x y hx hy h1 h2 := let h := mul_down_isDown hx hy h1 h2; ⟨h.1, h.2.1⟩
  mul_inf x y hx hy h1 h2 h3 := by
    have hi := E_mul_inf h1 h2 h3
    have n1 : Fl.toE x = 0 → Fl.toE y ≠ ⊤ ∧ Fl.toE y ≠ ⊥ := fun h => absurd h h1
    have n2 : Fl.toE y = 0 → Fl.toE x ≠ ⊤ ∧ Fl.toE x ≠ ⊥ := fun h => absurd h h2
    exact ⟨(mul_up_isUp hx hy n1 n2).eq_inf hi, (mul_down_isDown hx hy n1 n2).eq_inf hi⟩
  div_up x y hx hy h1 h2 := let h := div_up_isUp hx hy h1 h2; ⟨h.1, h.2.1⟩
  div_down x y hx hy h1 h2 := let h := div_down_isDown hx hy h1 h2; ⟨h.1, h.2.1⟩
  sqrt_up x hx h0 := Fl.sqrt_up_spec x hx h0
  sqrt_down x hx h0 := Fl.sqrt_down_spec x hx h0

theorem Format.Rep.floor {F : Format} {q : ℚ} (h : F.Rep q) : F.Rep ((⌊q⌋ : ℤ) : ℚ) := by
  obtain ⟨m, e, h1, h2, h3, rfl⟩ := h
  rcases le_or_gt 0 e with he | he
  · obtain ⟨k, rfl⟩ := Int.eq_ofNat_of_zero_le he
    have : (m : ℚ) * 2 ^ (k : ℤ) = ((m * 2 ^ k : ℤ) : ℚ) := by push_cast; rw [zpow_natCast]
    rw [this, Int.floor_intCast, ← this]
    exact ⟨m, k, h1, h2, h3, rfl⟩
  · refine ⟨⌊(m : ℚ) * 2 ^ e⌋, 0, ?_, by have := F.emin_le; omega, by have := F.emax_ge; omega,
      by simp⟩
    have hp := Format.two_zpow_pos e
    have hle : (2 : ℚ) ^ e ≤ 1 / 2 := by
      have : (2 : ℚ) ^ e ≤ 2 ^ (-1 : ℤ) := zpow_le_zpow_right₀ (by norm_num) (by omega)
      simpa using this
    have hP : (2 : ℤ) ≤ 2 ^ F.p := by
      have := F.one_lt_p
      calc (2 : ℤ) = 2 ^ 1 := by norm_num
        _ ≤ 2 ^ F.p := pow_le_pow_right₀ (by norm_num) (by omega)
    rw [abs_lt] at h1 ⊢
    obtain ⟨a1, a2⟩ := h1
    have b1 : (-(2 ^ F.p : ℤ) : ℚ) + 1 ≤ m := by exact_mod_cast (by omega : -(2 ^ F.p : ℤ) + 1 ≤ m)
    have b2 : (m : ℚ) ≤ (2 ^ F.p : ℤ) - 1 := by exact_mod_cast (by omega : m ≤ (2 ^ F.p : ℤ) - 1)
    have hP' : (2 : ℚ) ≤ ((2 ^ F.p : ℤ) : ℚ) := by exact_mod_cast hP
    have f1 := Int.floor_le ((m : ℚ) * 2 ^ e)
    have f2 := Int.lt_floor_add_one ((m : ℚ) * 2 ^ e)
    generalize ⌊(m : ℚ) * 2 ^ e⌋ = n at f1 f2 ⊢
    generalize (2 : ℚ) ^ e = t at *
    generalize (2 ^ F.p : ℤ) = P at *
    constructor
    · have : (-(P : ℚ)) < n := by nlinarith
      exact_mod_cast this
    · have : (n : ℚ) < P := by nlinarith
      exact_mod_cast this

theorem Format.Rep.ceil {F : Format} {q : ℚ} (h : F.Rep q) : F.Rep ((⌈q⌉ : ℤ) : ℚ) := by
  have := h.neg.floor.neg
  rw [Int.floor_neg] at this
  simpa using this

theorem ratCast_floor (q : ℚ) : ⌊(q : ℝ)⌋ = ⌊q⌋ := Rat.floor_cast q
theorem ratCast_ceil (q : ℚ) : ⌈(q : ℝ)⌉ = ⌈q⌉ := Rat.ceil_cast q

instance instRopFloorHw (F : Format) : RopFloor (Hw F) where
  floor_sem x hx := by
    change ¬ x = Fl.nan at hx
    show ¬ Fl.floor x = Fl.nan ∧ (∀ r : ℝ, Fl.toE x ≤ r → Fl.toE (Fl.floor x) ≤ _) ∧
      (∀ r : ℝ, _ ≤ Fl.toE x → _ ≤ Fl.toE (Fl.floor x))
    cases x with
    | nan => exact absurd rfl hx
    | pinf => simp [Fl.floor]
    | ninf => simp [Fl.floor]
    | fin q h =>
      have e : Fl.floor (Fl.fin q h) = Fl.fin _ h.floor := round_of_rep _ _
      rw [e]
      refine ⟨by simp, fun r hr => ?_, fun r hr => ?_⟩
      · rw [toE_fin, EReal.coe_le_coe_iff] at hr ⊢
        have := Int.floor_mono hr
        rw [ratCast_floor] at this
        exact_mod_cast this
      · rw [toE_fin, EReal.coe_le_coe_iff] at hr ⊢
        have := Int.floor_mono hr
        rw [ratCast_floor] at this
        exact_mod_cast this
  ceil_sem x hx := by
    change ¬ x = Fl.nan at hx
    show ¬ Fl.ceil x = Fl.nan ∧ (∀ r : ℝ, Fl.toE x ≤ r → Fl.toE (Fl.ceil x) ≤ _) ∧
      (∀ r : ℝ, _ ≤ Fl.toE x → _ ≤ Fl.toE (Fl.ceil x))
    cases x with
    | nan => exact absurd rfl hx
    | pinf => simp [Fl.ceil]
    | ninf => simp [Fl.ceil]
    | fin q h =>
      have e : Fl.ceil (Fl.fin q h) = Fl.fin _ h.ceil := round_of_rep _ _
      rw [e]
      refine ⟨by simp, fun r hr => ?_, fun r hr => ?_⟩
      · rw [toE_fin, EReal.coe_le_coe_iff] at hr ⊢
        have := Int.ceil_mono hr
        rw [ratCast_ceil] at this
        exact_mod_cast this
      · rw [toE_fin, EReal.coe_le_coe_iff] at hr ⊢
        have := Int.ceil_mono hr
        rw [ratCast_ceil] at this
        exact_mod_cast this

end Kv
