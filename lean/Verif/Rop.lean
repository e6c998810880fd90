import Mathlib.Data.EReal.Inv
import Mathlib.Analysis.Real.Sqrt

/-!
# The base-type interface of `interval<T>`

`interval<T>` (/repo/kv/interval.hpp) is a template over a base type `T`; it uses the static
members of `rop<T>` (interval.hpp:20-90, specialised in rdouble-hwround.hpp,
rdouble-nohwround.hpp, rdd-hwround.hpp, ...) and the ordinary operators of `T`.

`Rop T` is that interface; `RopSem T` adds the meaning of the data and the laws which a base
type must satisfy ("directed rounding is correct").  The interval theorems are proved for every
lawful base type; `Verif/Double` supplies the instances.
-/

namespace Kv

/-- Operations available on a base type (/repo/kv/interval.hpp:20-90 and the operators of `T`). -/
class Rop (T : Type) where
  /-- `rop<T>::add_up` etc. -/
  addUp : T → T → T
  addDown : T → T → T
  subUp : T → T → T
  subDown : T → T → T
  mulUp : T → T → T
  mulDown : T → T → T
  divUp : T → T → T
  divDown : T → T → T
  sqrtUp : T → T
  sqrtDown : T → T
  /-- operators of `T` itself (round to nearest) -/
  neg : T → T
  abs : T → T
  add : T → T → T
  sub : T → T → T
  mul : T → T → T
  div : T → T → T
  floor : T → T
  ceil : T → T
  /-- comparison operators of `T`, false when a NaN is involved -/
  lt : T → T → Bool
  le : T → T → Bool
  eq : T → T → Bool
  /-- literals and converted integers -/
  lit : ℚ → T
  /-- `std::numeric_limits<T>::infinity()`, `max()`, `denorm_min()`, `epsilon()` -/
  inf : T
  maxv : T
  denormMin : T
  eps : T

/-- Meaning of the data of a base type and laws of the directed operations.  Values are extended
reals; `nan` marks data without a value. -/
class RopSem (T : Type) extends Rop T where
  val : T → EReal
  nan : T → Prop
  lt_iff : ∀ x y : T, lt x y = true ↔ ¬ nan x ∧ ¬ nan y ∧ val x < val y
  le_iff : ∀ x y : T, le x y = true ↔ ¬ nan x ∧ ¬ nan y ∧ val x ≤ val y
  eq_iff : ∀ x y : T, eq x y = true ↔ ¬ nan x ∧ ¬ nan y ∧ val x = val y
  nan_neg : ∀ x : T, nan (neg x) ↔ nan x
  val_neg : ∀ x : T, ¬ nan x → val (neg x) = - val x
  lit_zero : ¬ nan (lit 0) ∧ val (lit 0) = 0
  lit_one : ¬ nan (lit 1) ∧ val (lit 1) = 1
  lit_half : ¬ nan (lit (1 / 2)) ∧ val (lit (1 / 2)) = ((1 / 2 : ℝ) : EReal)
  inf_val : ¬ nan inf ∧ val inf = ⊤
  add_up : ∀ x y : T, ¬ nan x → ¬ nan y → ¬ (val x = ⊤ ∧ val y = ⊥) → ¬ (val x = ⊥ ∧ val y = ⊤) →
    ¬ nan (addUp x y) ∧ val x + val y ≤ val (addUp x y)
  add_down : ∀ x y : T, ¬ nan x → ¬ nan y → ¬ (val x = ⊤ ∧ val y = ⊥) → ¬ (val x = ⊥ ∧ val y = ⊤) →
    ¬ nan (addDown x y) ∧ val (addDown x y) ≤ val x + val y
  sub_up : ∀ x y : T, ¬ nan x → ¬ nan y → ¬ (val x = ⊤ ∧ val y = ⊤) → ¬ (val x = ⊥ ∧ val y = ⊥) →
    ¬ nan (subUp x y) ∧ val x - val y ≤ val (subUp x y)
  sub_down : ∀ x y : T, ¬ nan x → ¬ nan y → ¬ (val x = ⊤ ∧ val y = ⊤) → ¬ (val x = ⊥ ∧ val y = ⊥) →
    ¬ nan (subDown x y) ∧ val (subDown x y) ≤ val x - val y
  mul_up : ∀ x y : T, ¬ nan x → ¬ nan y → (val x = 0 → val y ≠ ⊤ ∧ val y ≠ ⊥) →
    (val y = 0 → val x ≠ ⊤ ∧ val x ≠ ⊥) →
    ¬ nan (mulUp x y) ∧ val x * val y ≤ val (mulUp x y)
  mul_down : ∀ x y : T, ¬ nan x → ¬ nan y → (val x = 0 → val y ≠ ⊤ ∧ val y ≠ ⊥) →
    (val y = 0 → val x ≠ ⊤ ∧ val x ≠ ⊥) →
    ¬ nan (mulDown x y) ∧ val (mulDown x y) ≤ val x * val y
  /-- infinities are multiplied exactly -/
  mul_inf : ∀ x y : T, ¬ nan x → ¬ nan y → val x ≠ 0 → val y ≠ 0 →
    (val x = ⊤ ∨ val x = ⊥ ∨ val y = ⊤ ∨ val y = ⊥) →
    val (mulUp x y) = val x * val y ∧ val (mulDown x y) = val x * val y
  div_up : ∀ x y : T, ¬ nan x → ¬ nan y → val y ≠ 0 →
    ((val x = ⊤ ∨ val x = ⊥) → val y ≠ ⊤ ∧ val y ≠ ⊥) →
    ¬ nan (divUp x y) ∧ val x / val y ≤ val (divUp x y)
  div_down : ∀ x y : T, ¬ nan x → ¬ nan y → val y ≠ 0 →
    ((val x = ⊤ ∨ val x = ⊥) → val y ≠ ⊤ ∧ val y ≠ ⊥) →
    ¬ nan (divDown x y) ∧ val (divDown x y) ≤ val x / val y
  sqrt_up : ∀ x : T, ¬ nan x → 0 ≤ val x →
    ¬ nan (sqrtUp x) ∧ ∀ a : ℝ, (a : EReal) ≤ val x → ((Real.sqrt a : ℝ) : EReal) ≤ val (sqrtUp x)
  sqrt_down : ∀ x : T, ¬ nan x → 0 ≤ val x →
    ¬ nan (sqrtDown x) ∧
      ∀ a : ℝ, val x ≤ (a : EReal) → val (sqrtDown x) ≤ ((Real.sqrt a : ℝ) : EReal)

/-- Laws of `floor` and `ceil` of a base type. -/
class RopFloor (T : Type) [RopSem T] : Prop where
  floor_sem : ∀ x : T, ¬ RopSem.nan x → ¬ RopSem.nan (Rop.floor x) ∧
    (∀ r : ℝ, RopSem.val x ≤ (r : EReal) → RopSem.val (Rop.floor x) ≤ ((⌊r⌋ : ℝ) : EReal)) ∧
    (∀ r : ℝ, (r : EReal) ≤ RopSem.val x → ((⌊r⌋ : ℝ) : EReal) ≤ RopSem.val (Rop.floor x))
  ceil_sem : ∀ x : T, ¬ RopSem.nan x → ¬ RopSem.nan (Rop.ceil x) ∧
    (∀ r : ℝ, RopSem.val x ≤ (r : EReal) → RopSem.val (Rop.ceil x) ≤ ((⌈r⌉ : ℝ) : EReal)) ∧
    (∀ r : ℝ, (r : EReal) ≤ RopSem.val x → ((⌈r⌉ : ℝ) : EReal) ≤ RopSem.val (Rop.ceil x))

end Kv
