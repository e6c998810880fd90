import Verif.Double.Hw
import Verif.Interval.DivPow

/-! # Helper lemmas: intervals of doubles with finite endpoints -/

namespace Kv
open Rop RopSem

/-- C++ `double`. -/
abbrev D : Type := Hw binary64

variable {F : Format}

instance : DecidableEq (Hw F) := inferInstanceAs (DecidableEq (Fl F))

/-- The finite double with rational value `q`. -/
def Hw.fin (q : ℚ) (h : F.Rep q) : Hw F := Fl.fin q h

@[simp] theorem Hw.val_fin (q : ℚ) (h : F.Rep q) : val (Hw.fin q h) = ((q : ℝ) : EReal) := rfl
@[simp] theorem Hw.not_nan_fin (q : ℚ) (h : F.Rep q) : ¬ nan (Hw.fin q h) := by
  show ¬ Fl.fin q h = Fl.nan; simp

/-- The interval with finite endpoints `a`, `b`. -/
def Hw.ivl (a b : ℚ) (ha : F.Rep a) (hb : F.Rep b) : Interval (Hw F) := ⟨Hw.fin a ha, Hw.fin b hb⟩

theorem Hw.mem_ivl {a b : ℚ} {ha : F.Rep a} {hb : F.Rep b} {x : ℝ} :
    x ∈ Hw.ivl a b ha hb ↔ (a : ℝ) ≤ x ∧ x ≤ (b : ℝ) := by
  rw [Interval.mem_iff]
  simp [Hw.ivl]

theorem Hw.lo_fin {a : ℚ} {ha : F.Rep a} {x : ℝ} : Lo (Hw.fin a ha) x ↔ (a : ℝ) ≤ x := by
  simp [Lo]
theorem Hw.hi_fin {a : ℚ} {ha : F.Rep a} {x : ℝ} : Hi (Hw.fin a ha) x ↔ x ≤ (a : ℝ) := by
  simp [Hi]

/-- A finite nonempty interval of doubles. -/
def Hw.FinIvl (X : Interval (Hw F)) : Prop :=
  ∃ (a b : ℚ) (ha : F.Rep a) (hb : F.Rep b), a ≤ b ∧ X = Hw.ivl a b ha hb

end Kv
