import Mathlib.Data.Int.Log
import Mathlib.Data.Rat.Floor
import Mathlib.Data.EReal.Basic

/-!
# Binary floating-point data and IEEE-754 operations

The headers of kv compute with C++ `double` in a given hardware rounding mode.  This file
models the data type and the five IEEE operations that the headers use.

Simplifications (also in DESIGN.md): one zero (no sign of zero; division by zero behaves like
division by `+0`), no status flags, one NaN.
-/

namespace Kv

/-- A binary format: `p` bits of precision, finite numbers are `m * 2^e` with `|m| < 2^p` and
`emin ≤ e ≤ emax`.  (IEEE-754; the arithmetic of /repo/kv/rdouble-hwround.hpp:17-86 and
/repo/kv/rdouble-nohwround.hpp:30-420 assumes `binary64`.) -/
structure Format where
  p : ℕ
  emin : ℤ
  emax : ℤ
  one_lt_p : 1 < p
  emin_le : emin ≤ -(2 * p)
  emax_ge : 2 ≤ emax

/-- C++ `double` on the systems supported by /repo/kv/rdouble.hpp. -/
def binary64 : Format := ⟨53, -1074, 971, by decide, by decide, by decide⟩

namespace Format
variable (F : Format)

/-- `q` is a finite number of the format. -/
def Rep (q : ℚ) : Prop :=
  ∃ m e : ℤ, |m| < 2 ^ F.p ∧ F.emin ≤ e ∧ e ≤ F.emax ∧ q = m * 2 ^ e

/-- `q` is a number of the format with the upper exponent limit dropped. -/
def RepU (q : ℚ) : Prop :=
  ∃ m e : ℤ, |m| < 2 ^ F.p ∧ F.emin ≤ e ∧ q = m * 2 ^ e

/-- Largest finite number (`std::numeric_limits<T>::max()`). -/
def maxQ : ℚ := (2 ^ F.p - 1) * 2 ^ F.emax

/-- Smallest positive number (`std::numeric_limits<T>::denorm_min()`). -/
def minQ : ℚ := 2 ^ F.emin

/-- Exponent of the unit in the last place used when rounding `q`. -/
def ulpExp (q : ℚ) : ℤ := max F.emin (Int.log 2 |q| - (F.p - 1))

end Format

/-- Hardware rounding modes: up (toward +inf), down (toward -inf), nearest-even
(/repo/kv/hwround.hpp:40-60 `roundup`, `rounddown`, `roundnear`). -/
inductive RMode
  | up | down | near
  deriving DecidableEq, Repr

/-- Round a rational to an integer, ties to even. -/
def rneInt (s : ℚ) : ℤ :=
  let f := ⌊s⌋
  if s - f < 1 / 2 then f
  else if 1 / 2 < s - f then f + 1
  else if f % 2 = 0 then f else f + 1

/-- Round a rational to an integer in the given direction. -/
def RMode.toInt : RMode → ℚ → ℤ
  | .up, s => ⌈s⌉
  | .down, s => ⌊s⌋
  | .near, s => rneInt s

namespace Format
variable (F : Format)

/-- Rounding with unbounded upper exponent. -/
def roundQ (md : RMode) (q : ℚ) : ℚ :=
  let e := F.ulpExp q
  md.toInt (q / 2 ^ e) * 2 ^ e

end Format

/-- Floating-point data of format `F`. -/
inductive Fl (F : Format)
  | nan
  | pinf
  | ninf
  | fin (q : ℚ) (h : F.Rep q)

end Kv
