import Verif.Float.Round
import Mathlib.Data.EReal.Inv
import Mathlib.Data.Nat.Sqrt
import Mathlib.Analysis.Real.Sqrt

/-!
# IEEE-754 operations on `Fl F`

Every operation takes the hardware rounding mode as an argument: the exact rational result is
computed and then rounded.
-/

namespace Kv
namespace Fl
open Format
variable {F : Format}

/-- Extended-real value; NaN is given the junk value 0 and always excluded separately. -/
noncomputable def toE : Fl F → EReal
  | nan => 0
  | pinf => ⊤
  | ninf => ⊥
  | fin q _ => ((q : ℝ) : EReal)

/-- `x != x` in C++. -/
def isNaN : Fl F → Bool
  | nan => true
  | _ => false

/-- `std::numeric_limits<T>::max()`. -/
def maxF : Fl F := fin F.maxQ maxQ_rep

/-- Zero. -/
def zero : Fl F := fin 0 rep_zero

/-- Unary minus (exact). -/
def neg : Fl F → Fl F
  | nan => nan
  | pinf => ninf
  | ninf => pinf
  | fin q h => fin (-q) h.neg

/-- `std::fabs` (exact). -/
def abs : Fl F → Fl F
  | nan => nan
  | pinf => pinf
  | ninf => pinf
  | fin q h => if 0 ≤ q then fin q h else fin (-q) h.neg

/-- IEEE result on overflow: the directed modes stay at the largest finite number when rounding
toward zero. -/
def overflow : RMode → Bool → Fl F
  | .down, true => maxF
  | _, true => pinf
  | .up, false => neg maxF
  | _, false => ninf

/-- Put a rounded value (exponent unbounded above) into the format. -/
def pack (md : RMode) (r : ℚ) (hr : F.RepU r) : Fl F :=
  if h : |r| ≤ F.maxQ then fin r (rep_of_repU hr h) else overflow md (decide (0 < r))

/-- Rounding of an exact rational result, with IEEE overflow. -/
def round (md : RMode) (q : ℚ) : Fl F := pack md (F.roundQ md q) (roundQ_repU md q)

/-- `x + y`. -/
def add (md : RMode) : Fl F → Fl F → Fl F
  | nan, _ => nan
  | _, nan => nan
  | fin a _, fin b _ => round md (a + b)
  | pinf, ninf => nan
  | ninf, pinf => nan
  | pinf, _ => pinf
  | ninf, _ => ninf
  | _, pinf => pinf
  | _, ninf => ninf

/-- `x - y`. -/
def sub (md : RMode) (x y : Fl F) : Fl F := add md x (neg y)

/-- Sign of a non-NaN datum. -/
def sgn : Fl F → ℤ
  | nan => 0
  | pinf => 1
  | ninf => -1
  | fin q _ => if 0 < q then 1 else if q < 0 then -1 else 0

/-- Infinity with the sign of `s`, NaN for `s = 0`. -/
def infOfSign (s : ℤ) : Fl F := if 0 < s then pinf else if s < 0 then ninf else nan

/-- `x * y`. -/
def mul (md : RMode) : Fl F → Fl F → Fl F
  | nan, _ => nan
  | _, nan => nan
  | fin a _, fin b _ => round md (a * b)
  | x, y => infOfSign (sgn x * sgn y)

/-- `x / y` (division by zero as by `+0`). -/
def div (md : RMode) : Fl F → Fl F → Fl F
  | nan, _ => nan
  | _, nan => nan
  | fin a h, fin b _ => if b = 0 then infOfSign (sgn (fin a h)) else round md (a / b)
  | fin _ _, _ => zero
  | x, fin b _ => infOfSign (if b < 0 then -sgn x else sgn x)
  | _, _ => nan

/-- Correctly rounded square root of a nonnegative rational (value before `round`). -/
def sqrtQ (F : Format) (md : RMode) (q : ℚ) : ℚ :=
  let e := max F.emin (Int.log 2 q / 2 - (F.p - 1))
  let t := q / 4 ^ e
  let s := Nat.sqrt ⌊t⌋₊
  let s' : ℕ :=
    match md with
    | .down => s
    | .up => if (s : ℚ) * s = t then s else s + 1
    | .near =>
      if t < (s + 1 / 2 : ℚ) * (s + 1 / 2) then s
      else if (s + 1 / 2 : ℚ) * (s + 1 / 2) < t then s + 1
      else if s % 2 = 0 then s else s + 1
  s' * 2 ^ e

/-- `std::sqrt`. -/
def sqrt (md : RMode) : Fl F → Fl F
  | nan => nan
  | pinf => pinf
  | ninf => nan
  | fin q _ => if q < 0 then nan else round md (sqrtQ F md q)

/-- `std::floor`. -/
def floor : Fl F → Fl F
  | fin q _ => round .near (⌊q⌋ : ℤ)
  | x => x

/-- `std::ceil`. -/
def ceil : Fl F → Fl F
  | fin q _ => round .near (⌈q⌉ : ℤ)
  | x => x

/-- C++ `x < y`. -/
def lt : Fl F → Fl F → Bool
  | fin a _, fin b _ => decide (a < b)
  | ninf, fin _ _ => true
  | ninf, pinf => true
  | fin _ _, pinf => true
  | _, _ => false

/-- C++ `x <= y`. -/
def le : Fl F → Fl F → Bool
  | fin a _, fin b _ => decide (a ≤ b)
  | ninf, fin _ _ => true
  | ninf, pinf => true
  | fin _ _, pinf => true
  | ninf, ninf => true
  | pinf, pinf => true
  | _, _ => false

/-- C++ `x == y`. -/
def eq : Fl F → Fl F → Bool
  | fin a _, fin b _ => decide (a = b)
  | ninf, ninf => true
  | pinf, pinf => true
  | _, _ => false

/-- A numeric literal or an integer converted to the format (nearest). -/
def lit (q : ℚ) : Fl F := round .near q

instance : DecidableEq (Fl F) := fun x y =>
  match x, y with
  | nan, nan => isTrue rfl
  | pinf, pinf => isTrue rfl
  | ninf, ninf => isTrue rfl
  | fin a _, fin b _ =>
    if h : a = b then isTrue (by subst h; rfl)
    else isFalse (by intro h'; injection h' with h''; exact h h'')
  | nan, pinf => isFalse (by intro h; cases h)
  | nan, ninf => isFalse (by intro h; cases h)
  | nan, fin _ _ => isFalse (by intro h; cases h)
  | pinf, nan => isFalse (by intro h; cases h)
  | pinf, ninf => isFalse (by intro h; cases h)
  | pinf, fin _ _ => isFalse (by intro h; cases h)
  | ninf, nan => isFalse (by intro h; cases h)
  | ninf, pinf => isFalse (by intro h; cases h)
  | ninf, fin _ _ => isFalse (by intro h; cases h)
  | fin _ _, nan => isFalse (by intro h; cases h)
  | fin _ _, pinf => isFalse (by intro h; cases h)
  | fin _ _, ninf => isFalse (by intro h; cases h)

end Fl
end Kv
