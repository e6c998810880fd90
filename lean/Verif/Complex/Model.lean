import Verif.Interval.Elem
import Verif.Double.Elem

/-!
# Model of `complex<interval<double>>` (/repo/kv/complex.hpp)

Every function of the class is modelled except printing.  `fuel` bounds the loops of the elementary functions of intervals.
-/

namespace Kv

/-- `class complex`, complex.hpp:27-29 -/
structure Cx where
  re : Interval D
  im : Interval D
  deriving DecidableEq

/-- The argument type of the mixed operators, `acceptable_n<C, complex<T>>` (complex.hpp:22-24): a number or an interval. -/
inductive Sc
  | dbl (k : D)
  | ivl (a : Interval D)

namespace Cx
open Rop (lit)
open Kv.Interval (add addS sAdd sub subS sSub mul mulS sMul div divS sDiv neg point)

/-! The operators of intervals and mixed operators which overload resolution selects. -/
/-- interval.hpp:168-176 or 157-166 -/
def addK (a : Interval D) : Sc → Interval D
  | .dbl k => addS a k
  | .ivl b => add a b
/-- interval.hpp:182-191 or 157-166 -/
def kAdd : Sc → Interval D → Interval D
  | .dbl k, b => sAdd k b
  | .ivl a, b => add a b
/-- interval.hpp:228-237 or 217-226 -/
def subK (a : Interval D) : Sc → Interval D
  | .dbl k => subS a k
  | .ivl b => sub a b
/-- interval.hpp:243-252 or 217-226 -/
def kSub : Sc → Interval D → Interval D
  | .dbl k, b => sSub k b
  | .ivl a, b => sub a b
/-- interval.hpp:353-371 or 287-351 -/
def mulK (a : Interval D) : Sc → Interval D
  | .dbl k => mulS a k
  | .ivl b => mul a b
/-- interval.hpp:377-395 or 287-351 -/
def kMul : Sc → Interval D → Interval D
  | .dbl k, b => sMul k b
  | .ivl a, b => mul a b
/-- interval.hpp:451-468 or 416-449 -/
def divK (a : Interval D) : Sc → Res (Interval D)
  | .dbl k => divS a k
  | .ivl b => div a b
/-- unary minus of a number or an interval -/
def negK : Sc → Sc
  | .dbl k => .dbl (Rop.neg k)
  | .ivl a => .ivl (neg a)
/-- the conversion `re = x` of a number or an interval to an interval -/
def ofK : Sc → Interval D
  | .dbl k => point k
  | .ivl a => a

/-- the converting constructor and assignment, complex.hpp:40-43, 55-59 -/
def ofSc (x : Sc) : Cx := ⟨ofK x, point (lit 0)⟩

/-- complex.hpp:67-74 (and `+=`, 94-97) -/
def cAdd (x y : Cx) : Cx := ⟨add x.re y.re, add x.im y.im⟩
/-- complex.hpp:76-83 (and `+=`, 99-102) -/
def cAddK (x : Cx) (y : Sc) : Cx := ⟨addK x.re y, x.im⟩
/-- complex.hpp:85-92 -/
def kAddC (x : Sc) (y : Cx) : Cx := ⟨kAdd x y.re, y.im⟩
/-- complex.hpp:104-111 (and `-=`, 131-134) -/
def cSub (x y : Cx) : Cx := ⟨sub x.re y.re, sub x.im y.im⟩
/-- complex.hpp:113-120 (and `-=`, 136-139) -/
def cSubK (x : Cx) (y : Sc) : Cx := ⟨subK x.re y, x.im⟩
/-- complex.hpp:122-129 -/
def kSubC (x : Sc) (y : Cx) : Cx := ⟨kSub x y.re, neg y.im⟩
/-- complex.hpp:141-148 -/
def cNeg (x : Cx) : Cx := ⟨neg x.re, neg x.im⟩
/-- complex.hpp:150-157 (and `*=`, 177-180) -/
def cMul (x y : Cx) : Cx := ⟨sub (mul x.re y.re) (mul x.im y.im), add (mul x.re y.im) (mul x.im y.re)⟩
/-- complex.hpp:159-166 -/
def cMulK (x : Cx) (y : Sc) : Cx := ⟨mulK x.re y, mulK x.im y⟩
/-- complex.hpp:168-175 -/
def kMulC (x : Sc) (y : Cx) : Cx := ⟨kMul x y.re, kMul x y.im⟩
/-- complex.hpp:188-212 (and `/=`, 250-253) -/
def cDiv (x y : Cx) : Res Cx := do
  let tmp := add (mul y.re y.re) (mul y.im y.im)
  let re ← div (add (mul y.re x.re) (mul y.im x.im)) tmp
  let im ← div (sub (mul y.re x.im) (mul x.re y.im)) tmp
  .ok ⟨re, im⟩
/-- complex.hpp:214-221 -/
def cDivK (x : Cx) (y : Sc) : Res Cx := do
  let re ← divK x.re y
  let im ← divK x.im y
  .ok ⟨re, im⟩
/-- What the reference parameter `const C& y` of a compound assignment refers to: another object, or the real or imaginary part
of the target itself (`z *= z.real()`). -/
inductive Arg
  | other (k : Sc)
  | ownRe
  | ownIm
/-- the value of the parameter while the target is `x` -/
def Arg.get (x : Cx) : Arg → Sc
  | .other k => k
  | .ownRe => .ivl x.re
  | .ownIm => .ivl x.im
/-- complex.hpp:182-186 `x *= y`: the parts are assigned one after the other -/
def mulAssign (x : Cx) (y : Arg) : Cx :=
  let x : Cx := ⟨mulK x.re (y.get x), x.im⟩
  ⟨x.re, mulK x.im (y.get x)⟩
/-- complex.hpp:255-259 `x /= y` -/
def divAssign (x : Cx) (y : Arg) : Res Cx := do
  let re ← divK x.re (y.get x)
  let x : Cx := ⟨re, x.im⟩
  let im ← divK x.im (y.get x)
  .ok ⟨x.re, im⟩
/-- complex.hpp:223-251 -/
def kDivC (x : Sc) (y : Cx) : Res Cx := do
  let tmp := add (mul y.re y.re) (mul y.im y.im)
  let re ← div (mulK y.re x) tmp
  let im ← div (kMul (negK x) y.im) tmp
  .ok ⟨re, im⟩
/-- complex.hpp:281-283 -/
def I : Cx := ⟨point (lit 0), point (lit 1)⟩
/-- complex.hpp:286-290 -/
def abs (x : Cx) : Res (Interval D) := do
  let a ← Interval.powInt x.re 2
  let b ← Interval.powInt x.im 2
  Interval.sqrt (add a b)
/-- complex.hpp:292-295 -/
def arg (fuel : ℕ) (x : Cx) : Res (Interval D) := Interval.atan2 fuel x.im x.re
/-- complex.hpp:297-299 -/
def conj (x : Cx) : Cx := ⟨x.re, neg x.im⟩
/-- complex.hpp:301-309 -/
def sqrt (fuel : ℕ) (x : Cx) : Res Cx := do
  let m ← abs x
  let r ← Interval.sqrt m
  let a ← arg fuel x
  let a := mulS a (lit (1 / 2))
  let c ← Interval.cos fuel a
  let s ← Interval.sin fuel a
  .ok ⟨mul r c, mul r s⟩
/-- the loop of `pow`, complex.hpp:321-327; `tmp` is halved in every pass -/
def powLoop (tmp : ℕ) (r xp : Cx) : Cx :=
  if tmp = 0 then r
  else powLoop (tmp / 2) (if tmp % 2 ≠ 0 then cMul r xp else r) (cMul xp xp)
termination_by tmp
decreasing_by omega
/-- complex.hpp:311-333; `-y` overflows for `INT_MIN` -/
def powInt (x : Cx) (y : ℤ) : Res Cx :=
  if y = 0 then .ok (ofSc (.dbl (lit 1)))
  else if y = -2147483648 then .error .undefined
  else
    let r := powLoop y.natAbs (ofSc (.dbl (lit 1))) x
    if y < 0 then kDivC (.dbl (lit 1)) r else .ok r
/-- complex.hpp:347-354 -/
def exp (fuel : ℕ) (x : Cx) : Res Cx := do
  let tmp ← Interval.exp fuel x.re
  let c ← Interval.cos fuel x.im
  let s ← Interval.sin fuel x.im
  .ok ⟨mul tmp c, mul tmp s⟩
/-- complex.hpp:356-359 -/
def log (fuel : ℕ) (x : Cx) : Res Cx := do
  let m ← abs x
  let l ← Interval.log fuel m
  let a ← arg fuel x
  .ok ⟨l, a⟩
/-- complex.hpp:335-337; the mixed overloads (339-345) convert the scalar first -/
def pow (fuel : ℕ) (x y : Cx) : Res Cx := do
  let l ← log fuel x
  exp fuel (cMul y l)
/-- complex.hpp:361-367 -/
def sin (fuel : ℕ) (x : Cx) : Res Cx := do
  let s ← Interval.sin fuel x.re
  let ch ← Interval.cosh fuel x.im
  let c ← Interval.cos fuel x.re
  let sh ← Interval.sinh fuel x.im
  .ok ⟨mul s ch, mul c sh⟩
/-- complex.hpp:369-375 -/
def cos (fuel : ℕ) (x : Cx) : Res Cx := do
  let c ← Interval.cos fuel x.re
  let ch ← Interval.cosh fuel x.im
  let s ← Interval.sin fuel x.re
  let sh ← Interval.sinh fuel x.im
  .ok ⟨mul c ch, mul (neg s) sh⟩
/-- complex.hpp:377-387 -/
def tan (fuel : ℕ) (x : Cx) : Res Cx := do
  let tx := sMul (lit 2) x.re
  let ty := sMul (lit 2) x.im
  let c ← Interval.cos fuel tx
  let ch ← Interval.cosh fuel ty
  let tmp := add c ch
  let s ← Interval.sin fuel tx
  let re ← div s tmp
  let sh ← Interval.sinh fuel ty
  let im ← div sh tmp
  .ok ⟨re, im⟩
/-- complex.hpp:389-391 -/
def asin (fuel : ℕ) (x : Cx) : Res Cx := do
  let s ← sqrt fuel (kSubC (.dbl (lit 1)) (cMul x x))
  let l ← log fuel (cAdd (cMul I x) s)
  .ok (cMul (cNeg I) l)
/-- complex.hpp:393-395 -/
def acos (fuel : ℕ) (x : Cx) : Res Cx := do
  let s ← sqrt fuel (kSubC (.dbl (lit 1)) (cMul x x))
  let l ← log fuel (cAdd x (cMul I s))
  .ok (cMul (cNeg I) l)
/-- complex.hpp:397-399 -/
def atan (fuel : ℕ) (x : Cx) : Res Cx := do
  let q ← cDiv (cAdd I x) (cSub I x)
  let l ← log fuel q
  .ok (cMul (cMulK I (.dbl (lit (1 / 2)))) l)
/-- complex.hpp:401-407 -/
def sinh (fuel : ℕ) (x : Cx) : Res Cx := do
  let sh ← Interval.sinh fuel x.re
  let c ← Interval.cos fuel x.im
  let ch ← Interval.cosh fuel x.re
  let s ← Interval.sin fuel x.im
  .ok ⟨mul sh c, mul ch s⟩
/-- complex.hpp:409-415 -/
def cosh (fuel : ℕ) (x : Cx) : Res Cx := do
  let ch ← Interval.cosh fuel x.re
  let c ← Interval.cos fuel x.im
  let sh ← Interval.sinh fuel x.re
  let s ← Interval.sin fuel x.im
  .ok ⟨mul ch c, mul sh s⟩
/-- complex.hpp:417-427 -/
def tanh (fuel : ℕ) (x : Cx) : Res Cx := do
  let tx := sMul (lit 2) x.re
  let ty := sMul (lit 2) x.im
  let ch ← Interval.cosh fuel tx
  let c ← Interval.cos fuel ty
  let tmp := add ch c
  let sh ← Interval.sinh fuel tx
  let re ← div sh tmp
  let s ← Interval.sin fuel ty
  let im ← div s tmp
  .ok ⟨re, im⟩
/-- complex.hpp:429-431 -/
def asinh (fuel : ℕ) (x : Cx) : Res Cx := do
  let s ← sqrt fuel (cAddK (cMul x x) (.dbl (lit 1)))
  log fuel (cAdd x s)
/-- complex.hpp:433-435 -/
def acosh (fuel : ℕ) (x : Cx) : Res Cx := do
  let s ← sqrt fuel (cSubK (cMul x x) (.dbl (lit 1)))
  log fuel (cAdd x s)
/-- complex.hpp:437-439 -/
def atanh (fuel : ℕ) (x : Cx) : Res Cx := do
  let q ← cDiv (kAddC (.dbl (lit 1)) x) (kSubC (.dbl (lit 1)) x)
  let l ← log fuel q
  .ok (kMulC (.dbl (lit (1 / 2))) l)

end Cx
end Kv
