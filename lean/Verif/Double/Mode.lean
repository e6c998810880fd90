import Verif.Interval.Basic
import Verif.Double.Fin

/-!
# The rounding-mode register

The other files use directed operations as pure functions.  Here the operations of `interval<double>` are transcribed with the
floating-point control register as explicit state: an arithmetic instruction rounds in the mode which is set when it is
executed (`volatile` keeps the compiler from moving it, /repo/kv/rdouble-hwround.hpp:19).  An exception leaves the register as
it is at the `throw`.  `fesetround(FE_TOWARDZERO)` is not used by the modelled code and is left out.
-/

namespace Kv
open Kv.Interval (O)

/-- A computation with the rounding-mode register: result or exception, and the mode afterwards. -/
def RM (α : Type) : Type := RMode → Res α × RMode

namespace RM
variable {α β : Type}

instance : Monad RM where
  pure a := fun md => (.ok a, md)
  bind m k := fun md => match m md with
    | (.ok a, md') => k a md'
    | (.error e, md') => (.error e, md')

/-- `throw` -/
def raise (e : Err) : RM α := fun md => (.error e, md)
/-- `try { m } catch { h }` -/
def handle (m : RM α) (h : Err → RM α) : RM α := fun md => match m md with
  | (.ok a, md') => (.ok a, md')
  | (.error e, md') => h e md'

/-- `hwround::roundnear, rounddown, roundup`, hwround.hpp:187-207 -/
def setMode (r : RMode) : RM Unit := fun _ => (.ok (), r)

/-! Arithmetic instructions in the current mode. -/
def fAdd (x y : D) : RM D := fun md => (.ok (Fl.add md x y), md)
def fSub (x y : D) : RM D := fun md => (.ok (Fl.sub md x y), md)
def fMul (x y : D) : RM D := fun md => (.ok (Fl.mul md x y), md)
def fDiv (x y : D) : RM D := fun md => (.ok (Fl.div md x y), md)
def fSqrt (x : D) : RM D := fun md => (.ok (Fl.sqrt md x), md)
/-- conversion of an integer to `double` -/
def fInt (n : ℤ) : RM D := fun md => (.ok (Fl.round md n), md)
/-- change of sign; exact -/
def fNeg (x : D) : D := Fl.neg x

/-- rdouble-hwround.hpp:90-92 -/
def ropBegin : RM Unit := setMode .up
/-- rdouble-hwround.hpp:94-96 -/
def ropEnd : RM Unit := setMode .near

/-- rdouble-hwround.hpp:18-22 -/
def addUp (x y : D) : RM D := fAdd x y
/-- rdouble-hwround.hpp:24-29 -/
def addDown (x y : D) : RM D := do return fNeg (← fAdd (fNeg x) (fNeg y))
/-- rdouble-hwround.hpp:31-35 -/
def subUp (x y : D) : RM D := fSub x y
/-- rdouble-hwround.hpp:37-42 -/
def subDown (x y : D) : RM D := do return fNeg (← fSub (fNeg x) (fNeg y))
/-- rdouble-hwround.hpp:44-48 -/
def mulUp (x y : D) : RM D := fMul x y
/-- rdouble-hwround.hpp:50-55 -/
def mulDown (x y : D) : RM D := do return fNeg (← fMul (fNeg x) y)
/-- rdouble-hwround.hpp:57-61 -/
def divUp (x y : D) : RM D := fDiv x y
/-- rdouble-hwround.hpp:63-68 -/
def divDown (x y : D) : RM D := do return fNeg (← fDiv (fNeg x) y)
/-- rdouble-hwround.hpp:70-74 -/
def sqrtUp (x : D) : RM D := fSqrt x
/-- rdouble-hwround.hpp:76-88 -/
def sqrtDown (x : D) : RM D := do
  setMode .down
  let r ← fSqrt x
  setMode .up
  return r

local notation "I" => Interval D

/-- interval.hpp:157-166 -/
def add (x y : I) : RM I := do
  ropBegin
  let a ← addDown x.inf y.inf
  let b ← addUp x.sup y.sup
  ropEnd
  return ⟨a, b⟩
/-- interval.hpp:168-176; also 202-210 `+=` -/
def addS (x : I) (y : D) : RM I := do
  ropBegin
  let a ← addDown x.inf y
  let b ← addUp x.sup y
  ropEnd
  return ⟨a, b⟩
/-- interval.hpp:182-191 -/
def sAdd (x : D) (y : I) : RM I := do
  ropBegin
  let a ← addDown x y.inf
  let b ← addUp x y.sup
  ropEnd
  return ⟨a, b⟩
/-- interval.hpp:168-176 for an integer operand: `T(y)` is converted while the mode is up -/
def addZ (x : I) (n : ℤ) : RM I := do
  ropBegin
  let a ← addDown x.inf (← fInt n)
  let b ← addUp x.sup (← fInt n)
  ropEnd
  return ⟨a, b⟩
/-- interval.hpp:217-226 -/
def sub (x y : I) : RM I := do
  ropBegin
  let a ← subDown x.inf y.sup
  let b ← subUp x.sup y.inf
  ropEnd
  return ⟨a, b⟩
/-- interval.hpp:228-237; also 263-271 `-=` -/
def subS (x : I) (y : D) : RM I := do
  ropBegin
  let a ← subDown x.inf y
  let b ← subUp x.sup y
  ropEnd
  return ⟨a, b⟩
/-- interval.hpp:243-252 -/
def sSub (x : D) (y : I) : RM I := do
  ropBegin
  let a ← subDown x y.sup
  let b ← subUp x y.inf
  ropEnd
  return ⟨a, b⟩

/-- `r.inf = mul_down(a,b); r.sup = mul_up(c,d);` -/
def mulPair (a b c d : D) : RM I := do
  let r ← mulDown a b
  let s ← mulUp c d
  return ⟨r, s⟩
/-- `r.inf = div_down(a,b); r.sup = div_up(c,d);` -/
def divPair (a b c d : D) : RM I := do
  let r ← divDown a b
  let s ← divUp c d
  return ⟨r, s⟩

/-- interval.hpp:287-351 -/
def mul (x y : I) : RM I := do
  ropBegin
  let r ← (
    if Rop.le O x.inf then
      if Rop.eq x.sup O then pure ⟨O, O⟩
      else if Rop.le O y.inf then
        if Rop.eq y.sup O then pure ⟨O, O⟩
        else mulPair x.inf y.inf x.sup y.sup
      else if Rop.le y.sup O then mulPair x.sup y.inf x.inf y.sup
      else mulPair x.sup y.inf x.sup y.sup
    else if Rop.le x.sup O then
      if Rop.le O y.inf then
        if Rop.eq y.sup O then pure ⟨O, O⟩
        else mulPair x.inf y.sup x.sup y.inf
      else if Rop.le y.sup O then mulPair x.sup y.sup x.inf y.inf
      else mulPair x.inf y.sup x.inf y.inf
    else
      if Rop.le O y.inf then
        if Rop.eq y.sup O then pure ⟨O, O⟩
        else mulPair x.inf y.sup x.sup y.sup
      else if Rop.le y.sup O then mulPair x.sup y.inf x.inf y.inf
      else do
        let r1 ← mulDown x.inf y.sup
        let t1 ← mulDown x.sup y.inf
        let r1 := if Rop.lt t1 r1 then t1 else r1
        let r2 ← mulUp x.inf y.inf
        let t2 ← mulUp x.sup y.sup
        let r2 := if Rop.lt r2 t2 then t2 else r2
        return ⟨r1, r2⟩ : RM I)
  ropEnd
  return r

/-- interval.hpp:353-371 -/
def mulS (x : I) (y : D) : RM I := do
  ropBegin
  let r ←
    if Rop.lt O y then mulPair x.inf y x.sup y
    else if Rop.lt y O then mulPair x.sup y x.inf y
    else pure ⟨O, O⟩
  ropEnd
  return r
/-- interval.hpp:377-395 -/
def sMul (x : D) (y : I) : RM I := do
  ropBegin
  let r ←
    if Rop.lt O x then mulPair x y.inf x y.sup
    else if Rop.lt x O then mulPair x y.sup x y.inf
    else pure ⟨O, O⟩
  ropEnd
  return r

/-- `rop<T>::end(); throw std::domain_error(..);` -/
def endThrow : RM I := do
  ropEnd
  raise .domainError

/-- interval.hpp:416-449 -/
def div (x y : I) : RM I := do
  ropBegin
  let r ←
    if Rop.lt O y.inf then
      if Rop.le O x.inf then divPair x.inf y.sup x.sup y.inf
      else if Rop.le x.sup O then divPair x.inf y.inf x.sup y.sup
      else divPair x.inf y.inf x.sup y.inf
    else if Rop.lt y.sup O then
      if Rop.le O x.inf then divPair x.sup y.sup x.inf y.inf
      else if Rop.le x.sup O then divPair x.sup y.inf x.inf y.sup
      else divPair x.sup y.sup x.inf y.sup
    else endThrow
  ropEnd
  return r
/-- interval.hpp:451-468 -/
def divS (x : I) (y : D) : RM I := do
  ropBegin
  let r ←
    if Rop.lt O y then divPair x.inf y x.sup y
    else if Rop.lt y O then divPair x.sup y x.inf y
    else endThrow
  ropEnd
  return r
/-- interval.hpp:474-493 -/
def sDiv (x : D) (y : I) : RM I := do
  ropBegin
  let r ←
    if Rop.lt O y.inf || Rop.lt y.sup O then
      if Rop.le O x then divPair x y.sup x y.inf
      else divPair x y.inf x y.sup
    else endThrow
  ropEnd
  return r
/-- interval.hpp:523-536: the exception is thrown before `begin()` -/
def sqrt (x : I) : RM I := do
  if Rop.lt x.inf O then raise .domainError
  else
    ropBegin
    let a ← sqrtDown x.inf
    let b ← sqrtUp x.sup
    ropEnd
    return ⟨a, b⟩

/-- interval.hpp:594-602 -/
def width (x : I) : RM D := do
  ropBegin
  let r ← subUp x.sup x.inf
  ropEnd
  return r
/-- interval.hpp:604-612 -/
def rad (x : I) : RM D := do
  ropBegin
  let r ← mulUp (← subUp x.sup x.inf) (Rop.lit (1 / 2))
  ropEnd
  return r
/-- interval.hpp:615-622: ordinary arithmetic in the mode of the caller -/
def mid (x : I) : RM D :=
  if Rop.lt (Rop.lit 1) (Rop.abs x.inf) && Rop.lt (Rop.lit 1) (Rop.abs x.sup) then do
    fAdd (← fMul x.inf (Rop.lit (1 / 2))) (← fMul x.sup (Rop.lit (1 / 2)))
  else do fMul (← fAdd x.inf x.sup) (Rop.lit (1 / 2))
/-- interval.hpp:628-636 -/
def midrad (x : I) : RM (D × D) := do
  let m ← mid x
  ropBegin
  let r ← subUp x.sup m
  let t ← subUp m x.inf
  ropEnd
  return (m, if Rop.lt r t then t else r)

/-- interval.hpp:855-917: the exception is thrown before `begin()` -/
def divisionPart1 (x y : I) : RM (I × Bool) :=
  if Rop.lt O y.inf || Rop.lt y.sup O then do return (← div x y, false)
  else if Rop.eq y.inf O && Rop.eq y.sup O then raise .domainError
  else do
    ropBegin
    let r ← (
      if Rop.lt y.inf O && Rop.eq y.sup O then
        if Rop.eq x.inf O && Rop.eq x.sup O then pure (⟨O, O⟩, false)
        else if Rop.le O x.inf then do return (⟨Rop.neg Rop.inf, ← divUp x.inf y.inf⟩, false)
        else if Rop.le x.sup O then do return (⟨← divDown x.sup y.inf, Rop.inf⟩, false)
        else pure (⟨Rop.neg Rop.inf, Rop.inf⟩, false)
      else if Rop.eq y.inf O && Rop.lt O y.sup then
        if Rop.eq x.inf O && Rop.eq x.sup O then pure (⟨O, O⟩, false)
        else if Rop.le O x.inf then do return (⟨← divDown x.inf y.sup, Rop.inf⟩, false)
        else if Rop.le x.sup O then do return (⟨Rop.neg Rop.inf, ← divUp x.sup y.sup⟩, false)
        else pure (⟨Rop.neg Rop.inf, Rop.inf⟩, false)
      else
        if Rop.eq x.inf O && Rop.eq x.sup O then pure (⟨O, O⟩, false)
        else if Rop.lt O x.inf then do return (⟨Rop.neg Rop.inf, ← divUp x.inf y.inf⟩, true)
        else if Rop.lt x.sup O then do return (⟨Rop.neg Rop.inf, ← divUp x.sup y.sup⟩, true)
        else pure (⟨Rop.neg Rop.inf, Rop.inf⟩, false) : RM (I × Bool))
    ropEnd
    return r

/-- interval.hpp:919-977 -/
def divisionPart2 (x y : I) : RM I :=
  if Rop.lt O y.inf || Rop.lt y.sup O then div x y
  else if Rop.eq y.inf O && Rop.eq y.sup O then raise .domainError
  else do
    ropBegin
    let r ← (
      if Rop.lt y.inf O && Rop.eq y.sup O then
        if Rop.eq x.inf O && Rop.eq x.sup O then pure ⟨O, O⟩
        else if Rop.le O x.inf then do return ⟨Rop.neg Rop.inf, ← divUp x.inf y.inf⟩
        else if Rop.le x.sup O then do return ⟨← divDown x.sup y.inf, Rop.inf⟩
        else pure ⟨Rop.neg Rop.inf, Rop.inf⟩
      else if Rop.eq y.inf O && Rop.lt O y.sup then
        if Rop.eq x.inf O && Rop.eq x.sup O then pure ⟨O, O⟩
        else if Rop.le O x.inf then do return ⟨← divDown x.inf y.sup, Rop.inf⟩
        else if Rop.le x.sup O then do return ⟨Rop.neg Rop.inf, ← divUp x.sup y.sup⟩
        else pure ⟨Rop.neg Rop.inf, Rop.inf⟩
      else
        if Rop.eq x.inf O && Rop.eq x.sup O then pure ⟨O, O⟩
        else if Rop.lt O x.inf then do return ⟨← divDown x.inf y.sup, Rop.inf⟩
        else if Rop.lt x.sup O then do return ⟨← divDown x.sup y.inf, Rop.inf⟩
        else pure ⟨Rop.neg Rop.inf, Rop.inf⟩ : RM I)
    ropEnd
    return r

/-- What the reference parameter `const C& y` of a compound assignment refers to: another object, or an endpoint of the target
itself (`x += x.lower()`). -/
inductive Arg
  | other (k : D)
  | ownInf
  | ownSup

/-- the value of the parameter while the target is `x` -/
def Arg.get (x : I) : Arg → D
  | .other k => k
  | .ownInf => x.inf
  | .ownSup => x.sup

/-- interval.hpp:202-210 `x += y`: the endpoints are assigned one after the other, `y` is read twice -/
def addAssign (x : I) (y : Arg) : RM I := do
  ropBegin
  let a ← addDown x.inf (y.get x)
  let x : I := ⟨a, x.sup⟩
  let b ← addUp x.sup (y.get x)
  let x : I := ⟨x.inf, b⟩
  ropEnd
  return x
/-- interval.hpp:263-271 `x -= y` -/
def subAssign (x : I) (y : Arg) : RM I := do
  ropBegin
  let a ← subDown x.inf (y.get x)
  let x : I := ⟨a, x.sup⟩
  let b ← subUp x.sup (y.get x)
  let x : I := ⟨x.inf, b⟩
  ropEnd
  return x
/-- interval.hpp:406-409 `x *= y` -/
def mulAssign (x : I) (y : Arg) : RM I := mulS x (y.get x)
/-- interval.hpp:504-507 `x /= y` -/
def divAssign (x : I) (y : Arg) : RM I := divS x (y.get x)

/-! ## Programs -/

/-- A call: an operation of `interval<double>` or a floating-point operation of the calling program. -/
inductive Call : Type → Type
  | add (x y : I) : Call I
  | addS (x : I) (y : D) : Call I
  | sAdd (x : D) (y : I) : Call I
  | sub (x y : I) : Call I
  | subS (x : I) (y : D) : Call I
  | sSub (x : D) (y : I) : Call I
  | mul (x y : I) : Call I
  | mulS (x : I) (y : D) : Call I
  | sMul (x : D) (y : I) : Call I
  | div (x y : I) : Call I
  | divS (x : I) (y : D) : Call I
  | sDiv (x : D) (y : I) : Call I
  | sqrt (x : I) : Call I
  | width (x : I) : Call D
  | rad (x : I) : Call D
  | mid (x : I) : Call D
  | midrad (x : I) : Call (D × D)
  | divisionPart1 (x y : I) : Call (I × Bool)
  | divisionPart2 (x y : I) : Call I
  | fAdd (x y : D) : Call D
  | fSub (x y : D) : Call D
  | fMul (x y : D) : Call D
  | fDiv (x y : D) : Call D
  | fSqrt (x : D) : Call D
  | fInt (n : ℤ) : Call D

/-- execution of a call with the register -/
def Call.run : Call α → RM α
  | .add x y => RM.add x y
  | .addS x y => RM.addS x y
  | .sAdd x y => RM.sAdd x y
  | .sub x y => RM.sub x y
  | .subS x y => RM.subS x y
  | .sSub x y => RM.sSub x y
  | .mul x y => RM.mul x y
  | .mulS x y => RM.mulS x y
  | .sMul x y => RM.sMul x y
  | .div x y => RM.div x y
  | .divS x y => RM.divS x y
  | .sDiv x y => RM.sDiv x y
  | .sqrt x => RM.sqrt x
  | .width x => RM.width x
  | .rad x => RM.rad x
  | .mid x => RM.mid x
  | .midrad x => RM.midrad x
  | .divisionPart1 x y => RM.divisionPart1 x y
  | .divisionPart2 x y => RM.divisionPart2 x y
  | .fAdd x y => RM.fAdd x y
  | .fSub x y => RM.fSub x y
  | .fMul x y => RM.fMul x y
  | .fDiv x y => RM.fDiv x y
  | .fSqrt x => RM.fSqrt x
  | .fInt n => RM.fInt n

/-- the value of a call with ideal directed operations and ordinary arithmetic to nearest -/
def Call.ideal : Call α → Res α
  | .add x y => .ok (Interval.add x y)
  | .addS x y => .ok (Interval.addS x y)
  | .sAdd x y => .ok (Interval.sAdd x y)
  | .sub x y => .ok (Interval.sub x y)
  | .subS x y => .ok (Interval.subS x y)
  | .sSub x y => .ok (Interval.sSub x y)
  | .mul x y => .ok (Interval.mul x y)
  | .mulS x y => .ok (Interval.mulS x y)
  | .sMul x y => .ok (Interval.sMul x y)
  | .div x y => Interval.div x y
  | .divS x y => Interval.divS x y
  | .sDiv x y => Interval.sDiv x y
  | .sqrt x => Interval.sqrt x
  | .width x => .ok (Interval.width x)
  | .rad x => .ok (Interval.rad x)
  | .mid x => .ok (Interval.mid x)
  | .midrad x => .ok (Interval.midrad x)
  | .divisionPart1 x y => Interval.divisionPart1 x y
  | .divisionPart2 x y => Interval.divisionPart2 x y
  | .fAdd x y => .ok (Fl.add .near x y)
  | .fSub x y => .ok (Fl.sub .near x y)
  | .fMul x y => .ok (Fl.mul .near x y)
  | .fDiv x y => .ok (Fl.div .near x y)
  | .fSqrt x => .ok (Fl.sqrt .near x)
  | .fInt n => .ok (Fl.round .near n)

/-- A program: what it does next may depend on all results so far; exceptions may be thrown and caught. -/
inductive Act : Type → Type 1
  | ret {α : Type} (a : α) : Act α
  | raise {α : Type} (e : Err) : Act α
  | call {α β : Type} (c : Call β) (k : β → Act α) : Act α
  | try {α β : Type} (p : Act β) (h : Err → Act β) (k : β → Act α) : Act α

/-- execution of a program with the register -/
def Act.run {α : Type} : Act α → RM α
  | .ret a => pure a
  | .raise e => RM.raise e
  | .call c k => c.run >>= fun b => (k b).run
  | .try p h k => handle p.run (fun e => (h e).run) >>= fun b => (k b).run

/-- the meaning of a program with ideal operations -/
def Act.ideal {α : Type} : Act α → Res α
  | .ret a => .ok a
  | .raise e => .error e
  | .call c k => c.ideal >>= fun b => (k b).ideal
  | .try p h k => (match p.ideal with | .ok b => .ok b | .error e => (h e).ideal) >>= fun b => (k b).ideal

end RM
end Kv
