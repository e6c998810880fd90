import Verif.Interval.Basic

/-!
# Elementary functions of `interval<T>`

/repo/kv/interval.hpp:1017-1930.  Loops without a static bound are recursions on a `fuel` argument
and give the error `outOfFuel` when it is used up, so a theorem about a returned value holds for
every number of iterations.  The loop counters are C++ `int`: reaching `2^31` is the error
`undefined`.

The `static` variables which cache the constants (interval.hpp:1856, 1871, 1900) are not modelled
here: the constant is recomputed by every call.  `constants<...>` under several threads is modelled
in `Verif/Solver/Cache.lean`.
-/

namespace Kv

/-- Further operations on the base type used by the elementary functions: the cast `(double)x_i`
used as a loop counter (interval.hpp:1105, 1108), the exponent given by `std::frexp` (interval.hpp:1179)
and the conversion of a decimal string, rounded up or down (`rop<T>::fromstring_up/down`,
interval.hpp:1874, the string being given by its value). -/
class RopX (T : Type) [Rop T] where
  toNat : T → Option ℕ
  frexpE : T → ℤ
  strUp : ℚ → T
  strDown : ℚ → T

/-! Double constants that appear as thresholds; the values are the doubles computed by
`std::sqrt(2.)` etc. in round-to-nearest (checked in `Verif/Double/Consts.lean`). -/
namespace Cst
/-- `std::sqrt(2.)` -/
def sqrt2 : ℚ := 6369051672525773 / 2 ^ 52
/-- `std::sqrt(2.) + 1.` -/
def sqrt2p1 : ℚ := 2718162824974067 / 2 ^ 50
/-- `std::sqrt(2.) - 1.` -/
def sqrt2m1 : ℚ := 1865452045155277 / 2 ^ 52
/-- `4. * std::sqrt(2.) - 4.` -/
def log1 : ℚ := 1865452045155277 / 2 ^ 50
/-- `4. - 2. * std::sqrt(2.)` -/
def log2 : ℚ := 2638147582215219 / 2 ^ 51
/-- `2. - std::sqrt(2.)` -/
def log3 : ℚ := 2638147582215219 / 2 ^ 52
/-- `2. * std::sqrt(2.) - 2.` -/
def log4 : ℚ := 1865452045155277 / 2 ^ 51
/-- `3. - 2. * std::sqrt(2.)` -/
def log1p : ℚ := 386347768529971 / 2 ^ 51
/-- `std::sqrt(6.)` -/
def sqrt6 : ℚ := 2757880273211543 / 2 ^ 50
/-- `std::sqrt(6.) / 3.` -/
def sqrt6d3 : ℚ := 7354347395230781 / 2 ^ 53
end Cst

namespace Interval
variable {T : Type} [Rop T] [RopX T]
open Rop (lit lt le eq)
open RopX

/-- number of iterations after which an `int` counter overflows -/
def intMax : ℕ := 2147483648

/-- `1.`, `0.5`, `2.` -/
abbrev one : T := lit 1
abbrev half : T := lit (1 / 2)
abbrev two : T := lit 2

/-! ## constants -/

/-- interval.hpp:1880-1888: loop of `constants<interval<T>>::e` -/
def eLoop (rem : Interval T) : ℕ → ℕ → Interval T → Interval T → Res (Interval T)
  | 0, _, _, _ => .error .outOfFuel
  | fuel + 1, i, r, y =>
    if i = intMax then .error .undefined
    else do
      let y ← divS y (lit i)
      if lt (Rop.mul (mag y) rem.sup) Rop.eps then .ok (add r (mul y rem))
      else eLoop rem fuel (i + 1) (add r y) y

/-- interval.hpp:1863-1891 -/
def constE (fuel : ℕ) : Res (Interval T) :=
  eLoop ⟨strDown 1, strUp (271828182845904524 / 100000000000000000)⟩ fuel 1 (point one) (point one)

/-- interval.hpp:1535-1560: loop of `atan_origin` -/
def atanLoop (I : Interval T) : ℕ → ℕ → Interval T → Interval T → Res (Interval T)
  | 0, _, _, _ => .error .outOfFuel
  | fuel + 1, i, r, y =>
    if i = intMax then .error .undefined
    else do
      let y := mul y I
      let tmp ← divS (mul y ⟨lit (-1), one⟩) (lit i)
      if lt (mag tmp) Rop.eps then .ok (add r tmp)
      else if i % 2 ≠ 0 then
        if i % 4 = 1 then do
          let q ← divS y (lit i)
          atanLoop I fuel (i + 1) (add r q) y
        else do
          let q ← divS y (lit i)
          atanLoop I fuel (i + 1) (sub r q) y
      else atanLoop I fuel (i + 1) r y

/-- interval.hpp:1535-1560 -/
def atanOrigin (fuel : ℕ) (I : Interval T) : Res (Interval T) :=
  atanLoop I fuel 1 (point (lit 0)) (point one)

/-- interval.hpp:1849-1861 -/
def constPi (fuel : ℕ) : Res (Interval T) := do
  let a ← sDiv one (point (lit 5))
  let a ← atanOrigin fuel a
  let b ← sDiv one (point (lit 239))
  let b ← atanOrigin fuel b
  .ok (sub (sMul (lit 16) a) (sMul (lit 4) b))

/-- interval.hpp:1912-1922: loop of `constants<interval<T>>::ln2` -/
def ln2Loop (x2m1 cinv : Interval T) : ℕ → ℕ → Interval T → Interval T → Interval T →
    Res (Interval T)
  | 0, _, _, _, _ => .error .outOfFuel
  | fuel + 1, i, r, xn, xn2 =>
    if i = intMax then .error .undefined
    else do
      let xn := mul (neg xn) x2m1
      let xn2 := mul (mul (neg xn2) cinv) x2m1
      let t ← divS xn2 (lit i)
      if lt (mag t) Rop.eps then .ok (add r t)
      else do
        let q ← divS xn (lit i)
        ln2Loop x2m1 cinv fuel (i + 1) (add r q) xn xn2

/-- interval.hpp:1893-1927 -/
def constLn2 (fuel : ℕ) : Res (Interval T) := do
  let s ← sqrt (point two)
  let x2 ← sqrt s
  let x2m1 := subS x2 one
  let cinv ← sDiv one (hullS x2 one)
  let r ← ln2Loop x2m1 cinv fuel 1 (point (lit 0)) (point (lit (-1))) (point (lit (-1)))
  .ok (mulS r (lit 4))

/-! ## exp -/

/-- interval.hpp:1038-1057 `ipower`: the counter `i` is a double holding a natural number.  (A NaN
counter returns NaN and an infinite one does not terminate; both give `outOfFuel` here.) -/
def ipower (x : Interval T) (i : T) : Res (Interval T) :=
  match toNat i with
  | some n => .ok (powLoop (point one) x n)
  | none => .error .outOfFuel

/-- interval.hpp:1071 -/
def expRem (fuel : ℕ) : Res (Interval T) := do
  let e ← constE fuel
  let s ← sqrt e
  let q ← sDiv one s
  .ok ⟨q.inf, s.sup⟩

/-- loop interval.hpp:1092-1101 and 1126-1135 -/
def expLoop (xf : T) (rem : Interval T) : ℕ → ℕ → Interval T → Interval T → Res (Interval T)
  | 0, _, _, _ => .error .outOfFuel
  | fuel + 1, i, r, y =>
    if i = intMax then .error .undefined
    else do
      let y ← divS (mulS y xf) (lit i)
      if lt (Rop.mul (mag y) rem.sup) Rop.eps then .ok (add r (mul y rem))
      else expLoop xf rem fuel (i + 1) (add r y) y

/-- interval.hpp:1074-1088: the pair `(x_i, x_f)` -/
def expSplit (x : T) : T × T :=
  if le (lit 0) x then
    let xi := Rop.floor x
    let xf := Rop.sub x xi
    if le half xf then (Rop.add xi one, Rop.sub xf one) else (xi, xf)
  else
    let xi := Rop.neg (Rop.floor (Rop.neg x))
    let xf := Rop.sub x xi
    if le xf (lit (-1 / 2)) then (Rop.sub xi one, Rop.add xf one) else (xi, xf)

/-- interval.hpp:1059-1112 -/
def expPoint (fuel : ℕ) (x : T) : Res (Interval T) :=
  if eq x Rop.inf then .ok ⟨Rop.maxv, Rop.inf⟩
  else if eq x (Rop.neg Rop.inf) then .ok ⟨lit 0, Rop.denormMin⟩
  else do
    let rem ← expRem fuel
    let s := expSplit x
    let r ← expLoop s.2 rem fuel 1 (point one) (point one)
    let e ← constE fuel
    if le (lit 0) s.1 then do
      let q ← ipower e s.1
      .ok (mul r q)
    else do
      let q ← ipower e (Rop.neg s.1)
      div r q

/-- interval.hpp:1114-1116 -/
def exp (fuel : ℕ) (I : Interval T) : Res (Interval T) := do
  let a ← expPoint fuel I.inf
  let b ← expPoint fuel I.sup
  .ok ⟨a.inf, b.sup⟩

/-- interval.hpp:1118-1138 -/
def expm1Origin (fuel : ℕ) (x : T) : Res (Interval T) := do
  let rem ← expRem fuel
  expLoop x rem fuel 1 (point (lit 0)) (point one)

/-- interval.hpp:1140-1146 -/
def expm1Point (fuel : ℕ) (x : T) : Res (Interval T) :=
  if le (lit (-1 / 2)) x && le x half then expm1Origin fuel x
  else do
    let r ← expPoint fuel x
    .ok (subS r one)

/-- interval.hpp:1148-1150 -/
def expm1 (fuel : ℕ) (I : Interval T) : Res (Interval T) := do
  let a ← expm1Point fuel I.inf
  let b ← expm1Point fuel I.sup
  .ok ⟨a.inf, b.sup⟩

/-! ## log -/

/-- interval.hpp:1187-1190: `while (x2 > 4√2-4) { x2 *= 0.5; p += 1.; }` -/
def logW1 : ℕ → T → T → Res (T × T)
  | 0, _, _ => .error .outOfFuel
  | fuel + 1, x2, p =>
    if lt (lit Cst.log1) x2 then logW1 fuel (Rop.mul x2 half) (Rop.add p one) else .ok (x2, p)

/-- interval.hpp:1191-1196 (`up` is `round == 1`) -/
def logW2 (up : Bool) (s2 : Interval T) : ℕ → T → T → Res (T × T)
  | 0, _, _ => .error .outOfFuel
  | fuel + 1, x2, p =>
    if lt (lit Cst.log2) x2 then do
      let tmp ← sDiv x2 s2
      logW2 up s2 fuel (if up then tmp.sup else tmp.inf) (Rop.add p half)
    else .ok (x2, p)

/-- interval.hpp:1197-1200 -/
def logW3 : ℕ → T → T → Res (T × T)
  | 0, _, _ => .error .outOfFuel
  | fuel + 1, x2, p =>
    if lt x2 (lit Cst.log3) then logW3 fuel (Rop.mul x2 two) (Rop.sub p one) else .ok (x2, p)

/-- interval.hpp:1201-1206 -/
def logW4 (up : Bool) (s2 : Interval T) : ℕ → T → T → Res (T × T)
  | 0, _, _ => .error .outOfFuel
  | fuel + 1, x2, p =>
    if lt x2 (lit Cst.log4) then
      let tmp := sMul x2 s2
      logW4 up s2 fuel (if up then tmp.sup else tmp.inf) (Rop.sub p half)
    else .ok (x2, p)

/-- loop interval.hpp:1213-1223 and (with `x2m1 = x`) 1249-1259 -/
def logLoop (x2m1 : T) (cinv : Interval T) : ℕ → ℕ → Interval T → Interval T → Interval T →
    Res (Interval T)
  | 0, _, _, _, _ => .error .outOfFuel
  | fuel + 1, i, r, xn, xn2 =>
    if i = intMax then .error .undefined
    else do
      let xn := mulS (neg xn) x2m1
      let xn2 := mulS (mul (neg xn2) cinv) x2m1
      let tmp ← divS xn2 (lit i)
      if lt (mag tmp) Rop.eps then .ok (add r tmp)
      else do
        let q ← divS xn (lit i)
        logLoop x2m1 cinv fuel (i + 1) (add r q) xn xn2

/-- interval.hpp:1152-1229 `log_point(x, round)`, `up` is `round == 1` -/
def logPoint (fuel : ℕ) (x : T) (up : Bool) : Res T :=
  do
    let s2 ← sqrt (point two)
    if eq x Rop.inf then .ok (if up then Rop.inf else Rop.maxv)
    else if eq x (lit 0) then .ok (if up then Rop.neg Rop.maxv else Rop.neg Rop.inf)
    else do
      let pi := frexpE x
      let q ← powInt (point two) (-pi)
      let t := sMul x q
      let w ← logW1 fuel (if up then t.sup else t.inf) (lit pi)
      let w ← logW2 up s2 fuel w.1 w.2
      let w ← logW3 fuel w.1 w.2
      let w ← logW4 up s2 fuel w.1 w.2
      let x2m1 := Rop.sub w.1 one
      let cinv ← sDiv one (hullSS w.1 one)
      let r ← logLoop x2m1 cinv fuel 1 (point (lit 0)) (point (lit (-1))) (point (lit (-1)))
      let l ← constLn2 fuel
      let r := add r (mulS l w.2)
      .ok (if up then r.sup else r.inf)

/-- interval.hpp:1231-1236 -/
def log (fuel : ℕ) (I : Interval T) : Res (Interval T) :=
  if lt I.inf (lit 0) then .error .domainError
  else do
    let a ← logPoint fuel I.inf false
    let b ← logPoint fuel I.sup true
    .ok ⟨a, b⟩

/-- interval.hpp:1238-1262 -/
def log1pOrigin (fuel : ℕ) (x : T) : Res (Interval T) := do
  let cinv ← sDiv one (hullS (sAdd x (point one)) one)
  logLoop x cinv fuel 1 (point (lit 0)) (point (lit (-1))) (point (lit (-1)))

/-- interval.hpp:1264-1279 -/
def log1pPoint (fuel : ℕ) (x : T) (up : Bool) : Res T :=
  if le (lit (-Cst.log1p)) x && le x (lit Cst.log1p) then do
    let r ← log1pOrigin fuel x
    .ok (if up then r.sup else r.inf)
  else
    let tmp := sAdd x (point one)
    logPoint fuel (if up then tmp.sup else tmp.inf) up

/-- interval.hpp:1281-1286 -/
def log1p (fuel : ℕ) (I : Interval T) : Res (Interval T) :=
  if lt I.inf (lit (-1)) then .error .domainError
  else do
    let a ← log1pPoint fuel I.inf false
    let b ← log1pPoint fuel I.sup true
    .ok ⟨a, b⟩

/-- interval.hpp:1017-1019 `pow(interval, interval)` -/
def pow (fuel : ℕ) (x y : Interval T) : Res (Interval T) := do
  let l ← log fuel x
  exp fuel (mul y l)

/-! ## sin, cos, tan -/

/-- loop of interval.hpp:1288-1312 `sin_origin` -/
def sinLoop (I : Interval T) : ℕ → ℕ → Interval T → Interval T → Res (Interval T)
  | 0, _, _, _ => .error .outOfFuel
  | fuel + 1, i, r, y =>
    if i = intMax then .error .undefined
    else do
      let y ← divS (mul y I) (lit i)
      if lt (mag y) Rop.eps then .ok (add r (mul y ⟨lit (-1), one⟩))
      else
        sinLoop I fuel (i + 1) (if i % 2 ≠ 0 then if i % 4 = 1 then add r y else sub r y else r) y

/-- interval.hpp:1288-1312 -/
def sinOrigin (fuel : ℕ) (I : Interval T) : Res (Interval T) :=
  sinLoop I fuel 1 (point (lit 0)) (point one)

/-- loop of interval.hpp:1314-1338 `cos_origin` -/
def cosLoop (I : Interval T) : ℕ → ℕ → Interval T → Interval T → Res (Interval T)
  | 0, _, _, _ => .error .outOfFuel
  | fuel + 1, i, r, y =>
    if i = intMax then .error .undefined
    else do
      let y ← divS (mul y I) (lit i)
      if lt (mag y) Rop.eps then .ok (add r (mul y ⟨lit (-1), one⟩))
      else
        cosLoop I fuel (i + 1) (if i % 2 = 0 then if i % 4 = 0 then add r y else sub r y else r) y

/-- interval.hpp:1314-1338 -/
def cosOrigin (fuel : ℕ) (I : Interval T) : Res (Interval T) :=
  cosLoop I fuel 1 (point one) (point one)

/-- interval.hpp:1340-1370 `sin_point`, with `pi` given; `f` bounds the recursion -/
def sinPointR (fuel : ℕ) (pi : Interval T) : ℕ → Interval T → Res (Interval T)
  | 0, _ => .error .outOfFuel
  | f + 1, I =>
    let mpi := mid pi
    if le mpi I.inf then sinPointR fuel pi f (sub I (mulS pi two))
    else if le I.sup (Rop.div (Rop.mul (Rop.neg mpi) (lit 3)) (lit 4)) then
      (sinOrigin fuel (add I pi)).map neg
    else if le I.sup (Rop.mul (Rop.neg mpi) half) then
      (cosOrigin fuel (sub (mulS (neg pi) half) I)).map neg
    else if le I.sup (Rop.mul (Rop.neg mpi) (lit (1 / 4))) then
      (cosOrigin fuel (add I (mulS pi half))).map neg
    else if le I.sup (lit 0) then (sinOrigin fuel (neg I)).map neg
    else if le I.sup (Rop.mul mpi (lit (1 / 4))) then sinOrigin fuel I
    else if le I.sup (Rop.mul mpi half) then cosOrigin fuel (sub (mulS pi half) I)
    else if le I.sup (Rop.div (Rop.mul mpi (lit 3)) (lit 4)) then
      cosOrigin fuel (sub I (mulS pi half))
    else sinOrigin fuel (sub pi I)

/-- interval.hpp:1372-1402 `cos_point` -/
def cosPointR (fuel : ℕ) (pi : Interval T) : ℕ → Interval T → Res (Interval T)
  | 0, _ => .error .outOfFuel
  | f + 1, I =>
    let mpi := mid pi
    if le mpi I.inf then cosPointR fuel pi f (sub I (mulS pi two))
    else if le I.sup (Rop.div (Rop.mul (Rop.neg mpi) (lit 3)) (lit 4)) then
      (cosOrigin fuel (add I pi)).map neg
    else if le I.sup (Rop.mul (Rop.neg mpi) half) then
      (sinOrigin fuel (sub (mulS (neg pi) half) I)).map neg
    else if le I.sup (Rop.mul (Rop.neg mpi) (lit (1 / 4))) then
      sinOrigin fuel (add I (mulS pi half))
    else if le I.sup (lit 0) then cosOrigin fuel (neg I)
    else if le I.sup (Rop.mul mpi (lit (1 / 4))) then cosOrigin fuel I
    else if le I.sup (Rop.mul mpi half) then sinOrigin fuel (sub (mulS pi half) I)
    else if le I.sup (Rop.div (Rop.mul mpi (lit 3)) (lit 4)) then
      (sinOrigin fuel (sub I (mulS pi half))).map neg
    else (cosOrigin fuel (sub pi I)).map neg

/-- interval.hpp:1340-1370 -/
def sinPoint (fuel : ℕ) (I : Interval T) : Res (Interval T) := do
  let pi ← constPi fuel
  sinPointR fuel pi fuel I

/-- interval.hpp:1372-1402 -/
def cosPoint (fuel : ℕ) (I : Interval T) : Res (Interval T) := do
  let pi ← constPi fuel
  cosPointR fuel pi fuel I

/-- argument reduction, interval.hpp:1419-1424 (sin), 1466-1471 (cos), 1521-1526 (tan):
`while (I2.lower() <= -bound || I2.lower() >= bound) I2 -= floor(I2.lower()/per.lower()+0.5)*per` -/
def reduce (bound : T) (per : Interval T) : ℕ → Interval T → Res (Interval T)
  | 0, _ => .error .outOfFuel
  | f + 1, I2 =>
    if le I2.inf (Rop.neg bound) || le bound I2.inf then
      let n := Rop.floor (Rop.add (Rop.div I2.inf per.inf) half)
      reduce bound per f (sub I2 (sMul n per))
    else .ok I2

/-- interval.hpp:1404-1449 -/
def sin (fuel : ℕ) (I : Interval T) : Res (Interval T) := do
  let pi ← constPi fuel
  let pi2 := mulS pi two
  if eq (Rop.abs I.inf) Rop.inf then .ok (hullSS (lit (-1)) one)
  else if eq (Rop.abs I.sup) Rop.inf then .ok (hullSS (lit (-1)) one)
  else do
    let I2 ← reduce pi.sup pi2 fuel I
    if le pi2.sup (subS (point I2.sup) I2.inf).inf then .ok ⟨lit (-1), one⟩
    else do
      let a ← sinPoint fuel (point I2.inf)
      let b ← sinPoint fuel (point I2.sup)
      let r := hull a b
      let r := if subset (mulS pi half) I2 then hullS r one else r
      let r := if subset (mulS pi (lit (5 / 2))) I2 then hullS r one else r
      let r := if subset (mulS (neg pi) half) I2 then hullS r (lit (-1)) else r
      let r := if subset (mulS pi (lit (3 / 2))) I2 then hullS r (lit (-1)) else r
      .ok (intersect r ⟨lit (-1), one⟩)

/-- interval.hpp:1451-1500 -/
def cos (fuel : ℕ) (I : Interval T) : Res (Interval T) := do
  let pi ← constPi fuel
  let pi2 := mulS pi two
  if eq (Rop.abs I.inf) Rop.inf then .ok (hullSS (lit (-1)) one)
  else if eq (Rop.abs I.sup) Rop.inf then .ok (hullSS (lit (-1)) one)
  else do
    let I2 ← reduce pi.sup pi2 fuel I
    if le pi2.sup (subS (point I2.sup) I2.inf).inf then .ok ⟨lit (-1), one⟩
    else do
      let a ← cosPoint fuel (point I2.inf)
      let b ← cosPoint fuel (point I2.sup)
      let r := hull a b
      let r := if mem (lit 0) I2 then hullS r one else r
      let r := if subset pi2 I2 then hullS r one else r
      let r := if subset (neg pi) I2 then hullS r (lit (-1)) else r
      let r := if subset pi I2 then hullS r (lit (-1)) else r
      let r := if subset (mulS pi (lit 3)) I2 then hullS r (lit (-1)) else r
      .ok (intersect r ⟨lit (-1), one⟩)

/-- interval.hpp:1502-1504 -/
def tanPoint (fuel : ℕ) (x : T) : Res (Interval T) := do
  let s ← sinPoint fuel (point x)
  let c ← cosPoint fuel (point x)
  div s c

/-- interval.hpp:1506-1533 -/
def tan (fuel : ℕ) (I : Interval T) : Res (Interval T) := do
  let pi ← constPi fuel
  let pih := mulS pi half
  if eq (Rop.abs I.inf) Rop.inf then .ok (hullSS (Rop.neg Rop.inf) Rop.inf)
  else if eq (Rop.abs I.sup) Rop.inf then .ok (hullSS (Rop.neg Rop.inf) Rop.inf)
  else do
    let I2 ← reduce pih.sup pi fuel I
    if le pih.sup I2.sup then .ok whole
    else do
      let a ← tanPoint fuel I2.inf
      let b ← tanPoint fuel I2.sup
      .ok ⟨a.inf, b.sup⟩

/-! ## inverse trigonometric functions -/

/-- interval.hpp:1562-1580 -/
def atanPoint (fuel : ℕ) (x : T) : Res (Interval T) := do
  let pi ← constPi fuel
  let I := point x
  if lt x (lit (-Cst.sqrt2p1)) then do
    let q ← sDiv one I
    let a ← atanOrigin fuel q
    .ok (sub (mulS (neg pi) half) a)
  else if lt x (lit (-Cst.sqrt2m1)) then do
    let q ← div (sAdd one I) (sSub one I)
    let a ← atanOrigin fuel q
    .ok (add (mulS (neg pi) (lit (1 / 4))) a)
  else if lt x (lit Cst.sqrt2m1) then atanOrigin fuel I
  else if lt x (lit Cst.sqrt2p1) then do
    let q ← div (subS I one) (addS I one)
    let a ← atanOrigin fuel q
    .ok (add (mulS pi (lit (1 / 4))) a)
  else do
    let q ← sDiv one I
    let a ← atanOrigin fuel q
    .ok (sub (mulS pi half) a)

/-- interval.hpp:1582-1584 -/
def atan (fuel : ℕ) (I : Interval T) : Res (Interval T) := do
  let a ← atanPoint fuel I.inf
  let b ← atanPoint fuel I.sup
  .ok ⟨a.inf, b.sup⟩

/-- the argument `x / sqrt(1-x²)` of interval.hpp:1595-1603 and 1637-1645 -/
def asinArg (x : T) : Res (Interval T) :=
  if lt (Rop.abs x) (lit Cst.sqrt6d3) then do
    let s ← sqrt (sSub one (mulS (point x) x))
    sDiv x s
  else if lt (lit 0) x then do
    let s ← sqrt (mulS (sAdd one (point x)) (Rop.sub one x))
    sDiv x s
  else do
    let s ← sqrt (sMul (Rop.add one x) (sSub one (point x)))
    sDiv x s

/-- interval.hpp:1586-1604 -/
def asinPoint (fuel : ℕ) (x : T) : Res (Interval T) := do
  let pi ← constPi fuel
  let pih := mulS pi half
  if lt x (lit (-1)) || lt one x then .error .domainError
  else if eq x one then .ok pih
  else if eq x (lit (-1)) then .ok (neg pih)
  else do
    let q ← asinArg x
    atan fuel q

/-- interval.hpp:1606-1608 -/
def asin (fuel : ℕ) (I : Interval T) : Res (Interval T) := do
  let a ← asinPoint fuel I.inf
  let b ← asinPoint fuel I.sup
  .ok ⟨a.inf, b.sup⟩

/-- interval.hpp:1610-1626 -/
def pihMAtan (fuel : ℕ) (I : Interval T) : Res (Interval T) := do
  let pi ← constPi fuel
  if lt I.inf (lit (-Cst.sqrt2p1)) then do
    let q ← sDiv one I
    let a ← atanOrigin fuel q
    .ok (add pi a)
  else if lt I.inf (lit (-Cst.sqrt2m1)) then do
    let q ← div (sAdd one I) (sSub one I)
    let a ← atanOrigin fuel q
    .ok (sub (mulS pi (lit (3 / 4))) a)
  else if lt I.inf (lit Cst.sqrt2m1) then do
    let a ← atanOrigin fuel I
    .ok (sub (mulS pi half) a)
  else if lt I.inf (lit Cst.sqrt2p1) then do
    let q ← div (subS I one) (addS I one)
    let a ← atanOrigin fuel q
    .ok (sub (mulS pi (lit (1 / 4))) a)
  else do
    let q ← sDiv one I
    atanOrigin fuel q

/-- interval.hpp:1628-1646 -/
def acosPoint (fuel : ℕ) (x : T) : Res (Interval T) := do
  let pi ← constPi fuel
  if lt x (lit (-1)) || lt one x then .error .domainError
  else if eq x one then .ok (point (lit 0))
  else if eq x (lit (-1)) then .ok pi
  else do
    let q ← asinArg x
    pihMAtan fuel q

/-- interval.hpp:1648-1650 -/
def acos (fuel : ℕ) (I : Interval T) : Res (Interval T) := do
  let a ← acosPoint fuel I.sup
  let b ← acosPoint fuel I.inf
  .ok ⟨a.inf, b.sup⟩

/-- interval.hpp:1652-1672 -/
def atan2Point (fuel : ℕ) (y x : T) : Res (Interval T) := do
  let pi ← constPi fuel
  let Ix := point x
  let Iy := point y
  if le y x && lt (Rop.neg x) y then do
    let q ← div Iy Ix
    atan fuel q
  else if lt x y && lt (Rop.neg x) y then do
    let q ← div Ix Iy
    let a ← atan fuel q
    .ok (sub (mulS pi half) a)
  else if lt x y && le y (Rop.neg x) then
    if le (lit 0) y then do
      let q ← div Iy Ix
      let a ← atan fuel q
      .ok (add pi a)
    else do
      let q ← div Iy Ix
      let a ← atan fuel q
      .ok (add (neg pi) a)
  else do
    let q ← div Ix Iy
    let a ← atan fuel q
    .ok (sub (mulS (neg pi) half) a)

/-- `interval(atan2_point(a, b).lower(), atan2_point(c, d).upper())` (interval.hpp:1680-1708) -/
def atan2Pair (fuel : ℕ) (a b c d : T) : Res (Interval T) := do
  let l ← atan2Point fuel a b
  let u ← atan2Point fuel c d
  .ok ⟨l.inf, u.sup⟩

/-- interval.hpp:1674-1714.  `Iy > 0.` is `Iy.inf > 0.` (interval.hpp:773-775). -/
def atan2 (fuel : ℕ) (Iy Ix : Interval T) : Res (Interval T) := do
  let pi ← constPi fuel
  if zeroIn Ix then
    if zeroIn Iy then .ok ⟨Rop.neg pi.sup, pi.sup⟩
    else if lt (lit 0) Iy.inf then atan2Pair fuel Iy.inf Ix.sup Iy.inf Ix.inf
    else atan2Pair fuel Iy.sup Ix.inf Iy.sup Ix.sup
  else if zeroIn Iy then
    if lt (lit 0) Ix.inf then atan2Pair fuel Iy.inf Ix.inf Iy.sup Ix.inf
    else if lt Iy.inf (lit 0) then do
      let l ← atan2Point fuel Iy.sup Ix.sup
      let u ← atan2Point fuel Iy.inf Ix.sup
      .ok ⟨l.inf, (add (mulS pi two) u).sup⟩
    else atan2Pair fuel Iy.sup Ix.sup Iy.inf Ix.sup
  else if lt (lit 0) Ix.inf then
    if lt (lit 0) Iy.inf then atan2Pair fuel Iy.inf Ix.sup Iy.sup Ix.inf
    else atan2Pair fuel Iy.inf Ix.inf Iy.sup Ix.sup
  else
    if lt (lit 0) Iy.inf then atan2Pair fuel Iy.sup Ix.sup Iy.inf Ix.inf
    else atan2Pair fuel Iy.sup Ix.inf Iy.inf Ix.sup

/-! ## hyperbolic functions -/

/-- loop of interval.hpp:1716-1742 `sinh_origin` -/
def sinhLoop (x : T) (c : T) : ℕ → ℕ → Interval T → Interval T → Res (Interval T)
  | 0, _, _, _ => .error .outOfFuel
  | fuel + 1, i, r, y =>
    if i = intMax then .error .undefined
    else do
      let y ← divS (mulS y x) (lit i)
      let tmp := mul y ⟨Rop.neg c, c⟩
      if lt (mag tmp) Rop.eps then .ok (add r tmp)
      else sinhLoop x c fuel (i + 1) (if i % 2 ≠ 0 then add r y else r) y

/-- interval.hpp:1716-1742 -/
def sinhOrigin (fuel : ℕ) (x : T) : Res (Interval T) := do
  let e ← constE fuel
  let exph ← sqrt e
  let q ← sDiv one exph
  let coshh := mulS (add exph q) half
  sinhLoop x coshh.sup fuel 1 (point (lit 0)) (point one)

/-- interval.hpp:1744-1755 -/
def sinhPoint (fuel : ℕ) (x : T) : Res (Interval T) :=
  if le (lit (-1 / 2)) x && le x half then sinhOrigin fuel x
  else if lt (lit 0) x then do
    let tmp ← expPoint fuel x
    let q ← sDiv one tmp
    .ok (mulS (sub tmp q) half)
  else do
    let tmp ← expPoint fuel (Rop.neg x)
    let q ← sDiv one tmp
    .ok (mulS (sub q tmp) half)

/-- interval.hpp:1757-1759 -/
def sinh (fuel : ℕ) (I : Interval T) : Res (Interval T) := do
  let a ← sinhPoint fuel I.inf
  let b ← sinhPoint fuel I.sup
  .ok ⟨a.inf, b.sup⟩

/-- interval.hpp:1761-1770 -/
def coshPoint (fuel : ℕ) (x : T) : Res (Interval T) :=
  if le (lit 0) x then do
    let tmp ← expPoint fuel x
    let q ← sDiv one tmp
    .ok (mulS (add tmp q) half)
  else do
    let tmp ← expPoint fuel (Rop.neg x)
    let q ← sDiv one tmp
    .ok (mulS (add q tmp) half)

/-- interval.hpp:1772-1779 -/
def cosh (fuel : ℕ) (I : Interval T) : Res (Interval T) := do
  let a ← coshPoint fuel I.inf
  let b ← coshPoint fuel I.sup
  let r := hull a b
  .ok (if zeroIn I then hullS r one else r)

/-- interval.hpp:1781-1789 -/
def tanhPoint (fuel : ℕ) (x : T) : Res (Interval T) :=
  if lt half x then do
    let e ← expPoint fuel (Rop.mul two x)
    let q ← sDiv two (sAdd one e)
    .ok (sSub one q)
  else if lt x (lit (-1 / 2)) then do
    let e ← expPoint fuel (Rop.mul (lit (-2)) x)
    let q ← sDiv two (sAdd one e)
    .ok (subS q one)
  else do
    let s ← sinhOrigin fuel x
    let c ← coshPoint fuel x
    div s c

/-- interval.hpp:1791-1793 -/
def tanh (fuel : ℕ) (I : Interval T) : Res (Interval T) := do
  let a ← tanhPoint fuel I.inf
  let b ← tanhPoint fuel I.sup
  .ok ⟨a.inf, b.sup⟩

/-- `sqrt(1. + interval(x) * x)` -/
def sqrt1px2 (x : T) : Res (Interval T) := sqrt (sAdd one (mulS (point x) x))

/-- interval.hpp:1795-1803 -/
def asinhPoint (fuel : ℕ) (x : T) : Res (Interval T) :=
  if lt x (lit (-1 / 2)) then do
    let s ← sqrt1px2 x
    let l ← log fuel (sAdd (Rop.neg x) s)
    .ok (neg l)
  else if le x half then do
    let s ← sqrt1px2 x
    let q ← sDiv x (sAdd one s)
    log1p fuel (mulS (sAdd one q) x)
  else do
    let s ← sqrt1px2 x
    log fuel (sAdd x s)

/-- interval.hpp:1805-1807 -/
def asinh (fuel : ℕ) (I : Interval T) : Res (Interval T) := do
  let a ← asinhPoint fuel I.inf
  let b ← asinhPoint fuel I.sup
  .ok ⟨a.inf, b.sup⟩

/-- interval.hpp:1809-1821 -/
def acoshPoint (fuel : ℕ) (x : T) : Res (Interval T) :=
  if lt x one then .error .domainError
  else if eq x one then .ok (point (lit 0))
  else if le x (lit (3 / 2)) then do
    let y := point (Rop.sub x one)
    let s ← sqrt (mul y (addS (point x) one))
    log1p fuel (add y s)
  else do
    let s ← sqrt (subS (mulS (point x) x) one)
    log fuel (sAdd x s)

/-- interval.hpp:1823-1825 -/
def acosh (fuel : ℕ) (I : Interval T) : Res (Interval T) := do
  let a ← acoshPoint fuel I.inf
  let b ← acoshPoint fuel I.sup
  .ok ⟨a.inf, b.sup⟩

/-- interval.hpp:1827-1840 -/
def atanhPoint (fuel : ℕ) (x : T) : Res (Interval T) :=
  if lt x (lit (-1)) || lt one x then .error .domainError
  else if eq x (lit (-1)) then .ok ⟨Rop.neg Rop.inf, Rop.neg Rop.maxv⟩
  else if eq x one then .ok ⟨Rop.maxv, Rop.inf⟩
  else if lt x (lit (-1 / 2)) then do
    let q ← sDiv (Rop.add one x) (sSub one (point x))
    let l ← log fuel q
    .ok (sMul half l)
  else if le x half then do
    let q ← sDiv (Rop.mul two x) (sSub one (point x))
    let l ← log1p fuel q
    .ok (sMul half l)
  else do
    let q ← divS (sAdd one (point x)) (Rop.sub one x)
    let l ← log fuel q
    .ok (sMul half l)

/-- interval.hpp:1842-1844 -/
def atanh (fuel : ℕ) (I : Interval T) : Res (Interval T) := do
  let a ← atanhPoint fuel I.inf
  let b ← atanhPoint fuel I.sup
  .ok ⟨a.inf, b.sup⟩

end Interval
end Kv
