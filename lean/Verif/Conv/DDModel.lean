import Verif.Conv.Model
import Verif.Double.DD

/-!
# Model of the decimal conversions of `dd` (/repo/kv/conv-dd.hpp)

The parts that are the same as in /repo/kv/conv-double.hpp are taken from Conv/Model.lean: base conversion (conv-dd.hpp:184-256,
546-576), output of the digits (conv-dd.hpp:264-408), parsing (conv-dd.hpp:414-493), the position of the decimal point
(conv-dd.hpp:495-534).  The simplifications stated there apply here as well.  New are the addition of the bits of the two
components, the number of bits that are read, and the distribution of the bits to the two components.
-/

namespace Kv
open Rop (lit)

namespace Conv

/-! ## `ddtostring` -/

/-- conv-dd.hpp:150-163: `s` times the bits of the second component (second argument, least significant first) are added to the bits
of the first one, with a carry that may be negative.  `tmp / 2` is rounded towards minus infinity as in the code.  If the first
component has fewer bits, the code reads bits that were never written. -/
def addBuf (s : ℤ) : List ℕ → List ℕ → ℤ → Res (List ℕ)
  | [], [], _ => .ok []
  | [], _ :: _, _ => .error .undefined
  | b :: t, [], c =>
    if c = 0 then .ok (b :: t)
    else do
      let tmp := (b : ℤ) + c
      let r ← addBuf s t [] (tmp / 2)
      .ok ((tmp - tmp / 2 * 2).toNat :: r)
  | b :: t, d :: u, c => do
    let tmp := (b : ℤ) + s * d + c
    let r ← addBuf s t u (tmp / 2)
    .ok ((tmp - tmp / 2 * 2).toNat :: r)

/-- the bits of a number with their highest exponent: `buf`, `emax`, most significant first -/
structure Bin where
  emax : ℤ
  bits : List ℕ

/-- `emin` -/
def Bin.emin (l : Bin) : ℤ := l.emax - l.bits.length + 1

/-- conv-dd.hpp:81-107 and 119-136: the bits of a positive double -/
def toBin (q : ℚ) : Bin := ⟨Int.log 2 q, bitLoop 53 q (Int.log 2 q)⟩

/-- conv-dd.hpp:138-166.  The bits are least significant first inside, starting with the weight `2^emin`. -/
def addBin (s : ℤ) (x y : Bin) : Res Bin := do
  let emin := min x.emin y.emin
  -- `buf` with zeros below and one zero above
  let buf := List.replicate (x.emin - emin).toNat 0 ++ x.bits.reverse ++ [0]
  let k := (y.emin - emin).toNat
  let r ← addBuf s (buf.drop k) y.bits.reverse 0
  let r := (buf.take k ++ r).rdropWhile (· = 0)
  if r = [] then .error .undefined else .ok ⟨emin + r.length - 1, r.reverse⟩

/-- conv-dd.hpp:170-256: all decimal digits; the same as `toDec` after the bits were found -/
def decOf (x : Bin) : Dec :=
  let l := x.bits
  let ex := x.emax
  let k := (ex + 1).toNat
  let ib := if ex < 0 then [0] else (l ++ List.replicate (k - l.length) 0).take k
  let fb := if ex < 0 then List.replicate (-1 - ex).toNat 0 ++ l else l.drop k
  let r1 := intLoop 2 10 mDec ib.length ib
  let r2 := fracLoop fb.length fb
  ⟨r2.reverse ++ r1, -r2.length⟩

/-- conv-dd.hpp:60-166: the bits of the absolute value of a pair with finite components, the first one is not zero -/
def ddBits (q1 q2 : ℚ) : Res Bin :=
  if q2 = 0 then .ok (toBin |q1|)
  else addBin (if (q1 < 0) = (q2 < 0) then 1 else -1) (toBin |q1|) (toBin |q2|)

/-- `ddtostring(x1, x2, precision, format, mode)`, conv-dd.hpp:55-411.  An infinite second component with a finite first one writes
outside of `buf2`. -/
def ddtostring (x : DD) (prec : ℕ) (fmt : Fmt) (mode : RMode) : Res (List Char) :=
  match x.a1, x.a2 with
  | .nan, _ => .ok ['n', 'a', 'n']
  | _, .nan => .ok ['n', 'a', 'n']
  | .pinf, _ => .ok ['i', 'n', 'f']
  | .ninf, _ => .ok ['-', 'i', 'n', 'f']
  | .fin q1 _, .fin q2 _ =>
    if q1 = 0 then .ok ['0']
    else do
      let l ← ddBits q1 q2
      let s ← render (decOf l) prec fmt mode (q1 < 0)
      .ok ((if q1 < 0 then ['-'] else []) ++ s)
  | .fin q1 _, _ => if q1 = 0 then .ok ['0'] else .error .undefined

/-- `operator<<(std::ostream&, const interval<dd>&)`, interval.hpp:514-521, with `print_down`, `print_up` (rdd-hwround.hpp:653-687) -/
def printDD (I : DD × DD) (prec : ℕ) (fmt : Fmt) : Res (List Char) := do
  let a ← ddtostring I.1 prec fmt .down
  let b ← ddtostring I.2 prec fmt .up
  .ok ('[' :: a ++ ',' :: b ++ [']'])

/-! ## `stringtodd` -/

/-- the number of bits still wanted, conv-dd.hpp:587-591 -/
def wanted (fast : Bool) (mx mn : ℤ) : ℤ := if fast then 106 - (mx - mn) else mn + 1075

/-- the loop `while (table_min < 0)`, conv-dd.hpp:586-627 -/
def binLoopDD (fast : Bool) : ℕ → List ℕ → BinSt → Res BinSt
  | 0, _, _ => .error .outOfFuel
  | fuel + 1, fs, st =>
    if fs = [] then .ok st
    else
      let go (m : ℕ) : Res BinSt :=
        let p := mulPass 10 (2 ^ m) fs
        binLoopDD fast fuel (p.1.rdropWhile (· = 0)) ((digitsBE 2 m p.2).foldl addBit st)
      match st.max with
      | none => go 16
      | some mx => if wanted fast mx st.min ≤ 0 then .ok st else go (min 16 (wanted fast mx st.min).toNat)

/-- what conv-dd.hpp:683-705 leaves: `r`, `flag`, `result_max2`, and the bits from `result_max2` downwards -/
structure Part1 where
  r : D
  flag : Bool
  max2 : ℤ
  rest : List ℕ

/-- the first component, conv-dd.hpp:683-705: 53 bits, rounded to nearest (both signs do the same) -/
def part1 (mx : ℤ) : List ℕ → ℤ → D → Part1
  | [], i, r => ⟨r, false, i, []⟩
  | b :: t, i, r =>
    if mx - i = 53 ∨ i = -1075 then
      if b = 0 then ⟨r, false, i, b :: t⟩ else ⟨Rop.add r (lit (2 ^ (i + 1))), true, i, b :: t⟩
    else part1 mx t (i - 1) (Rop.add r (lit (b * 2 ^ i)))

/-- the second component, conv-dd.hpp:713-750; `msb = none` is `msb == result_min - 1` -/
def part2 (fast : Bool) (neg : Bool) (mode : RMode) (flag : Bool) (max2 : ℤ) : List ℕ → ℤ → Option ℤ → D → D
  | [], _, _, r => r
  | b :: t, i, msb, r =>
    if (if fast then max2 - i = 53 else msb = some (i + 53)) ∨ i = -1075 then
      if away mode neg (if b = 0 then 0 else 5) then Rop.add r (lit (2 ^ (i + 1))) else r
    else
      part2 fast neg mode flag max2 t (i - 1)
        (if msb = none ∧ ((flag ∧ b = 0) ∨ (¬ flag ∧ b = 1)) then some i else msb) (Rop.add r (lit (b * 2 ^ i)))

/-- conv-dd.hpp:651-754 -/
def finishDD (fast : Bool) (neg : Bool) (mode : RMode) (mx : ℤ) (bits : List ℕ) : DD :=
  if mx > 1023 then
    -- `(sign == 1 && mode == -1) || (sign == -1 && mode == 1)`
    if (mode = .down && !neg) || (mode = .up && neg) then
      -- `std::ldexp(x1, -54)`
      ⟨signed neg (Fl.fin binary64.maxQ Format.maxQ_rep : D), signed neg (lit (binary64.maxQ * 2 ^ (-54 : ℤ)) : D)⟩
    else ⟨signed neg (Fl.pinf : D), signed neg (Fl.pinf : D)⟩
  else if mx < -1075 then
    if (mode = .up && !neg) || (mode = .down && neg) then ⟨signed neg (lit (2 ^ (-1074 : ℤ)) : D), signed neg (lit 0 : D)⟩
    else ⟨signed neg (lit 0 : D), signed neg (lit 0 : D)⟩
  else
    let p := part1 mx bits mx (lit 0)
    let r2 : D := if p.flag then Rop.neg (lit (2 ^ (p.max2 + 1))) else lit 0
    ⟨signed neg p.r, signed neg (part2 fast neg mode p.flag p.max2 p.rest p.max2 none r2)⟩

/-- `stringtodd` after parsing, conv-dd.hpp:485-755.  As in `convert`, exponents (together with the numbers of digits) above 10^8
are not modelled. -/
def convertDD (fast : Bool) (p : Parsed) (mode : RMode) : Res DD := do
  let e : ℕ := atoi p.nume
  if 100000000 < e + p.num1.length + p.num2.length then .error .undefined
  else
    let e10 : ℤ := if p.eneg then -(e : ℤ) else e
    let n1 := p.num1.dropWhile (· = 0)
    let n2 := p.num2.rdropWhile (· = 0)
    let tmax : ℤ := n1.length - 1 + e10
    let tmin : ℤ := e10 - n2.length
    let all := n1 ++ n2 ++ List.replicate tmin.toNat 0
    let k := (tmax + 1).toNat
    let ip := all.take k
    let fp := List.replicate (-1 - tmax).toNat 0 ++ all.drop k
    let r1 := intLoop 10 2 mBin (4 * ip.length) ip
    let st ← binLoopDD fast (fp.length + 1200) fp ⟨if r1 = [] then none else some (r1.length - 1), 0, []⟩
    -- `result_max` is still -1 if no bit was found; `result2.front()` is called for the indices -1, ..., result_min
    match st.max with
    | none => if st.min < 0 then .error .undefined else .ok ⟨signed p.neg (lit 0 : D), signed p.neg (lit 0 : D)⟩
    | some mx => .ok (finishDD fast p.neg mode mx (r1.reverse ++ st.bits))

/-- `stringtodd(s, x1, x2, mode, fast)`, conv-dd.hpp:461-755; `fast = false` is the default -/
def stringtodd (s : List Char) (mode : RMode) (fast : Bool := false) : Res DD := convertDD fast (parse s) mode

/-- `interval<dd>(s1, s2)`, interval.hpp:133-136 (and 128-131 with `s1 = s2`), with `fromstring_down`, `fromstring_up`
(rdd-hwround.hpp:689-699) -/
def ofStringsDD (s1 s2 : List Char) : Res (DD × DD) := do
  let a ← stringtodd s1 .down
  let b ← stringtodd s2 .up
  .ok (a, b)

end Conv
end Kv
