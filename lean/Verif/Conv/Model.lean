import Verif.Solver.LinLemmas
import Mathlib.Data.Int.Log
import Mathlib.Data.List.DropRight

/-!
# Model of the decimal conversions of `double` (/repo/kv/conv-double.hpp)

Strings are lists of characters.  The vectors and lists of digits of the code are lists here: reading `result[offset2 + i]`
for `i = result_max, ..., result_min` is walking through a list, changing `result_min` or `result_max` is dropping elements
from its ends.  A place where the code would read beyond the digits is `Err.undefined`.  The loops that convert a number from
one base to another are written once, with the bases as parameters.  Mode `RMode.up`, `.down`, `.near` is 1, -1, 0.

Simplifications: `precision` is a natural number; arithmetic of `int` does not overflow (see `stringtod` for the exponent);
memory is unlimited; the signs of zeros are not kept (`-0` is printed as `0`).
-/

namespace Kv
open Rop (lit)

namespace Conv

/-! ## base conversion -/

/-- one division pass over the digits of an integer, most significant first (conv-double.hpp:134-139 with `b = 2`,
493-498 with `b = 10`): the quotient by `pm` and the remainder -/
def divPass (b pm : ℕ) : List ℕ → ℕ → List ℕ × ℕ
  | [], c => ([], c)
  | d :: t, c =>
    let tmp := c * b + d
    let p := divPass b pm t (tmp % pm)
    (tmp / pm :: p.1, p.2)

/-- one multiplication pass over the digits of a fraction, most significant first (conv-double.hpp:159-164 with `b = 2`,
527-532 with `b = 10`; the loop runs from the least significant digit): the new fraction and the integer part -/
def mulPass (b pm : ℕ) : List ℕ → List ℕ × ℕ
  | [] => ([], 0)
  | d :: t =>
    let p := mulPass b pm t
    let tmp := d * pm + p.2
    (tmp % b :: p.1, tmp / b)

/-- the `m` low digits of `r`, least significant first (conv-double.hpp:141-145, 499-503) -/
def digitsLE (B : ℕ) : ℕ → ℕ → List ℕ
  | 0, _ => []
  | m + 1, r => r % B :: digitsLE B m (r / B)

/-- `m` digits of `c`, most significant first (conv-double.hpp:166-171, 534-538) -/
def digitsBE (B : ℕ) : ℕ → ℕ → List ℕ
  | 0, _ => []
  | m + 1, c => c / B ^ m :: digitsBE B m (c % B ^ m)

/-- The conversion of an integer (conv-double.hpp:124-150, 484-507): `mOf (number of digits - 1)` new digits in each pass,
then zeros at the head are deleted.  Every pass at least halves the number, so it ends if the number is below `2^fuel`. -/
def intLoop (b B : ℕ) (mOf : ℕ → ℕ) : ℕ → List ℕ → List ℕ
  | 0, _ => []
  | fuel + 1, ds =>
    if ds = [] then []
    else
      let m := mOf (ds.length - 1)
      let p := divPass b (B ^ m) ds 0
      digitsLE B m p.2 ++ intLoop b B mOf fuel (p.1.dropWhile (· = 0))

/-! ## `dtostring` -/

/-- output formats, conv-double.hpp:49-52 -/
inductive Fmt
  | e | f | g | a
  deriving DecidableEq

/-- conv-double.hpp:87-103 in exact arithmetic (the operations there are exact): the bits of `t`, starting with the bit of
weight `2^e`, up to the last nonzero one; at most `n` bits -/
def bitLoop : ℕ → ℚ → ℤ → List ℕ
  | 0, _, _ => []
  | n + 1, t, e =>
    let b := if 2 ^ e ≤ t then 1 else 0
    let t' := if 2 ^ e ≤ t then t - 2 ^ e else t
    b :: (if t' = 0 then [] else bitLoop n t' (e - 1))

/-- number of decimal digits taken out of an integer with the highest bit `emax`, conv-double.hpp:125-129 -/
def mDec (emax : ℕ) : ℕ :=
  if 17 ≤ emax then 5 else if 14 ≤ emax then 4 else if 10 ≤ emax then 3 else if 7 ≤ emax then 2 else 1

/-- the fraction loop, conv-double.hpp:154-176; `fuel` = the number of bits is enough -/
def fracLoop : ℕ → List ℕ → List ℕ
  | 0, _ => []
  | fuel + 1, bs =>
    if bs = [] then []
    else
      let m := min 8 bs.length
      let p := mulPass 2 (10 ^ m) bs
      digitsBE 10 m p.2 ++ fracLoop fuel (p.1.rdropWhile (· = 0))

/-- Decimal digits, least significant first; the first one has the weight `10^min` (`result`, `result_min`,
`result_max`, conv-double.hpp:178-191). -/
structure Dec where
  ds : List ℕ
  min : ℤ

/-- `result_max` -/
def Dec.max (r : Dec) : ℤ := r.min + r.ds.length - 1

/-- all digits of `q > 0`, conv-double.hpp:80-191 -/
def toDec (q : ℚ) : Dec :=
  let ex := Int.log 2 q
  let l := bitLoop 53 q ex
  let k := (ex + 1).toNat
  let ib := if ex < 0 then [0] else (l ++ List.replicate (k - l.length) 0).take k
  let fb := if ex < 0 then List.replicate (-1 - ex).toNat 0 ++ l else l.drop k
  let r1 := intLoop 2 10 mDec ib.length ib
  let r2 := fracLoop fb.length fb
  ⟨r2.reverse ++ r1, -r2.length⟩

/-- adding one to the last digit, conv-double.hpp:215-219 -/
def inc : List ℕ → List ℕ
  | [] => []
  | d :: t => if d + 1 ≠ 10 then (d + 1) :: t else 0 :: inc t

/-- is the rest rounded away from zero?  conv-double.hpp:212, 247, 286 and 595-624 -/
def away (mode : RMode) (neg : Bool) (tmp : ℕ) : Bool :=
  (mode = .up && !neg) || (mode = .down && neg) || (mode = .near && 5 ≤ tmp)

/-- conv-double.hpp:209-224: the digits below `10^lo` are cut off; `keep` says that the number of digits stays the same after
a carry (conv-double.hpp:257-259, 296-298) -/
def cut (r : Dec) (lo : ℤ) (mode : RMode) (neg keep : Bool) : Dec :=
  let k := (lo - r.min).toNat
  let tmp := r.ds.getD (k - 1) 0
  let ds := r.ds.drop k
  if away mode neg tmp then
    let ds' := inc (ds ++ [0])
    if ds'.getLastD 0 = 0 then ⟨ds'.dropLast, lo⟩
    else if keep then ⟨ds'.drop 1, lo + 1⟩
    else ⟨ds', lo⟩
  else ⟨ds, lo⟩

/-- `while (result[offset2 + result_max] == 0) result_max--;` conv-double.hpp:238-241, 277-280 -/
def delHead (r : Dec) : Dec := ⟨r.ds.rdropWhile (· = 0), r.min⟩

/-- `while (result_min < 0 && result[offset2 + result_min] == 0) result_min++;` conv-double.hpp:226-229, 305-308 -/
def delTailF : List ℕ → ℤ → Dec
  | [], i => ⟨[], i⟩
  | d :: t, i => if i < 0 ∧ d = 0 then delTailF t (i + 1) else ⟨d :: t, i⟩

/-- `while (result[offset2 + result_min] == 0) result_min++;` conv-double.hpp:263-266, 323-326; beyond the digits the behaviour is
undefined -/
def delTailE : List ℕ → ℤ → Res Dec
  | [], _ => .error .undefined
  | d :: t, i => if d = 0 then delTailE t (i + 1) else .ok ⟨d :: t, i⟩

/-- a decimal digit as a character -/
def digit (d : ℕ) : Char := Char.ofNat (48 + d)

/-- conv-double.hpp:231-235: digits from `result_max = i` downwards with a point before the digit of weight 1/10 -/
def emitF : List ℕ → ℤ → List Char
  | [], _ => []
  | d :: t, i => (if i = -1 then ['.'] else []) ++ digit d :: emitF t (i - 1)

/-- decimal digits of a natural number, at least two (`setfill('0')`, `setw(3)` with a sign) -/
def exp2 (n : ℕ) : List Char :=
  let l := ((Nat.digits 10 n).map digit).reverse
  List.replicate (2 - l.length) '0' ++ l

/-- conv-double.hpp:268-274: a point before the second digit, then the exponent -/
def emitE (ds : List ℕ) (max : ℤ) : List Char :=
  (match ds with
    | [] => []
    | [d] => [digit d]
    | d :: t => digit d :: '.' :: t.map digit) ++
  'e' :: (if max < 0 then '-' else '+') :: exp2 max.natAbs

/-- the digits of a finite number `q ≠ 0`, conv-double.hpp:207-343 -/
def render (r : Dec) (prec : ℕ) (fmt : Fmt) (mode : RMode) (neg : Bool) : Res (List Char) :=
  match fmt with
  | .f => do
    let r := if -(prec + 1 : ℤ) ≥ r.min then cut r (-prec) mode neg false else r
    let r := delTailF r.ds r.min
    .ok (emitF r.ds.reverse r.max)
  | .e => do
    let r := delHead r
    let r := if r.max - prec - 1 ≥ r.min then cut r (r.max - prec) mode neg true else r
    let r ← delTailE r.ds r.min
    .ok (emitE r.ds.reverse r.max)
  | .g => do
    let r := delHead r
    let r := if r.max - prec ≥ r.min then cut r (r.max - prec + 1) mode neg true else r
    if -4 ≤ r.max ∧ r.max ≤ prec - 1 then
      let max := r.max
      let r := delTailF r.ds r.min
      -- `if (result_max < 0) result_max = 0;`, the digits above are zeros
      let r : Dec := if max < 0 then ⟨r.ds ++ List.replicate (-max).toNat 0, r.min⟩ else r
      .ok (emitF r.ds.reverse r.max)
    else do
      let r ← delTailE r.ds r.min
      .ok (emitE r.ds.reverse r.max)
  | .a => .ok (emitF r.ds.reverse r.max)

/-- `dtostring(x, precision, format, mode)`, conv-double.hpp:54-346 -/
def dtostring (x : Fl binary64) (prec : ℕ) (fmt : Fmt) (mode : RMode) : Res (List Char) :=
  match x with
  | .nan => .ok ['n', 'a', 'n']
  | .pinf => .ok ['i', 'n', 'f']
  | .ninf => .ok ['-', 'i', 'n', 'f']
  | .fin q _ =>
    if q = 0 then .ok ['0']
    else do
      let s ← render (toDec |q|) prec fmt mode (q < 0)
      .ok ((if q < 0 then ['-'] else []) ++ s)

/-- `operator<<(std::ostream&, const interval<double>&)`, interval.hpp:514-521, with `print_down`, `print_up`
(rdouble-hwround.hpp:99-133); `prec` and `fmt` are the settings of the stream -/
def printI (I : Interval D) (prec : ℕ) (fmt : Fmt) : Res (List Char) := do
  let a ← dtostring I.inf prec fmt .down
  let b ← dtostring I.sup prec fmt .up
  .ok ('[' :: a ++ ',' :: b ++ [']'])

/-! ## `stringtod` -/

/-- `isspace` in the "C" locale -/
def isSpace (c : Char) : Bool := c = ' ' || c = '\t' || c = '\n' || c.toNat = 11 || c.toNat = 12 || c = '\r'

/-- `isdigit` -/
def isDigit (c : Char) : Bool := 48 ≤ c.toNat && c.toNat ≤ 57

/-- `ignore_space`, conv-double.hpp:349-353 -/
def ignoreSpace (s : List Char) : List Char := s.dropWhile isSpace

/-- `get_sign`, conv-double.hpp:355-370: is it negative, and the rest -/
def getSign : List Char → Bool × List Char
  | '-' :: t => (true, t)
  | '+' :: t => (false, t)
  | s => (false, s)

/-- `get_number`, conv-double.hpp:372-385: the values of the digits, and the rest -/
def getNumber (s : List Char) : List ℕ × List Char := ((s.takeWhile isDigit).map fun c => c.toNat - 48, s.dropWhile isDigit)

/-- the value of a sequence of digits -/
def atoi (ds : List ℕ) : ℕ := ds.foldl (fun a d => 10 * a + d) 0

/-- the parts of a number, conv-double.hpp:398-414: negative?, digits before the point, digits after it, exponent -/
structure Parsed where
  neg : Bool
  num1 : List ℕ
  num2 : List ℕ
  eneg : Bool
  nume : List ℕ

/-- conv-double.hpp:402-405 -/
def getFrac : List Char → List ℕ × List Char
  | '.' :: t => getNumber t
  | s => ([], s)

/-- conv-double.hpp:407-414 -/
def getExp : List Char → Bool × List ℕ
  | 'e' :: t => ((getSign t).1, (getNumber (getSign t).2).1)
  | 'E' :: t => ((getSign t).1, (getNumber (getSign t).2).1)
  | _ => (false, [])

/-- conv-double.hpp:398-414 -/
def parse (s : List Char) : Parsed :=
  let s1 := getSign (ignoreSpace s)
  let s2 := getNumber s1.2
  let s3 := getFrac s2.2
  let s4 := getExp s3.2
  ⟨s1.1, s2.1, s3.1, s4.1, s4.2⟩

/-- number of bits taken out of an integer with the highest digit `table_max`, conv-double.hpp:485-490 -/
def mBin (tmax : ℕ) : ℕ :=
  if 5 ≤ tmax then 16 else if 4 ≤ tmax then 13 else if 3 ≤ tmax then 9 else if 2 ≤ tmax then 6 else if 1 ≤ tmax then 3 else 1

/-- The state of the fraction loop, conv-double.hpp:509-554: `max = some result_max` if the most significant bit was found
(`flag`), `min = result_min`, the bits found so far (`result2`). -/
structure BinSt where
  max : Option ℤ
  min : ℤ
  bits : List ℕ

/-- conv-double.hpp:534-549: one new bit -/
def addBit (st : BinSt) (b : ℕ) : BinSt :=
  let mn := st.min - 1
  match st.max with
  | some _ => ⟨st.max, mn, st.bits ++ [b]⟩
  | none => if b ≠ 0 then ⟨some mn, mn, [b]⟩ else ⟨none, mn, []⟩

/-- the loop `while (table_min < 0)`, conv-double.hpp:517-554 -/
def binLoop : ℕ → List ℕ → BinSt → Res BinSt
  | 0, _, _ => .error .outOfFuel
  | fuel + 1, fs, st =>
    if fs = [] then .ok st
    else
      let go (m : ℕ) : Res BinSt :=
        let p := mulPass 10 (2 ^ m) fs
        binLoop fuel (p.1.rdropWhile (· = 0)) ((digitsBE 2 m p.2).foldl addBit st)
      match st.max with
      | none => go 16
      | some mx => if 53 - (mx - st.min) ≤ 0 then .ok st else go (min 16 (53 - (mx - st.min)).toNat)

/-- conv-double.hpp:595-624: the bits from `result_max` downwards are added up; the first bit that does not fit decides with the
mode.  `ldexp(1., i)` is the number `2^i`. -/
def accum (neg : Bool) (mode : RMode) (mx : ℤ) : List ℕ → ℤ → D → D
  | [], _, r => r
  | b :: t, i, r =>
    if mx - i = 53 ∨ i = -1075 then
      if away mode neg (if b = 0 then 0 else 5) then Rop.add r (lit (2 ^ (i + 1))) else r
    else accum neg mode mx t (i - 1) (Rop.add r (lit (b * 2 ^ i)))

/-- `sign * r` -/
def signed (neg : Bool) (r : D) : D := if neg then Rop.neg r else r

/-- `stringtod` after parsing, conv-double.hpp:416-626.  An exponent (together with the numbers of digits) above 10^8 is not
modelled: `atoi` and the `int` variables would overflow somewhere above. -/
def convert (p : Parsed) (mode : RMode) : Res D := do
  let e : ℕ := atoi p.nume
  if 100000000 < e + p.num1.length + p.num2.length then .error .undefined
  else
    let e10 : ℤ := if p.eneg then -(e : ℤ) else e
    let n1 := p.num1.dropWhile (· = 0)
    let n2 := p.num2.rdropWhile (· = 0)
    let tmax : ℤ := n1.length - 1 + e10
    let tmin : ℤ := e10 - n2.length
    let all := n1 ++ n2 ++ List.replicate tmin.toNat 0
    let k := (tmax + 1).toNat
    let ip := all.take k
    let fp := List.replicate (-1 - tmax).toNat 0 ++ all.drop k
    let r1 := intLoop 10 2 mBin (4 * ip.length) ip
    let st ← binLoop (fp.length + 60) fp ⟨if r1 = [] then none else some (r1.length - 1), 0, []⟩
    -- `result_max` is still -1 if no bit was found; `result2.front()` is called for the indices -1, ..., result_min
    match st.max with
    | none => if st.min < 0 then .error .undefined else .ok (signed p.neg (lit 0))
    | some mx =>
      let bits := r1.reverse ++ st.bits
      if mx > 1023 then
        if away mode p.neg 5 then .ok (signed p.neg Fl.pinf) else .ok (signed p.neg (Fl.fin binary64.maxQ Format.maxQ_rep))
      else if mx < -1075 then
        if away mode p.neg 0 then .ok (signed p.neg (lit (2 ^ (-1074 : ℤ)))) else .ok (signed p.neg (lit 0))
      else .ok (signed p.neg (accum p.neg mode mx bits mx (lit 0)))

/-- `stringtod(s, mode)`, conv-double.hpp:392-627 -/
def stringtod (s : List Char) (mode : RMode) : Res D := convert (parse s) mode

/-- `interval<double>(s1, s2)`, interval.hpp:133-136 (and 128-131 with `s1 = s2`) -/
def ofStrings (s1 s2 : List Char) : Res (Interval D) := do
  let a ← stringtod s1 .down
  let b ← stringtod s2 .up
  .ok ⟨a, b⟩

end Conv
end Kv
