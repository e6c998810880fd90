import Verif.Complex.Model

/-!
# Model of `cardano` and `ferrari` (/repo/kv/cardano-ferrari.hpp)

The base type is `double`.  A vector is a list.  `none` is the return value `false`, upon which the output vector is left as it was.
`fuel` bounds the loops of the elementary functions.
-/

namespace Kv.Cardano
open Rop (lit)
open Cx

/-- a constant of the source text -/
abbrev num (q : ℚ) : Sc := .dbl (lit q)

/-- `zero_in(x.real()) && zero_in(x.imag())` -/
def zeroInC (x : Cx) : Bool := Interval.zeroIn x.re && Interval.zeroIn x.im

/-- the two assignments by `interval::hull`, cardano-ferrari.hpp:53-54 and 110-111 -/
def hullC (x y : Cx) : Cx := ⟨Interval.hull x.re y.re, Interval.hull x.im y.im⟩

/-- The `if` in the loops, cardano-ferrari.hpp:48-56 and 105-113.  `nn` is `none` as long as `flag` is `false`. -/
def choose (tmp nt : Cx) (nn : Option Cx) : Option Cx :=
  if zeroInC tmp then
    match nn with
    | none => some nt
    | some v => some (hullC v nt)
  else nn

/-- the loop cardano-ferrari.hpp:46-58 with `k` passes left -/
def cubeLoop (m p w : Cx) : ℕ → Cx → Option Cx → Res (Option Cx)
  | 0, _, nn => .ok nn
  | k + 1, nt, nn => do
    let t ← cDivK p (num 3)
    cubeLoop m p w k (cMul w nt) (choose (cAdd (cMul m nt) t) nt nn)

/-- the value of `nn` after a loop: it is still zero if `flag` is `false` (complex.hpp:35-38) -/
def final : Option Cx → Cx
  | none => ofSc (num 0)
  | some v => v

/-- `w` in line 37 -/
def omega : Res Cx := do
  let s ← Interval.sqrt (Interval.point (lit 3))
  cDivK ⟨Interval.point (lit (-1)), s⟩ (num 2)

/-- `pow(x, 1. / interval<T>(3.))`, lines 40 and 41 -/
def cubeRoot (fuel : ℕ) (x : Cx) : Res Cx := do
  let e ← Interval.sDiv (lit 1) (Interval.point (lit 3))
  Cx.pow fuel x (ofSc (.ivl e))

/-- lines 31-63 of `cardano` for the coefficients `x0 + x1 z + x2 z² + x3 z³` -/
def body (fuel : ℕ) (x0 x1 x2 x3 : Cx) : Res (Cx × Cx × Cx) := do
  let a ← cDiv x2 x3
  let b ← cDiv x1 x3
  let c ← cDiv x0 x3
  let a2 ← powInt a 2
  let a2 ← cDivK a2 (num 3)
  let p := cSub b a2
  let a3 ← powInt a 3
  let q1 ← cDivK (kMulC (num 2) a3) (num 27)
  let q2 ← cDivK (cMul a b) (num 3)
  let q := cAdd (cSub q1 q2) c
  let w ← omega
  let d1 ← powInt q 2
  let d1 ← cDivK d1 (num 4)
  let d2 ← powInt p 3
  let d2 ← cDivK d2 (num 27)
  let tmp ← Cx.sqrt fuel (cAdd d1 d2)
  let h ← cDivK (cNeg q) (num 2)
  let m ← cubeRoot fuel (cAdd h tmp)
  let n ← cubeRoot fuel (cSub h tmp)
  let nn ← cubeLoop m p w 3 n none
  let nn := final nn
  let s ← cDivK a (num 3)
  .ok (cSub (cAdd m nn) s, cSub (cAdd (cMul w m) (cMul (cMul w w) nn)) s, cSub (cAdd (cMul (cMul w w) m) (cMul w nn)) s)

/-- `cardano(in, out)`, cardano-ferrari.hpp:22-66 -/
def cardano (fuel : ℕ) : List Cx → Res (Option (List Cx))
  | [x0, x1, x2, x3] =>
    if zeroInC x3 then .ok none
    else do
      let (r0, r1, r2) ← body fuel x0 x1 x2 x3
      .ok (some [r0, r1, r2])
  | _ => .ok none

/-- the loop cardano-ferrari.hpp:103-115 with `k` passes left -/
def signLoop (m q : Cx) : ℕ → Cx → Option Cx → Option Cx
  | 0, _, nn => nn
  | k + 1, nt, nn => signLoop m q k (cNeg nt) (choose (cAdd (cMul (kMulC (num 2) m) nt) q) nt nn)

/-- `sqrt(pow(m, 2) - 4. * u)`, lines 118-121 -/
def rootDisc (fuel : ℕ) (m u : Cx) : Res Cx := do
  let m2 ← powInt m 2
  Cx.sqrt fuel (cSub m2 (kMulC (num 4) u))

/-- `ferrari(in, out)`, cardano-ferrari.hpp:68-124.  The return value of `cardano` (line 94) is ignored; if it were `false`,
`co` would stay empty and line 96 would read outside of it.  The discriminants in lines 118-121 are computed twice in the code. -/
def ferrari (fuel : ℕ) : List Cx → Res (Option (List Cx))
  | [x0, x1, x2, x3, x4] =>
    if Interval.zeroIn x4.re && Interval.zeroIn x3.im then .ok none
    else do
      let a ← cDiv x3 x4
      let b ← cDiv x2 x4
      let c ← cDiv x1 x4
      let d ← cDiv x0 x4
      let a2 ← powInt a 2
      let p1 ← cDivK (cMulK a2 (num 3)) (num 8)
      let p := cSub b p1
      let q1 ← cDivK (cMul b a) (num 2)
      let a3 ← powInt a 3
      let q2 ← cDivK a3 (num 8)
      let q := cAdd (cSub c q1) q2
      let r1 ← cDivK (cMul c a) (num 4)
      let r2 ← cDivK (cMul b a2) (num 16)
      let a4 ← powInt a 4
      let r3 ← cDivK (cMulK a4 (num 3)) (num 256)
      let r := cSub (cAdd (cSub d r1) r2) r3
      let c2 ← cDivK (cNeg p) (num 2)
      let c01 ← cDivK (cMul r p) (num 2)
      let c02 ← powInt q 2
      let c02 ← cDivK c02 (num 8)
      let co ← cardano fuel [cSub c01 c02, cNeg r, c2, ofSc (num 1)]
      match co with
      | some (l :: _) => do
        let m ← Cx.sqrt fuel (cSub (kMulC (num 2) l) p)
        let l2 ← powInt l 2
        let n ← Cx.sqrt fuel (cSub l2 r)
        let nn := final (signLoop m q 2 n none)
        let s1 ← rootDisc fuel m (cSub l nn)
        let s2 ← rootDisc fuel m (cAdd l nn)
        let t ← cDivK a (num 4)
        let o0 ← cDivK (cAdd m s1) (num 2)
        let o1 ← cDivK (cSub m s1) (num 2)
        let o2 ← cDivK (cAdd (cNeg m) s2) (num 2)
        let o3 ← cDivK (cSub (cNeg m) s2) (num 2)
        .ok (some [cSub o0 t, cSub o1 t, cSub o2 t, cSub o3 t])
      | _ => .error .undefined
  | _ => .ok none

end Kv.Cardano
