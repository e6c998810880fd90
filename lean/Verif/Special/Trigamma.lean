import Verif.Special.Gamma

/-!
# Model of `trigamma` (/repo/kv/gamma.hpp:490-531)

The base type is `double`.  `trigamma_plus` (gamma.hpp:472-488), the integral for arguments between 1 and 2, is an arbitrary program `tp`.
-/

namespace Kv
open Rop (lit)
open PM GammaFn

namespace Trigamma

/-- `1. / ((x - i) * (x - i))`, gamma.hpp:509, 513 -/
def recSq (x : Interval D) (i : ℚ) : Res (Interval D) := Interval.sDiv (lit 1) (Interval.mul (Interval.subS x (lit i)) (Interval.subS x (lit i)))

/-- `for (i=y-1; i>=1; i--) r -= 1. / ((x - i) * (x - i));`, gamma.hpp:508-510, from `i = k` -/
def subSq (x : Interval D) : ℕ → Interval D → Res (Interval D)
  | 0, r => .ok r
  | k + 1, r => do
    let q ← recSq x ((k + 1 : ℕ) : ℚ)
    subSq x k (Interval.sub r q)

/-- `for (i=0; i>=y; i--) r += 1. / ((x - i) * (x - i));`, gamma.hpp:512-514, `k` passes from `i = -j` -/
def addSq (x : Interval D) : ℕ → ℕ → Interval D → Res (Interval D)
  | 0, _, r => .ok r
  | k + 1, j, r => do
    let q ← recSq x (-(j : ℚ))
    addSq x k (j + 1) (Interval.add r q)

/-- `trigamma_point(x)`, gamma.hpp:494-518 -/
def point (tp : Interval D → PM (Interval D) (Interval D)) (x : Interval D) : PM (Interval D) (Interval D) := do
  let y := Rop.floor x.inf
  if Rop.eq y (lit 1) then tp x
  else do
    let r ← tp (Interval.subS x (Rop.sub y (lit 1)))
    if Rop.lt (lit 1) y then lift (do
      let i ← toInt (Rop.sub y (lit 1))
      subSq x i.toNat r)
    else lift (do
      let k ← passes y
      addSq x k 0 r)

end Trigamma

/-- `trigamma(x)`, gamma.hpp:520-531; the arguments of `hull` are evaluated from left to right -/
def trigamma (tp : Interval D → PM (Interval D) (Interval D)) (x : Interval D) : PM (Interval D) (Interval D) := do
  if Rop.lt (lit 0) x.inf then do
    let a ← Trigamma.point tp (Interval.point x.sup)
    let b ← Trigamma.point tp (Interval.point x.inf)
    return Interval.hull a b
  else if !Rop.eq (Rop.floor x.inf) (Rop.floor x.sup) then return ⟨lit 0, Rop.inf⟩
  else if Rop.eq (Rop.floor x.inf) x.inf then return ⟨Rop.maxv, Rop.inf⟩
  else Trigamma.point tp x

end Kv
