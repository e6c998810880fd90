import Verif.Special.Gamma

/-!
# Model of `beta` (/repo/kv/beta.hpp)

The base type is `double`; `std::pow` is an arbitrary function `pw` (used for step sizes only).  The operands of `+` in `beta_r` are
evaluated from left to right.
-/

namespace Kv
open Rop (lit)
open PM

/-- parameters: `fuel` bounds the loops of the elementary functions and the steps of the integration, `pw` stands for `std::pow`,
`order` for `BETA_ORDER` -/
structure BetaPar where
  fuel : ℕ
  pw : D → D → D
  order : ℕ

namespace BetaFn

/-- `pow(t, T(x)-1)`, beta.hpp:18, 36 -/
def powT (i : ℕ) : Expr 1 := .pow (.var 0) (.binC .sub (.par i) (lit 1))

/-- `pow(1-t, T(y)-1)`, beta.hpp:18, 27 -/
def powS (i : ℕ) : Expr 1 := .pow (.cBin .sub (lit 1) (.var 0)) (.binC .sub (.par i) (lit 1))

/-- the interval constants of the integrands: `x` and `y` -/
def par (x y : Interval D) (i : ℕ) : Interval D := if i = 0 then x else y

/-- the number of passes of `for (i=1; i<=n; i++)`, beta.hpp:63, 69, 75: undefined (overflow of `i`) from `2^31 - 1` on -/
def upTo : D → Res ℕ
  | .fin q _ => if 2 ^ 31 - 1 ≤ q then .error .undefined else .ok ⌊q⌋.toNat
  | .pinf => .error .undefined
  | _ => .ok 0

/-- `for (..) r *= x - i;`, beta.hpp:63, 71, 75: `k` passes from `i` -/
def mulFrom (x : Interval D) : ℕ → ℤ → Interval D → Interval D
  | 0, _, r => r
  | k + 1, i, r => mulFrom x k (i + 1) (Interval.mul r (Interval.subS x (lit (i : ℚ))))

/-- `for (..) r /= x - i;`, beta.hpp:65, 69, 77: `k` passes from `i` -/
def divFrom (x : Interval D) : ℕ → ℤ → Interval D → Res (Interval D)
  | 0, _, r => .ok r
  | k + 1, i, r => do
    let r ← Interval.div r (Interval.subS x (lit (i : ℚ)))
    divFrom x k (i + 1) r

/-- beta.hpp:62-66, 74-78: the factors of `Γ(x)` for the shift by `n` -/
def shiftNum (x : Interval D) (n : D) (r : Interval D) : Res (Interval D) :=
  if Rop.le (lit 1) n then do
    let k ← upTo n
    .ok (mulFrom x k 1 r)
  else do
    let i ← GammaFn.toInt (Rop.add n (lit 1))
    divFrom x (1 - i).toNat i r

/-- beta.hpp:68-72: the factors of `1/Γ(x)` for the shift by `n`, where `x` is the sum -/
def shiftDen (x : Interval D) (n : D) (r : Interval D) : Res (Interval D) :=
  if Rop.le (lit 1) n then do
    let k ← upTo n
    divFrom x k 1 r
  else do
    let i ← GammaFn.toInt (Rop.add n (lit 1))
    .ok (mulFrom x (1 - i).toNat i r)

end BetaFn

open BetaFn

/-- `beta_r(x, y)`, beta.hpp:44-48; the default of `epsilon` is `2^-52` -/
def betaR [Scal (Interval D)] (P : BetaPar) (x y : Interval D) : PM (Interval D) (Interval D) := do
  let rest : Defint.Integrand := ⟨.bin .mul (powT 0) (powS 1), par x y, P.pw⟩
  let a ← defintPowerAuto P.fuel rest (powS 1) (par x y) (Interval.point (lit 0)) (Interval.point (lit (1 / 2))) P.order (Interval.subS x (lit 1))
    (lit (1 / 2 ^ 52))
  let b ← defintPowerAutoR P.fuel rest (powT 0) (par x y) (Interval.point (lit (1 / 2))) (Interval.point (lit 1)) P.order (Interval.subS y (lit 1))
    (lit (1 / 2 ^ 52))
  return Interval.add a b

/-- `beta(x, y)`, beta.hpp:50-81 -/
def beta [Scal (Interval D)] (P : BetaPar) (x y : Interval D) : PM (Interval D) (Interval D) := do
  let nx := Rop.sub (Rop.floor x.inf) (lit 1)
  let ny := Rop.sub (Rop.floor y.inf) (lit 1)
  let r ← betaR P (Interval.subS x nx) (Interval.subS y ny)
  lift (do
    let r ← shiftNum x nx r
    let r ← shiftDen (Interval.add x y) (Rop.add nx ny) r
    shiftNum y ny r)

end Kv
