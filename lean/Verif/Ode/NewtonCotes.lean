import Verif.Ode.Model
import Verif.Solver.Optimize

/-!
# Model of the Newton-Cotes quadrature (/repo/kv/defint-newtoncotes.hpp)

Base type `double`.  The function is a template function of one variable; it is called with `interval`, and by `HighDeriv`
with `psa<interval>` and `psa<autodif<interval>>`.
-/

namespace Kv
open Rop (lit)
open LA

namespace NCotes

/-- `Opt_MakeVec(HighDeriv(f, d))` (highderiv.hpp:58-65, optimize.hpp:54-60) as `optimize` calls it.  The static members of
`psa` before each call are `s1` (for `psa<interval>`) and `s2` (for `psa<autodif<interval>>`), which are arbitrary:
`highderiv` sets the mode and both switches before it calls the function. -/
def hdProg (fuel : ℕ) (s1 : PSt (Interval D)) (s2 : PSt (Autodif (Interval D))) (p : ℕ → Interval D) (e : Expr 1) (d : ℕ) : SProg 1 where
  F X := ((letI := scalI fuel; highDerivAt e p (X 0) d) s1).1
  FD X := do
    let r ← (@highDerivAt _ (@Autodif.instScal _ (scalI fuel)) e (fun i => Autodif.lift (p i)) (@Autodif.init _ (scalI fuel) 1 X 0) d s2).1
    .ok (r.v, fun j => @Autodif.row _ (scalI fuel) 1 r j)

/-- `Opt_MakeMinus` of it, optimize.hpp:44-50 -/
def hdMinus (fuel : ℕ) (s1 : PSt (Interval D)) (s2 : PSt (Autodif (Interval D))) (p : ℕ → Interval D) (e : Expr 1) (d : ℕ) : SProg 1 where
  F X := do .ok (Interval.neg (← ((letI := scalI fuel; highDerivAt e p (X 0) d) s1).1))
  FD X := do
    let r ← (@highDerivAt _ (@Autodif.instScal _ (scalI fuel)) e (fun i => Autodif.lift (p i)) (@Autodif.init _ (scalI fuel) 1 X 0) d s2).1
    let r ← @Autodif.unary _ (scalI fuel) .neg r
    .ok (r.v, fun j => @Autodif.row _ (scalI fuel) 1 r j)

/-- `interval<T>(a)/b`, and `interval<T>(a)` for `b = 1` -/
def entry (a b : ℤ) : Res (Interval D) :=
  if b = 1 then .ok (Interval.point (lit (a : ℚ))) else Interval.divS (Interval.point (lit (a : ℚ))) (lit (b : ℚ))

/-- the table `coeff`, defint-newtoncotes.hpp:21-30 -/
def coeff : ℕ → List (ℤ × ℤ)
  | 1 => [(1, 2), (1, 1)]
  | 2 => [(1, 3), (4, 3), (2, 3)]
  | 3 => [(3, 8), (9, 8), (9, 8), (3, 4)]
  | 4 => [(14, 45), (64, 45), (8, 15), (64, 45), (28, 45)]
  | 5 => [(95, 288), (125, 96), (125, 144), (125, 144), (125, 96), (95, 144)]
  | 6 => [(41, 140), (54, 35), (27, 140), (68, 35), (27, 140), (54, 35), (41, 70)]
  | 7 => [(5257, 17280), (25039, 17280), (343, 640), (20923, 17280), (20923, 17280), (343, 640), (25039, 17280), (5257, 8640)]
  | _ => []

/-- the table `errterm`, defint-newtoncotes.hpp:31-40 -/
def errterm : ℕ → ℤ × ℤ
  | 1 => (-1, 12)
  | 2 => (-1, 180)
  | 3 => (-3, 80)
  | 4 => (-2, 945)
  | 5 => (-275, 12096)
  | 6 => (-3, 2800)
  | 7 => (-8183, 518400)
  | _ => (0, 1)

/-- the table `errord`, defint-newtoncotes.hpp:41-50 -/
def errord : ℕ → ℕ
  | 1 => 2
  | 2 => 4
  | 3 => 4
  | 4 => 6
  | 5 => 6
  | 6 => 8
  | 7 => 8
  | _ => 0

/-- `coeff[n][j]`; an index outside of the table would be undefined -/
def coef (n j : ℕ) : Res (Interval D) :=
  match (coeff n)[j]? with
  | none => .error .undefined
  | some c => entry c.1 c.2

/-- the coefficient of the `i`-th point, defint-newtoncotes.hpp:102-104 -/
def weight (n i m : ℕ) : Res (Interval D) :=
  if i = 0 ∨ i = m then coef n 0
  else if i % n = 0 then coef n n
  else coef n (i % n)

/-- `while (m % n != 0) m++;`, defint-newtoncotes.hpp:95; fewer than `n` steps are needed, `m++` overflows at `INT_MAX` -/
def roundM (n : ℕ) : ℕ → ℤ → Res ℤ
  | 0, _ => .error .outOfFuel
  | k + 1, m =>
    if m.tmod n = 0 then .ok m
    else if m = 2147483647 then .error .undefined
    else roundM n k (m + 1)

/-- the loop over the points, defint-newtoncotes.hpp:99-106; `k` points remain, `i` is the index of the next one -/
def sum (F : Interval D → Res (Interval D)) (n m : ℕ) (start h : Interval D) : ℕ → ℕ → Interval D → Res (Interval D)
  | 0, _, r => .ok r
  | k + 1, i, r => do
    let x := Interval.add start (Interval.sMul (lit (i : ℚ)) h)
    let c ← weight n i m
    let y ← F x
    sum F n m start h k (i + 1) (Interval.add r (Interval.mul c y))

end NCotes

open NCotes in
/-- `defint_newtoncotes(f, start, end, n, m, errorterm_div)`, defint-newtoncotes.hpp:15-112.  `lim` gives the limit which
`minimize_value` computes from the width of the interval, `errorterm_div` and `std::pow` (optimize.hpp:329-341), `est` is the
number of points estimated for `m = 0` with floating point numbers (lines 65-93); both are arbitrary.  Only those
coefficients are computed which are used.  For `m = INT_MAX` the loop variable overflows.  `fuel` bounds the loop of
`minimize`, `fuel'` those of the elementary functions. -/
def defintNewtoncotes (fuel fuel' : ℕ) (s1 : PSt (Interval D)) (s2 : PSt (Autodif (Interval D))) (lim : D → D) (est : Res ℤ)
    (p : ℕ → Interval D) (e : Expr 1) (start stop : Interval D) (n m : ℤ) : Res (Interval D) := do
  if n < 1 ∨ 7 < n then .error .domainError
  else
    let n := n.toNat
    let w := Interval.sub stop start
    let v := Interval.hull start stop
    let limit := lim (Interval.width v)
    let lo ← minimizeValue fuel (hdProg fuel' s1 s2 p e (errord n)) (fun _ => v) limit
    let hi ← minimizeValue fuel (hdMinus fuel' s1 s2 p e (errord n)) (fun _ => v) limit
    let hd := Interval.hull lo (Interval.neg hi)
    let m ← (if m = 0 then est else .ok m : Res ℤ)
    let m ← roundM n 8 m
    let h ← Interval.divS w (lit (m : ℚ))
    if m = 2147483647 then .error .undefined
    else
      let r ← sum (fun x => @Expr.eval _ (scalI fuel') 1 p (fun _ => x) e) n m.toNat start h (m + 1).toNat 0 (Interval.point (lit 0))
      let r := Interval.mul r h
      let pw ← Interval.powInt h (errord n)
      let err ← entry (errterm n).1 (errterm n).2
      .ok (Interval.add r (Interval.mul (Interval.mul (Interval.mul hd w) pw) err))

end Kv
