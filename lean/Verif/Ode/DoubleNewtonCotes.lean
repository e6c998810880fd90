import Verif.Ode.NewtonCotes

/-!
# Model of the Newton-Cotes quadrature in two dimensions (/repo/kv/double-newtoncotes.hpp, /repo/kv/doubleint-curvededge.hpp)

Base type `double`.  The function is a template function of two variables; it is called with `interval`, and by
`PartialDeriv` with `psa<interval>` and `psa<autodif<interval>>`.  The tables of coefficients (lines 32-61) are the same as those
of defint-newtoncotes.hpp.
-/

namespace Kv
open Rop (lit)
open LA

namespace NCotes

/-- `PartialDeriv(f, j, d)` (highderiv.hpp:94-103) as `optimize` calls it.  As in `hdProg` the static members of `psa` before
each call are arbitrary. -/
def pdProg (fuel : ℕ) (s1 : PSt (Interval D)) (s2 : PSt (Autodif (Interval D))) (p : ℕ → Interval D) (e : Expr 2) (j : Fin 2) (d : ℕ) : SProg 2 where
  F X := ((letI := scalI fuel; partialDeriv e p j d X) s1).1
  FD X := do
    let r ← (@partialDeriv _ (@Autodif.instScal _ (scalI fuel)) 2 e (fun i => Autodif.lift (p i)) j d (@Autodif.init _ (scalI fuel) 2 X) s2).1
    .ok (r.v, fun i => @Autodif.row _ (scalI fuel) 2 r i)

/-- `Opt_MakeMinus` of it, optimize.hpp:44-50 -/
def pdMinus (fuel : ℕ) (s1 : PSt (Interval D)) (s2 : PSt (Autodif (Interval D))) (p : ℕ → Interval D) (e : Expr 2) (j : Fin 2) (d : ℕ) : SProg 2 where
  F X := do .ok (Interval.neg (← ((letI := scalI fuel; partialDeriv e p j d X) s1).1))
  FD X := do
    let r ← (@partialDeriv _ (@Autodif.instScal _ (scalI fuel)) 2 e (fun i => Autodif.lift (p i)) j d (@Autodif.init _ (scalI fuel) 2 X) s2).1
    let r ← @Autodif.unary _ (scalI fuel) .neg r
    .ok (r.v, fun i => @Autodif.row _ (scalI fuel) 2 r i)

/-- the hull of `minimize_value` and `maximize_value` of the derivative, double-newtoncotes.hpp:80-81 -/
def pdHull (fuel fuel' : ℕ) (s1 : PSt (Interval D)) (s2 : PSt (Autodif (Interval D))) (limit : D) (p : ℕ → Interval D) (e : Expr 2) (j : Fin 2) (d : ℕ)
    (v : Vec 2 (Interval D)) : Res (Interval D) := do
  let lo ← minimizeValue fuel (pdProg fuel' s1 s2 p e j d) v limit
  let hi ← minimizeValue fuel (pdMinus fuel' s1 s2 p e j d) v limit
  .ok (Interval.hull lo (Interval.neg hi))

/-- the inner loop, double-newtoncotes.hpp:142-148; `k` points remain, `j` is the index of the next one -/
def row (F : Interval D → Res (Interval D)) (n m : ℕ) (k1 start h : Interval D) : ℕ → ℕ → Interval D → Res (Interval D)
  | 0, _, r => .ok r
  | k + 1, j, r => do
    let y := Interval.add start (Interval.sMul (lit (j : ℚ)) h)
    let k2 ← weight n j m
    let z ← F y
    row F n m k1 start h k (j + 1) (Interval.add r (Interval.mul (Interval.mul k1 k2) z))

/-- the outer loop, double-newtoncotes.hpp:136-149 -/
def sum2 (F : Interval D → Interval D → Res (Interval D)) (n m1 m2 : ℕ) (start1 h1 start2 h2 : Interval D) : ℕ → ℕ → Interval D → Res (Interval D)
  | 0, _, r => .ok r
  | k + 1, i, r => do
    let x := Interval.add start1 (Interval.sMul (lit (i : ℚ)) h1)
    let k1 ← weight n i m1
    let r ← row (F x) n m2 k1 start2 h2 (m2 + 1) 0 r
    sum2 F n m1 m2 start1 h1 start2 h2 k (i + 1) r

end NCotes

open NCotes in
/-- `double_newtoncotes(f, start1, end1, start2, end2, n, m1, m2, errorterm_div)`, double-newtoncotes.hpp:26-156.  `limit` is the
limit which `minimize_value` computes from the widths of the intervals, `errorterm_div` and `std::pow` (optimize.hpp:329-341), `est`
are the numbers of points estimated with floating point numbers if one of them is 0 (lines 86-128); both are arbitrary.  Only
those coefficients are computed which are used.  If `m1` or `m2` is `INT_MAX`, a loop variable overflows; a negative `m1`, for which
the inner loop is not reached, is no exception here.  `m2 < -1` gives no points as in the code.  `fuel` bounds the loop of
`minimize`, `fuel'` those of the elementary functions. -/
def doubleNewtoncotes (fuel fuel' : ℕ) (s1 : PSt (Interval D)) (s2 : PSt (Autodif (Interval D))) (limit : D) (est : Res (ℤ × ℤ))
    (p : ℕ → Interval D) (e : Expr 2) (start1 end1 start2 end2 : Interval D) (n m1 m2 : ℤ) : Res (Interval D) := do
  if n < 1 ∨ 7 < n then .error .domainError
  else
    let n := n.toNat
    let w1 := Interval.sub end1 start1
    let w2 := Interval.sub end2 start2
    let v : Vec 2 (Interval D) := ![Interval.hull start1 end1, Interval.hull start2 end2]
    let hdx ← pdHull fuel fuel' s1 s2 limit p e 0 (errord n) v
    let hdy ← pdHull fuel fuel' s1 s2 limit p e 1 (errord n) v
    let m ← (if m1 = 0 ∨ m2 = 0 then est else .ok (m1, m2) : Res (ℤ × ℤ))
    let m1 ← roundM n 8 m.1
    let m2 ← roundM n 8 m.2
    let h1 ← Interval.divS w1 (lit (m1 : ℚ))
    let h2 ← Interval.divS w2 (lit (m2 : ℚ))
    if m1 = 2147483647 ∨ m2 = 2147483647 then .error .undefined
    else
      let r ← (if m2 < 0 then .ok (Interval.point (lit 0)) else
        sum2 (fun x y => @Expr.eval _ (scalI fuel') 2 p ![x, y] e) n m1.toNat m2.toNat start1 h1 start2 h2 (m1 + 1).toNat 0 (Interval.point (lit 0)) : Res (Interval D))
      let r := Interval.mul r (Interval.mul h1 h2)
      let err ← entry (errterm n).1 (errterm n).2
      let pw1 ← Interval.powInt h1 (errord n)
      let r := Interval.add r (Interval.mul (Interval.mul (Interval.mul (Interval.mul hdx w1) w2) pw1) err)
      let pw2 ← Interval.powInt h2 (errord n)
      .ok (Interval.add r (Interval.mul (Interval.mul (Interval.mul (Interval.mul hdy w1) w2) pw2) err))

/-- `f(x, y)` with expressions in place of the arguments -/
def Expr.subst2 {n : ℕ} : Expr 2 → Expr n → Expr n → Expr n
  | .var i, x, y => if i = 0 then x else y
  | .par i, _, _ => .par i
  | .cst c, _, _ => .cst c
  | .un f a, x, y => .un f (a.subst2 x y)
  | .bin o a b, x, y => .bin o (a.subst2 x y) (b.subst2 x y)
  | .binC o a c, x, y => .binC o (a.subst2 x y) c
  | .cBin o c b, x, y => .cBin o c (b.subst2 x y)
  | .powI a k, x, y => .powI (a.subst2 x y) k
  | .pow a b, x, y => .pow (a.subst2 x y) (b.subst2 x y)

/-- a function of one variable as a function of the first of two variables -/
def Expr.first : Expr 1 → Expr 2
  | .var _ => .var 0
  | .par i => .par i
  | .cst c => .cst c
  | .un f a => .un f a.first
  | .bin o a b => .bin o a.first b.first
  | .binC o a c => .binC o a.first c
  | .cBin o c b => .cBin o c b.first
  | .powI a k => .powI a.first k
  | .pow a b => .pow a.first b.first

/-- `Convert_Curved_Edge(f, el, eh)`, doubleint-curvededge.hpp:13-25, as an expression.  `el(x)` and `eh(x) - el(x)`, which the
code computes once, occur more than once; as these computations have no effects (the history of `psa` is off), this gives the same
values. -/
def curvedEdge (f : Expr 2) (el eh : Expr 1) : Expr 2 :=
  .bin .mul (f.subst2 (.var 0) (.bin .add el.first (.bin .mul (.var 1) (.bin .sub eh.first el.first)))) (.bin .sub eh.first el.first)

/-- `Swap_xy(f)`, doubleint-curvededge.hpp:27-34 -/
def swapXy (f : Expr 2) : Expr 2 := f.subst2 (.var 1) (.var 0)

/-- `doubleint_curvededge(f, el, eh, start, end, n, m1, m2, errorterm_div)`, doubleint-curvededge.hpp:40-46 -/
def doubleintCurvededge (fuel fuel' : ℕ) (s1 : PSt (Interval D)) (s2 : PSt (Autodif (Interval D))) (limit : D) (est : Res (ℤ × ℤ))
    (p : ℕ → Interval D) (f : Expr 2) (el eh : Expr 1) (start stop : Interval D) (n m1 m2 : ℤ) : Res (Interval D) :=
  doubleNewtoncotes fuel fuel' s1 s2 limit est p (curvedEdge f el eh) start stop (Interval.point (lit 0)) (Interval.point (lit 1)) n m1 m2

/-- `doubleint_curvededge_s(f, el, eh, start, end, n, m1, m2, errorterm_div)`, doubleint-curvededge.hpp:53-59 -/
def doubleintCurvededgeS (fuel fuel' : ℕ) (s1 : PSt (Interval D)) (s2 : PSt (Autodif (Interval D))) (limit : D) (est : Res (ℤ × ℤ))
    (p : ℕ → Interval D) (f : Expr 2) (el eh : Expr 1) (start stop : Interval D) (n m1 m2 : ℤ) : Res (Interval D) :=
  doubleintCurvededge fuel fuel' s1 s2 limit est p (swapXy f) el eh start stop n m2 m1

end Kv
