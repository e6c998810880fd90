import Verif.Autodif.Inst

/-!
# `KKT_equation`

/repo/kv/kkt.hpp: the functions `alpha_plus`, `alpha_minus` and their derivatives for intervals and automatic differentiation, and the
equation made of an objective function, inequalities and equalities, evaluated with intervals.
-/

namespace Kv
open Rop Kv.Interval

namespace Kkt

/-- the lower (upper) end of `pow(interval<T>(a), 3.)`: the exponent is a `double`, so that this is `pow(interval, interval)` -/
def powD (fuel : ℕ) (a k : D) : Res (Interval D) := Interval.pow fuel (Interval.point a) (Interval.point k)

/-- `alpha_plus` for intervals, kkt.hpp:52-69 -/
def alphaPlus (fuel : ℕ) (x : Interval D) : Res (Interval D) := do
  let l ← (if Rop.le x.inf (lit 0) then .ok (lit 0) else do .ok (← powD fuel x.inf (lit 3)).inf : Res D)
  let u ← (if Rop.le x.sup (lit 0) then .ok (lit 0) else do .ok (← powD fuel x.sup (lit 3)).sup : Res D)
  .ok ⟨l, u⟩

/-- `alpha_plus_d` for intervals, kkt.hpp:71-88 -/
def alphaPlusD (fuel : ℕ) (x : Interval D) : Res (Interval D) := do
  let l ← (if Rop.le x.inf (lit 0) then .ok (lit 0) else do .ok (Interval.sMul (lit 3) (← powD fuel x.inf (lit 2))).inf : Res D)
  let u ← (if Rop.le x.sup (lit 0) then .ok (lit 0) else do .ok (Interval.sMul (lit 3) (← powD fuel x.sup (lit 2))).sup : Res D)
  .ok ⟨l, u⟩

/-- `alpha_minus` for intervals, kkt.hpp:90-107 -/
def alphaMinus (x : Interval D) : Res (Interval D) := do
  let u ← (if Rop.le (lit 0) x.inf then .ok (lit 0) else do .ok (Interval.neg (← Interval.powInt (Interval.point x.inf) 3)).sup : Res D)
  let l ← (if Rop.le (lit 0) x.sup then .ok (lit 0) else do .ok (Interval.neg (← Interval.powInt (Interval.point x.sup) 3)).inf : Res D)
  .ok ⟨l, u⟩

/-- `alpha_minus_d` for intervals, kkt.hpp:109-126 -/
def alphaMinusD (x : Interval D) : Res (Interval D) := do
  let l ← (if Rop.le (lit 0) x.inf then .ok (lit 0) else do .ok (Interval.sMul (lit (-3)) (← Interval.powInt (Interval.point x.inf) 2)).inf : Res D)
  let u ← (if Rop.le (lit 0) x.sup then .ok (lit 0) else do .ok (Interval.sMul (lit (-3)) (← Interval.powInt (Interval.point x.sup) 2)).sup : Res D)
  .ok ⟨l, u⟩

/-- `alpha_plus` for `autodif`, kkt.hpp:130-138 -/
def alphaPlusA (fuel : ℕ) (x : Autodif (Interval D)) : Res (Autodif (Interval D)) := do
  let v ← alphaPlus fuel x.v
  let s ← alphaPlusD fuel x.v
  .ok ⟨v, ← @Autodif.scale _ (scalI fuel) s x.d⟩

/-- `alpha_minus` for `autodif`, kkt.hpp:140-148 -/
def alphaMinusA (fuel : ℕ) (x : Autodif (Interval D)) : Res (Autodif (Interval D)) := do
  let v ← alphaMinus x.v
  let s ← alphaMinusD x.v
  .ok ⟨v, ← @Autodif.scale _ (scalI fuel) s x.d⟩

/-- the components of a vector, in order -/
def finM {α : Type} : {m : ℕ} → (Fin m → Res α) → Res (Fin m → α)
  | 0, _ => .ok Fin.elim0
  | _ + 1, f => do
    let a ← f 0
    let r ← finM fun i => f i.succ
    .ok (Fin.cons a r)

/-- `fv += prod(trans(m), b)` if `m` has rows (kkt.hpp:189, 197), where `m` is the matrix made by `split`.  `len` is the size of `fv`; if
the sizes do not agree (all rows of `m` are constants), ublas reads outside of the vectors. -/
def addProd (fuel : ℕ) {n m : ℕ} (len : ℕ) (fv : Fin n → Interval D) (G : Fin m → Autodif (Interval D)) (b : Fin m → Interval D) : Res (Fin n → Interval D) :=
  if m = 0 then .ok fv
  else if Autodif.splitCols G ≠ len then .error .undefined
  else finM fun j => do
    let t ← @Autodif.dotFrom _ (scalI fuel) (Interval.point (lit 0)) (List.ofFn fun i => @Autodif.row _ (scalI fuel) n (G i) j) (List.ofFn b)
    .ok (Interval.add (fv j) t)

/-- `KKT_equation::operator()`, kkt.hpp:160-206, with intervals.  `x`, `b` and `mu` are the first `f.size()` components of the argument, those
of the inequalities and those of the equalities; the result consists of the three parts in the same order.  The size of `fv` is that of
the gradient of `f`, which is 0 if `f` is a constant; then `r(i) = fv(i)` reads outside of the vector.  The order in which exceptions of
different parts are thrown is not modelled. -/
def kktEq (fuel : ℕ) (p : ℕ → Interval D) {n sg sh : ℕ} (f : Expr n) (g : Fin sg → Expr n) (h : Fin sh → Expr n)
    (x : Fin n → Interval D) (b : Fin sg → Interval D) (mu : Fin sh → Interval D) :
    Res ((Fin n → Interval D) × (Fin sg → Interval D) × (Fin sh → Interval D)) := do
  let F ← evalA fuel p x f
  let G ← finM fun i => evalA fuel p x (g i)
  let B ← finM fun i => alphaPlus fuel (b i)
  let gv ← finM fun i => do .ok (Interval.add (G i).v (← alphaMinus (b i)))
  let fv ← addProd fuel F.d.length (@Autodif.row _ (scalI fuel) n F) G B
  let H ← finM fun i => evalA fuel p x (h i)
  let fv ← addProd fuel F.d.length fv H mu
  if F.d.length ≠ n then .error .undefined
  else .ok (fv, gv, fun i => (H i).v)

end Kkt
end Kv
