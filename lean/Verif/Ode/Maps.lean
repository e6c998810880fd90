import Verif.Ode.OdeQr
import Verif.Ode.Model

/-!
# Model of `StroboMap`, `FixedPoint`, `Shooting_TPBVP` (/repo/kv/strobomap.hpp) and `PoincareMap` (/repo/kv/poincaremap.hpp)

The arguments are vectors of intervals or of `autodif` over intervals, the base type is `double`.  The solver `odelong_maffine` and the user functions are arbitrary functions (the state of the power
series arithmetic is not an argument of them).  All components of an `autodif` vector have the same number of derivatives.
-/

namespace Kv
open Rop (lit)
open LA Qr

namespace Maps
variable {n m : ℕ}

/-- `odelong_maffine(f, result, start, end2, p)` for intervals and for `autodif`: the returned value and `result` -/
structure Solver (n : ℕ) where
  I : Vec n (Interval D) → Interval D → Interval D → Res (ℤ × Vec n (Interval D))
  AD : {m : ℕ} → Ad n m → Interval D → Interval D → Res (ℤ × Ad n m)

/-- strobomap.hpp:69-88 -/
def strobo (S : Solver n) (start stop : Interval D) (x : Vec n (Interval D)) : Res (Vec n (Interval D)) := do
  let (r, y) ← S.I x start stop
  if r ≠ 2 then .error .domainError else .ok y

/-- strobomap.hpp:111-125 -/
def stroboAd (S : Solver n) (start stop : Interval D) (x : Ad n m) : Res (Ad n m) := do
  let (r, y) ← S.AD x start stop
  if r ≠ 2 then .error .domainError else .ok y

/-- `x - f(x)` for interval vectors, strobomap.hpp:130-137 -/
def fixedPoint (f : Vec n (Interval D) → Res (Vec n (Interval D))) (x : Vec n (Interval D)) : Res (Vec n (Interval D)) := do
  let y ← f x
  .ok fun i => Interval.sub (x i) (y i)

/-- `x - f(x)` for `autodif` (autodif.hpp:100-114), strobomap.hpp:130-137 -/
def fixedPointAd (f : Ad n m → Res (Ad n m)) (x : Ad n m) : Res (Ad n m) := do
  let y ← f x
  .ok ⟨fun i => Interval.sub (x.v i) (y.v i), fun i j => Interval.sub (x.d i j) (y.d i j)⟩

/-- `Shooting_TPBVP` for intervals, strobomap.hpp:149-183; `mid_ifnecessary` returns the interval itself; `si` and `ei` are `start_index`, `end_index`, and `1 - start_index` is `variable_index` -/
def shooting (f : Vec 2 (Interval D) → Res (Vec 2 (Interval D))) (sv ev : Interval D) (si ei : Fin 2) (s : Interval D) : Res (Interval D) := do
  let y ← f fun i => if i = si then sv else s
  .ok (Interval.sub (y ei) ev)

/-- the functions of a Poincaré map: the right-hand side `f1` for intervals, and `f2` for intervals and for `autodif` -/
structure Funs (n : ℕ) where
  f1 : Vec n (Interval D) → Interval D → Res (Vec n (Interval D))
  f2 : Vec (n + 1) (Interval D) → Res (Interval D)
  f2d : {m : ℕ} → Ad (n + 1) m → Res (Interval D × Vec m (Interval D))

/-- poincaremap.hpp:80-99 -/
def poincare (S : Solver n) (f : Funs n) (start : Interval D) (x : Vec (n + 1) (Interval D)) : Res (Vec (n + 1) (Interval D)) := do
  let y ← strobo S start (x (Fin.last n)) fun i => x i.castSucc
  let r ← f.f2 x
  .ok (Ode.withT (fun i => Interval.sub (y i) (x i.castSucc)) r)

/-- poincaremap.hpp:101-133 -/
def poincareAd (S : Solver n) (f : Funs n) (start : Interval D) (x : Ad (n + 1) m) : Res (Ad (n + 1) m) := do
  let t := x.v (Fin.last n)
  let y ← stroboAd S start t ⟨fun i => x.v i.castSucc, fun i => x.d i.castSucc⟩
  let dxdt ← f.f1 y.v t
  let yd : Mat n m (Interval D) := fun i j => Interval.add (y.d i j) (Interval.mul (dxdt i) (x.d (Fin.last n) j))
  let r ← f.f2d x
  .ok ⟨Ode.withT (fun i => Interval.sub (y.v i) (x.v i.castSucc)) r.1, Ode.withT (fun i j => Interval.sub (yd i j) (x.d i.castSucc j)) r.2⟩

/-- `autodif::init(x)`, autodif.hpp:458-473 -/
def initAd (x : Vec n (Interval D)) : Ad n n := ⟨x, fun i j => Interval.point (eye i j)⟩

/-- the Poincaré map as `krawczyk_approx` and the other solvers call it -/
def poincareProg (S : Solver n) (f : Funs n) (start : Interval D) : Prog (n + 1) where
  F := poincare S f start
  FD x := do
    let r ← poincareAd S f start (initAd x)
    .ok (r.v, r.d)

/-- the fixed point function of the stroboscopic map as the solvers call it -/
def stroboProg (S : Solver n) (start stop : Interval D) : Prog n where
  F := fixedPoint (strobo S start stop)
  FD x := do
    let r ← fixedPointAd (stroboAd S start stop) (initAd x)
    .ok (r.v, r.d)

end Maps
end Kv
