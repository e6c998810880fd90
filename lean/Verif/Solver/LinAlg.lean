import Verif.Autodif.Model

/-!
# Model of the interval linear algebra used by the solvers

Vectors and matrices of ublas are functions on `Fin n`; the products are the ones of ublas (inner
products accumulated from `T(0)`), the predicates are those of /repo/kv/interval-vector.hpp.
The base type is `double`.
-/

namespace Kv
open Rop (lit)

/-- `ub::vector<T>` of size `n` -/
abbrev Vec (n : ℕ) (α : Type) : Type := Fin n → α
/-- `ub::matrix<T>` -/
abbrev Mat (m n : ℕ) (α : Type) : Type := Fin m → Fin n → α

namespace LA
variable {l m n : ℕ}

/-- `t = interval<T>(0); t += a_k;` as in the products of ublas -/
def sumI (f : Fin n → Interval D) : Interval D := (List.ofFn f).foldl Interval.add (Interval.point (lit 0))
/-- the same for scalars (round to nearest) -/
def sumS (f : Fin n → D) : D := (List.ofFn f).foldl Rop.add (lit 0)

/-- `prod(R, v)` with a point matrix and an interval vector -/
def prodSV (R : Mat m n D) (v : Vec n (Interval D)) : Vec m (Interval D) := fun i => sumI fun k => Interval.sMul (R i k) (v k)
/-- `prod(R, a)` with a point matrix and an interval matrix -/
def prodSM (R : Mat m n D) (a : Mat n l (Interval D)) : Mat m l (Interval D) := fun i j => sumI fun k => Interval.sMul (R i k) (a k j)
/-- `prod(M, v)` for intervals -/
def prodIV (M : Mat m n (Interval D)) (v : Vec n (Interval D)) : Vec m (Interval D) := fun i => sumI fun k => Interval.mul (M i k) (v k)
/-- `prod(R, v)` for scalars -/
def prodSS (R : Mat m n D) (v : Vec n D) : Vec m D := fun i => sumS fun k => Rop.mul (R i k) (v k)

/-- `mid` of a vector / matrix (interval-vector.hpp:19-45) -/
def midV (I : Vec n (Interval D)) : Vec n D := fun i => Interval.mid (I i)
def midM (I : Mat m n (Interval D)) : Mat m n D := fun i j => Interval.mid (I i j)

/-- assignment of a scalar vector to an interval vector -/
def pointV (c : Vec n D) : Vec n (Interval D) := fun i => Interval.point (c i)

/-- all tests of a vector succeed; the loops `for (i..) if (!test(i)) return false; return true;` of
interval-vector.hpp:154-201 -/
def allV (f : Fin n → Bool) : Bool := (List.ofFn f).all id

/-- interval-vector.hpp:154-163 -/
def zeroInV (I : Vec n (Interval D)) : Bool := allV fun i => Interval.zeroIn (I i)
/-- interval-vector.hpp:165-174 -/
def subsetV (I J : Vec n (Interval D)) : Bool := allV fun i => Interval.subset (I i) (J i)
/-- interval-vector.hpp:176-185 -/
def properSubsetV (I J : Vec n (Interval D)) : Bool := allV fun i => Interval.properSubset (I i) (J i)
/-- interval-vector.hpp:187-201 -/
def overlapV (I J : Vec n (Interval D)) : Bool := allV fun i => Interval.overlap (I i) (J i)
/-- interval-vector.hpp:203-213 -/
def intersectV (I J : Vec n (Interval D)) : Vec n (Interval D) := fun i => Interval.intersect (I i) (J i)
/-- interval-vector.hpp:230-240 -/
def hullV (I J : Vec n (Interval D)) : Vec n (Interval D) := fun i => Interval.hull (I i) (J i)

/-- `if (tmp > r) r = tmp;` over a list of values, starting with 0 -/
def maxFold (l : List D) : D := l.foldl (fun r t => if Rop.lt r t then t else r) (lit 0)

/-- `max_norm` of an interval vector (interval-vector.hpp:294-306) -/
def maxNormIV (x : Vec n (Interval D)) : D := maxFold (List.ofFn fun i => Interval.norm (x i))
/-- `max_norm` of a scalar matrix (interval-vector.hpp:273-292): row sums rounded upward; only instantiated
with scalars, where `x >= 0 ? x : -x` is the absolute value -/
def maxNormSM (x : Mat m n D) : D := maxFold (List.ofFn fun i =>
  (List.ofFn fun j => if Rop.le (lit 0) (x i j) then x i j else Rop.neg (x i j)).foldl Rop.addUp (lit 0))
/-- `max_norm` of an interval matrix (interval-vector.hpp:308-326) -/
def maxNormIM (x : Mat m n (Interval D)) : D := maxFold (List.ofFn fun i =>
  (List.ofFn fun j => Interval.norm (x i j)).foldl Rop.addUp (lit 0))

/-- entries of `ub::identity_matrix<T>` -/
def eye (i j : Fin n) : D := if i = j then lit 1 else lit 0

end LA

/-- The approximate inverse `invert(L, R)` (matrix-inversion.hpp:44-62): an LU factorisation of boost,
not modelled.  Every theorem about a solver holds for an arbitrary function of this type; `none` is the
result `false`. -/
abbrev Inverter (n : ℕ) : Type := Mat n n D → Option (Mat n n D)

/-- A user function as the solvers call it: `f(I)` and `autodif::split(f(autodif::init(I)), fi, fdi)`. -/
structure Prog (n : ℕ) where
  F : Vec n (Interval D) → Res (Vec n (Interval D))
  FD : Vec n (Interval D) → Res (Vec n (Interval D) × Mat n n (Interval D))

/-- `try { .. } catch (std::domain_error& e) { .. }`: `none` is the exception -/
def catchDom {α : Type} : Res α → Res (Option α)
  | .ok a => .ok (some a)
  | .error .domainError => .ok none
  | .error e => .error e

/-- The template function with components `e`, interval constants `p`.  The Jacobian made by `split` has
`n` columns only if some component depends on a variable; the products with the other matrices are
undefined otherwise. -/
def exprProg (fuel : ℕ) {n : ℕ} (p : ℕ → Interval D) (e : Fin n → Expr n) : Prog n where
  F X := @evalVec _ (scalI fuel) n p X n e
  FD X := do
    let r ← @evalVec _ (@Autodif.instScal _ (scalI fuel)) n (fun i => Autodif.lift (p i)) (@Autodif.init _ (scalI fuel) n X) n e
    if Autodif.splitCols r = n then .ok (fun i => (r i).v, fun i j => @Autodif.row _ (scalI fuel) n (r i) j)
    else .error .undefined

end Kv
