import Verif.Ode.Model

/-!
# Model of `Odescale` (/repo/kv/odescale.hpp)
-/

namespace Kv
open Rop (lit)

/-- the same template function with other variables -/
def Expr.rename {n m : ℕ} (σ : Fin n → Fin m) : Expr n → Expr m
  | .var i => .var (σ i)
  | .par i => .par i
  | .cst k => .cst k
  | .un f a => .un f (a.rename σ)
  | .bin o a b => .bin o (a.rename σ) (b.rename σ)
  | .binC o a k => .binC o (a.rename σ) k
  | .cBin o k b => .cBin o k (b.rename σ)
  | .powI a y => .powI (a.rename σ) y
  | .pow a b => .pow (a.rename σ) (b.rename σ)

namespace Odescale

/-- `f(tx, x(s-1))`, odescale.hpp:31-35: the last unknown is the time of `f`; the time `t` of the new system (the last variable) is not used -/
def ty {n : ℕ} (f : Fin n → Expr (n + 1)) (i : Fin n) : Expr (n + 2) := (f i).rename Fin.castSucc

/-- `g0 = 1.; for (i=0; i<s-1; i++) g0 += ty(i) * ty(i);`, odescale.hpp:37-40 -/
def sumSq {n : ℕ} (f : Fin n → Expr (n + 1)) : Expr (n + 2) :=
  (List.ofFn fun i => ty f i).foldl (fun g u => .bin .add g (.bin .mul u u)) (.cst (lit 1))

/-- `1. / sqrt(g0)`, odescale.hpp:41 -/
def g0 {n : ℕ} (f : Fin n → Expr (n + 1)) : Expr (n + 2) := .cBin .div (lit 1) (.un .sqrt (sumSq f))

end Odescale

open Odescale in
/-- `Odescale::operator()`, odescale.hpp:22-49.  The common parts of the components are evaluated once by the code; as expressions they are
repeated. -/
def odescale {n : ℕ} (f : Fin n → Expr (n + 1)) : Fin (n + 1) → Expr (n + 2) :=
  Fin.snoc (α := fun _ => Expr (n + 2)) (fun i => .bin .mul (ty f i) (g0 f)) (g0 f)

end Kv
