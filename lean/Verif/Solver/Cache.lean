import Verif.Interval.ElemMem
import Verif.Double.Elem

/-!
# The cached constants as a concurrent program (interval.hpp:1846-1931)

`constants<interval<T>>::e()` keeps its result in a function-local `static interval<T> tmp(0.)` and
*also accumulates the series in that variable*.  Threads calling it share `tmp`.  The model is an
interleaving (sequentially consistent) semantics in which one source statement of the loop is one
atomic step; the C++ memory model allows more behaviours (a data race is undefined behaviour), so a
bad execution found here is a bad execution of the code.  The first initialisation of `tmp` itself
is thread-safe in C++11 and is not modelled.
-/

namespace Kv
namespace Cache
open Kv.Interval
open Rop (lit lt)

/-- A function with a cached result: the value stored on entry of the computation, and one step of
the computation, which reads and writes the cache; `none` means that the loop is left. -/
structure Prog (V σ : Type) where
  valid : V → Bool
  start : V × σ
  step : V → σ → Res (V × Option σ)

/-- State of one thread. -/
inductive Pc (V σ : Type)
  | idle
  | entered
  | loop (s : σ)
  | leaving
  | returned (v : V)
  | crashed (e : Err)

variable {V σ : Type}

/-- One atomic step of one thread; `v` is the shared cache. -/
def Prog.tick (P : Prog V σ) (v : V) : Pc V σ → V × Pc V σ
  | .idle => if P.valid v then (v, .leaving) else (v, .entered)
  | .entered => (P.start.1, .loop P.start.2)
  | .loop s =>
    match P.step v s with
    | .ok (v', some s') => (v', .loop s')
    | .ok (v', none) => (v', .leaving)
    | .error e => (v, .crashed e)
  | .leaving => (v, .returned v)
  | .returned r => (v, .returned r)
  | .crashed e => (v, .crashed e)

/-- Shared state and the threads. -/
structure Sys (V σ : Type) where
  cache : V
  pcs : ℕ → Pc V σ

/-- Thread `t` makes a step. -/
def Prog.sched (P : Prog V σ) (S : Sys V σ) (t : ℕ) : Sys V σ :=
  let r := P.tick S.cache (S.pcs t)
  ⟨r.1, fun u => if u = t then r.2 else S.pcs u⟩

/-- Run a schedule (a list of thread numbers). -/
def Prog.run (P : Prog V σ) (S : Sys V σ) (l : List ℕ) : Sys V σ := l.foldl P.sched S

/-- all threads about to call the function -/
def init (v : V) : Sys V σ := ⟨v, fun _ => .idle⟩

/-- a call that is not interrupted: returns the new cache and the result -/
def Prog.call (P : Prog V σ) (v : V) (fuel : ℕ) : Res (V × V) :=
  if P.valid v then .ok (v, v)
  else
    let rec go : ℕ → V → σ → Res (V × V)
      | 0, _, _ => .error .outOfFuel
      | n + 1, v, s =>
        match P.step v s with
        | .ok (v', some s') => go n v' s'
        | .ok (v', none) => .ok (v', v')
        | .error e => .error e
    go fuel P.start.1 P.start.2

/-- interval.hpp:1863-1891 `constants<interval<T>>::e()`, `tmp` being the cache and `(i, y)` the
local variables. -/
def eProg (T : Type) [Rop T] [RopX T] : Prog (Interval T) (ℕ × Interval T) where
  valid tmp := !(Rop.eq tmp.inf (lit 0))
  start := (point one, 1, point one)
  step tmp s :=
    let rem : Interval T := ⟨RopX.strDown 1, RopX.strUp (271828182845904524 / 100000000000000000)⟩
    if s.1 = intMax then .error .undefined
    else do
      let y ← divS s.2 (lit s.1)
      if lt (Rop.mul (mag y) rem.sup) Rop.eps then .ok (add tmp (mul y rem), none)
      else .ok (add tmp y, some (s.1 + 1, y))

end Cache
end Kv
