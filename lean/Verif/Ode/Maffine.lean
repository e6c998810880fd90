import Verif.Ode.OdeQr
import Verif.Affine.Model

/-!
# Model of `ode_maffine` and `odelong_maffine` (/repo/kv/ode-maffine.hpp)

The base type is `double`, `AFFINE_SIMPLE` is 1, `AFFINE_MULT` is 0 (the default values); the output on `std::cout` is left out.  The two solvers of a single step (`ode` for `autodif` and for
intervals), `std::partial_sort` and the callback are arbitrary functions (the state of the power series arithmetic is not an argument of them; the callback gets no power series and no derivatives).  `mat`
is always computed.
-/

namespace Kv
open Rop (lit addUp subDown)
open LA

namespace Maffine
open Kv.AM Kv.Affine
variable {n m : ℕ}

/-- the programs used and the parameters: `split` of the result of `ode(f, Iad, start, end2, p)` (the derivatives, the new end and the returned value; `none` is the value 0), ode-maffine.hpp:70-75; the
loop around `ode(f, fc, start, end2, p2)`, lines 77-93; `std::partial_sort`; `callback(t, t1, ix, ix1, result_tmp)`; `p.ep_reduce` and `p.ep_reduce_limit` -/
structure Tools (n : ℕ) where
  A : Vec n (Interval D) → Interval D → Interval D → Res (Option (Mat n n (Interval D) × Interval D × ℤ))
  C : Vec n (Interval D) → Interval D → Interval D → Res (Vec n (Interval D))
  sort : List D → ℕ → List ℕ
  callback : Interval D → Interval D → Vec n (Interval D) → Vec n (Interval D) → Res Bool
  epReduce : ℕ
  epLimit : ℕ

/-- the interval of a form (`to_interval`, affine.hpp:120-129) with a centre -/
def toI (x : Form) : Interval D := ⟨subDown (c x 0) (rad x), addUp (c x 0) (rad x)⟩

/-- `to_interval` of all components -/
def toIV (x : Fin n → Form) : Res (Vec n (Interval D)) := if ∀ i, size (x i) ≠ 0 then .ok fun i => toI (x i) else .error .undefined

/-- the elements of a vector expression, one after another -/
def seqF : {k : ℕ} → (Fin k → AM Form) → AM (List Form)
  | 0, _ => pure []
  | _ + 1, f => do
    let a ← f 0
    let l ← seqF fun i => f i.succ
    return a :: l

/-- one row of `prod` for an interval matrix and an affine vector expression: `t += d(k) * y(k)`; `d(k) * y(k)` is `affine(d(k)) * y(k)` (affine.hpp:658-660), and `y(k)` is computed anew for each row -/
def dotF : {k : ℕ} → (Fin k → Interval D) → (Fin k → AM Form) → Form → AM Form
  | 0, _, _, t => pure t
  | _ + 1, d, y, t => do
    let a ← y 0
    let b ← ofInterval (d 0)
    let z ← mul b a
    dotF (fun i => d i.succ) (fun i => y i.succ) (add t z)

/-- a component of `fc + prod(result_d, init - c)`, ode-maffine.hpp:98; `init - c` and `fc + ..` make an affine form of the interval (affine.hpp:387-389, 545-547) -/
def row (Dm : Mat n n (Interval D)) (x : Fin n → Form) (cv fc : Vec n (Interval D)) (i : Fin n) : AM Form := do
  let t ← dotF (Dm i) (fun k => do
    let f ← ofInterval (cv k)
    return sub (x k) f) (ofScalar (lit 0))
  let f ← ofInterval (fc i)
  return add f t

/-- the reduction of the noise symbols, ode-maffine.hpp:100-104 -/
def reduce (T : Tools n) (res : List Form) (save : ℕ) : AM (List Form) := if T.epReduce = 0 then epsReduce2 res save else epsReduce T.sort res T.epReduce T.epLimit

/-- `ode_maffine` with `autostep`, ode-maffine.hpp:36-111: the new `init`, the new end, the returned value and `*mat`; `none` is the value 0 -/
def odeMaffine (T : Tools n) (x : Fin n → Form) (t stop : Interval D) : AM (Option ((Fin n → Form) × Interval D × ℤ × Mat n n (Interval D))) := do
  let I ← lift (toIV x)
  let cv := pointV (midV I)
  let a ← lift (T.A I t stop)
  match a with
  | none => return none
  | some (Dm, t1, r) => do
    let fc ← lift (T.C cv t t1)
    let save ← get
    let res ← seqF fun i => row Dm x cv fc i
    let red ← reduce T res save
    return some (fun i => red.getD i.val ⟨[], lit 0⟩, t1, r, Dm)

/-- the returned value, `init`, `*mat` and `end` after the call, and all values of `x1`, the last one first (not part of the code) -/
structure Result (n m : ℕ) where
  ret : ℤ
  x : Fin n → Form
  mat : Mat n m (Interval D)
  stop : Interval D
  log : List (Fin n → Form)

/-- the loop of `odelong_maffine` for affine vectors, ode-maffine.hpp:147-210, with at most the given number of passes -/
def loop (T : Tools n) (stop : Interval D) : ℕ → Bool → (Fin n → Form) → Mat n m (Interval D) → Interval D → List (Fin n → Form) → AM (Result n m)
  | 0, _, _, _, _, _ => lift (.error .outOfFuel)
  | k + 1, started, x, M, t, l => do
    let a ← odeMaffine T x t stop
    match a with
    | none => return if started then ⟨1, x, M, t, l⟩ else ⟨0, x, M, stop, l⟩
    | some (x1, t1, r, Dm) => do
      let M' := Qr.prodIM Dm M
      let ix ← lift (toIV x)
      let ix1 ← lift (toIV x1)
      let go ← lift (T.callback t t1 ix ix1)
      if go = false then return ⟨3, x1, M', t1, x1 :: l⟩
      else if r = 2 then return ⟨2, x1, M', stop, x1 :: l⟩
      else loop T stop k true x1 M' t1 (x1 :: l)

/-- `odelong_maffine` for affine vectors, ode-maffine.hpp:113-211; `*mat` is used as the initial value of the derivatives -/
def odelong (T : Tools n) (fuel : ℕ) (x : Fin n → Form) (M : Mat n m (Interval D)) (start stop : Interval D) : AM (Result n m) := loop T stop fuel false x M start [x]

/-- `odelong_maffine` for `autodif`, ode-maffine.hpp:245-287; without the derivatives it is the version for intervals, lines 213-243.  The result: the returned value, `init` and `end` after the call (and
the values of `x1`) -/
def odelongAd (T : Tools n) (fuel : ℕ) (init : Qr.Ad n m) (start stop : Interval D) : AM (ℤ × Qr.Ad n m × Interval D × List (Fin n → Form)) := do
  let save ← get
  set 0
  let x ← ofBox (List.ofFn init.v)
  let r ← odelong T fuel (fun i => x.getD i.val ⟨[], lit 0⟩) init.d start stop
  set save
  if r.ret = 0 then return (0, init, r.stop, r.log)
  else
    let v ← lift (toIV r.x)
    return (r.ret, ⟨v, r.mat⟩, r.stop, r.log)

end Maffine
end Kv
