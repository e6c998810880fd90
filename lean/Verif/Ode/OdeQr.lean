import Verif.Solver.Vleq
import Verif.Psa.Hoare

/-!
# Model of `odelong_qr` (/repo/kv/ode-qr.hpp)

The base type is `double`; the output on `std::cout` is left out.  `mat` is always computed (it does not influence the other results).  The two solvers of a single step (`ode` for `autodif` and for
intervals), the orthogonalisation `qr` and the callback are arbitrary programs; the callback gets no power series.
-/

namespace Kv
open Rop (lit)
open PM LA

namespace Qr
variable {n : ℕ}

/-- the programs used: `split` of the result of `ode(f, Iad, t, t1, p2)` (the derivatives, the new end and the returned value; `none` is the value 0), ode-qr.hpp:83-88, 105; the loop around
`ode(f, fc, t, t1, p2)`, ode-qr.hpp:90-103; `qr(A, Q2, R)`, `none` is the result `false`; `callback(t, t1, x, x1, result_psa)` -/
structure Tools (n : ℕ) where
  A : Vec n (Interval D) → Interval D → Interval D → PM (Interval D) (Option (Mat n n (Interval D) × Interval D × ℤ))
  C : Vec n (Interval D) → Interval D → Interval D → PM (Interval D) (Vec n (Interval D))
  qr : Mat n n D → Option (Mat n n D)
  callback : Interval D → Interval D → Vec n (Interval D) → Vec n (Interval D) → PM (Interval D) Bool
  inv : Inverter n

/-- the values of the variables after a step: `Q2`, `c`, `y`, `x1`, and the values `QAQ`, `y2` (results of `vleq`) and `fc` from which they were computed -/
structure Step (n : ℕ) where
  Q : Mat n n D
  c : Vec n (Interval D)
  y : Vec n (Interval D)
  x : Vec n (Interval D)
  QAQ : Mat n n (Interval D)
  y2 : Vec n (Interval D)
  fc : Vec n (Interval D)

/-- ode-qr.hpp:113-129; `none` is a `break` -/
def step (T : Tools n) (Dm : Mat n n (Interval D)) (fc : Vec n (Interval D)) (Q : Mat n n D) (y : Vec n (Interval D)) : Option (Step n) :=
  let AQ : Mat n n (Interval D) := fun i j => sumI fun k => Interval.mulS (Dm i k) (Q k j)
  match T.qr (midM AQ) with
  | none => none
  | some Q2 =>
    let Q2i : Mat n n (Interval D) := fun i j => Interval.point (Q2 i j)
    let Q2t : Mat n n D := fun i j => Q2 j i
    match vleq T.inv Q2i AQ (some Q2t) with
    | none => none
    | some QAQ =>
      let y1 := prodIV QAQ y
      let c := pointV (midV fc)
      let tmp : Vec n (Interval D) := fun i => Interval.sub (fc i) (c i)
      match vleqV T.inv Q2i tmp (some Q2t) with
      | none => none
      | some y2 =>
        let y' : Vec n (Interval D) := fun i => Interval.add (y1 i) (y2 i)
        some ⟨Q2, c, y', fun i => Interval.add (prodSV Q2 y' i) (c i), QAQ, y2, fc⟩

/-- `prod` of two interval matrices -/
def prodIM {m l : ℕ} (a : Mat m n (Interval D)) (b : Mat n l (Interval D)) : Mat m l (Interval D) := fun i j => sumI fun k => Interval.mul (a i k) (b k j)

/-- the returned value, `init`, `end` and `*mat` after the call (`mat` is unchanged for the value 0, here it is the identity); the steps, the last one first (not part of the code) -/
structure Result (n : ℕ) where
  ret : ℤ
  init : Vec n (Interval D)
  stop : Interval D
  mat : Mat n n (Interval D)
  steps : List (Step n)

/-- the loop, ode-qr.hpp:79-162, with at most the given number of passes, and lines 164-175 -/
def loop (T : Tools n) (stop : Interval D) : ℕ → Vec n (Interval D) → Vec n (Interval D) → Vec n (Interval D) → Mat n n D → Mat n n (Interval D) → Interval D → List (Step n) →
    PM (Interval D) (Result n)
  | 0, _, _, _, _, _, _, _ => lift (.error .outOfFuel)
  | k + 1, x, c, y, Q, M, t, l => do
    let a ← T.A x t stop
    match a with
    | none => return if l = [] then ⟨0, x, stop, M, l⟩ else ⟨1, x, t, M, l⟩
    | some (Dm, t1, r) => do
      let fc ← T.C c t t1
      match step T Dm fc Q y with
      | none => return if l = [] then ⟨0, x, stop, M, l⟩ else ⟨1, x, t, M, l⟩
      | some s => do
        let M' := prodIM Dm M
        let go ← T.callback t t1 x s.x
        if go = false then return ⟨3, s.x, t1, M', s :: l⟩
        else if r = 2 then return ⟨2, s.x, stop, M', s :: l⟩
        else loop T stop k s.x s.c s.y s.Q M' t1 (s :: l)

end Qr

open Qr in
/-- `odelong_qr(f, init, start, end, p, callback, mat)`, ode-qr.hpp:30-176, the initial values of lines 66-75 -/
def odelongQr {n : ℕ} (T : Tools n) (fuel : ℕ) (init : Vec n (Interval D)) (start stop : Interval D) : PM (Interval D) (Result n) :=
  let c := pointV (midV init)
  loop T stop fuel init c (fun i => Interval.sub (init i) (c i)) eye (fun i j => Interval.point (eye i j)) start []

/-- a vector of `autodif< interval<T> >` with `m` derivatives: values and derivatives -/
structure Qr.Ad (n m : ℕ) where
  v : Vec n (Interval D)
  d : Mat n m (Interval D)

open Qr in
/-- `odelong_qr` for `autodif`, ode-qr.hpp:179-212: the returned value, `init` and `end` after the call, and the steps (not part of the code) -/
def odelongQrAd {n m : ℕ} (T : Tools n) (fuel : ℕ) (init : Ad n m) (start stop : Interval D) : PM (Interval D) (ℤ × Ad n m × Interval D × List (Step n)) := do
  let r ← odelongQr T fuel init.v start stop
  if r.ret = 0 then return (0, init, r.stop, r.steps)
  else return (r.ret, ⟨r.init, prodIM r.mat init.d⟩, r.stop, r.steps)

end Kv
