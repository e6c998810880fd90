import Verif.Autodif.Model

/-!
# Model of `psa<T>` (/repo/kv/psa.hpp), power series arithmetic

A series is its vector of coefficients (`List S`).  The static members of the class (mode, domain, history of
intermediate results and its two switches) are the state of the monad `PM`; an exception leaves the state as it is at
the `throw`.  Reading outside a vector, adding vectors of different sizes and taking the front of an empty history are
`Err.undefined`.

Simplifications: operands of a C++ operator are evaluated from left to right (the order matters for the history only);
scalars of a user function are doubles or explicitly converted to series; the variables are `thread_local` under OpenMP,
so one thread is modelled.
-/

namespace Kv
open Rop (lit)

/-- the static members of `psa<S>`, psa.hpp:41-92 -/
structure PSt (S : Type) where
  mode : ℤ
  domain : S
  hist : List (List S)
  use : Bool
  record : Bool

/-- a computation with power series -/
def PM (S α : Type) : Type := PSt S → Res α × PSt S

namespace PM
variable {S α β : Type}

instance : Monad (PM S) where
  pure a := fun st => (.ok a, st)
  bind m k := fun st => match m st with
    | (.ok a, st') => k a st'
    | (.error e, st') => (.error e, st')

/-- a computation that does not touch the static members -/
def lift (r : Res α) : PM S α := fun st => (r, st)
/-- read the static members -/
def get : PM S (PSt S) := fun st => (.ok st, st)
/-- `use_history() = b` -/
def setUse (b : Bool) : PM S Unit := fun st => (.ok (), { st with use := b })
/-- `record_history() = b` -/
def setRec (b : Bool) : PM S Unit := fun st => (.ok (), { st with record := b })
/-- `mode() = m` -/
def setMode (m : ℤ) : PM S Unit := fun st => (.ok (), { st with mode := m })
/-- `domain() = d` -/
def setDomain (d : S) : PM S Unit := fun st => (.ok (), { st with domain := d })
/-- `history() = h` -/
def setHist (h : List (List S)) : PM S Unit := fun st => (.ok (), { st with hist := h })

end PM

namespace Psa
variable {S : Type} [Scal S]
open PM

/-- `T(0.)` -/
def zero : S := Scal.ofC (lit 0)
/-- `T(1.)` -/
def one : S := Scal.ofC (lit 1)

/-- `v(i)` -/
def at' (l : List S) (i : ℕ) : Res S :=
  match l[i]? with
  | some a => .ok a
  | none => .error .undefined

/-- `f 0, ..., f (n-1)`, in order -/
def tab : ℕ → (ℕ → Res S) → Res (List S)
  | 0, _ => .ok []
  | n + 1, f => do
    let l ← tab n f
    let a ← f n
    .ok (l ++ [a])

/-- `polyrange`, psa.hpp:1387-1399, of the coefficients `p(x), ..., p(y)` -/
def polyrange (d : S) : List S → Res S
  | [] => .error .undefined
  | [a] => .ok a
  | a :: t => do
    let r ← polyrange d t
    let m ← Scal.bin .mul r d
    Scal.bin .add m a

/-- `evalrange`, psa.hpp:1372-1376 -/
def evalrange (x : List S) : PM S S := do
  let st ← get
  lift (polyrange st.domain x)

/-- `eval` with an argument of the coefficient type, psa.hpp:1378-1382 -/
def eval (x : List S) (a : S) : Res S := polyrange a x

/-- the elements of a result of size `n`, with the first ones taken from the history, e.g. psa.hpp:120-130, 296-306;
`fresh` computes an element when no history is used, `elem` when it is used -/
def fill (n : ℕ) (fresh elem : ℕ → Res S) : PM S (List S) := do
  let st ← get
  if st.use then
    match st.hist with
    | [] => lift (.error .undefined)
    | front :: _ =>
      let old := if st.mode = 2 then min front.length (n - 1) else front.length
      lift (tab n fun i => if i < old then at' front i else elem i)
  else lift (tab n fresh)

/-- `if (use_history() == true) history().pop_front()`, psa.hpp:136-138 and the same lines in the other operators -/
def pop : PM S Unit := do
  let st ← get
  if st.use then
    match st.hist with
    | [] => lift (.error .undefined)
    | _ :: t => setHist t
  else return ()

/-- append the new result to the history, without its last element in mode 2: psa.hpp:140-148 and the same lines in the
other operators -/
def push (r : List S) : PM S Unit := do
  let st ← get
  if st.record then
    if st.mode = 1 then setHist (st.hist ++ [r]) else setHist (st.hist ++ [r.dropLast])
  else return ()

/-- the end of the operators -/
def finish (r : List S) : PM S (List S) := do
  pop
  push r
  return r

/-- `r.v(0) += a` with `a` of type `T` -/
def addHead (b : List S) (a : S) : Res (List S) :=
  match b with
  | [] => .error .undefined
  | b0 :: t => do .ok ((← Scal.bin .add b0 a) :: t)

/-- `r.v(0) -= a` with `a` of type `T` -/
def subHead (b : List S) (a : S) : Res (List S) :=
  match b with
  | [] => .error .undefined
  | b0 :: t => do .ok ((← Scal.bin .sub b0 a) :: t)

/-- `r.v(0) += k` with a double `k` -/
def addHeadC (b : List S) (k : D) : Res (List S) :=
  match b with
  | [] => .error .undefined
  | b0 :: t => do .ok ((← Scal.binC .add b0 k) :: t)

/-- `r.v(0) -= k` with a double `k` -/
def subHeadC (b : List S) (k : D) : Res (List S) :=
  match b with
  | [] => .error .undefined
  | b0 :: t => do .ok ((← Scal.binC .sub b0 k) :: t)

/-- `- a.v` -/
def negV (a : List S) : Res (List S) := tab a.length fun i => do Scal.un .neg (← at' a i)

/-- element `i` of `a.v + b.v` or `a.v - b.v` -/
def elem2 (o : Bin) (a b : List S) (i : ℕ) : Res S := do
  let u ← at' a i
  let v ← at' b i
  Scal.bin o u v

/-- the last branch of `operator+`, `operator-` (psa.hpp:120-133, 191-204): different sizes are undefined in ublas -/
def both (o : Bin) (a b : List S) : PM S (List S) := do
  let st ← get
  if !st.use && a.length != b.length then lift (.error .undefined)
  else fill a.length (elem2 o a b) (elem2 o a b)

/-- `operator+`, psa.hpp:110-151 -/
def add (a b : List S) : PM S (List S) := do
  let r ← (if a.length = 1 then lift (do addHead b (← at' a 0))
    else if b.length = 1 then lift (do addHead a (← at' b 0))
    else both .add a b : PM S (List S))
  finish r

/-- `operator-`, psa.hpp:181-222 -/
def sub (a b : List S) : PM S (List S) := do
  let r ← (if a.length = 1 then lift (do addHead (← negV b) (← at' a 0))
    else if b.length = 1 then lift (do subHead a (← at' b 0))
    else both .sub a b : PM S (List S))
  finish r

/-- unary minus, psa.hpp:252-258 -/
def neg (a : List S) : PM S (List S) := lift (negV a)

/-- `sum = 0.; for (j=..) sum += t j` over the terms of a list -/
def sumFrom (s : S) : List (Res S) → Res S
  | [] => .ok s
  | t :: l => do
    let v ← t
    let s' ← Scal.bin .add s v
    sumFrom s' l

/-- `a.v(i) * b.v(j)` -/
def prodAt (a b : List S) (i j : ℕ) : Res S := do
  let u ← at' a i
  let v ← at' b j
  Scal.bin .mul u v

/-- coefficient `i` of a product, psa.hpp:308-312 -/
def conv (a b : List S) (i : ℕ) : Res S :=
  sumFrom zero ((List.range (i + 1)).map fun j => prodAt a b j (i - j))

/-- the terms of order `s - 1 + i` of a product, psa.hpp:321-325 -/
def convHigh (a b : List S) (s i : ℕ) : Res S :=
  sumFrom zero ((List.range (s - i)).map fun j => prodAt a b (i + j) (s - 1 - j))

/-- the higher terms of the product are put into the last coefficient, psa.hpp:315-328 -/
def fold (d : S) (a b r : List S) : Res (List S) := do
  let s := a.length
  let last ← at' r (s - 1)
  let hi ← tab (s - 1) fun i => convHigh a b s (i + 1)
  let p ← polyrange d (last :: hi)
  .ok (r.take (s - 1) ++ [p])

/-- `operator*`, psa.hpp:260-346 -/
def mul (a b : List S) : PM S (List S) := do
  let r ← (if a.length = 1 then
      fill b.length (fun i => prodAt a b 0 i) (fun i => prodAt a b 0 i)
    else if b.length = 1 then
      fill a.length (fun i => prodAt a b i 0) (fun i => prodAt a b i 0)
    else do
      let r ← fill a.length (conv a b) (conv a b)
      let st ← get
      if st.mode = 2 then lift (fold st.domain a b r) else return r : PM S (List S))
  finish r

/-- `operator*(psa, double)`, psa.hpp:348-382: the double is converted only if no history is used -/
def mulC (a : List S) (k : D) : PM S (List S) := do
  let r ← fill a.length (fun i => do Scal.bin .mul (← at' a i) (Scal.ofC k)) (fun i => do Scal.binC .mul (← at' a i) k)
  finish r

/-- `operator*(double, psa)`, psa.hpp:384-418 -/
def cMul (k : D) (b : List S) : PM S (List S) := do
  let r ← fill b.length (fun i => do Scal.bin .mul (Scal.ofC k) (← at' b i)) (fun i => do Scal.cBin .mul k (← at' b i))
  finish r

/-- `operator*(T, psa)`, psa.hpp:384-418 with `C = T` -/
def sMul (c : S) (b : List S) : PM S (List S) := do
  let r ← fill b.length (fun i => do Scal.bin .mul c (← at' b i)) (fun i => do Scal.bin .mul c (← at' b i))
  finish r

/-- `a.v / T(b)`, psa.hpp:434-441 -/
def divV (a : List S) (c : S) : Res (List S) := tab a.length fun i => do Scal.bin .div (← at' a i) c

/-- `h = x; h.v(0) = 0.` -/
def center (x : List S) : List S :=
  match x with
  | [] => []
  | _ :: t => zero :: t

/-- `if (use_history() == true && i >= old_size) use_history() = false`, psa.hpp:480-483 -/
def useOff (old i : ℕ) : PM S Unit := do
  let st ← get
  if st.use && decide (old ≤ i) then setUse false else return ()

/-- `if (mode() == 2 && i == x.v.size() - 1) { if (record_history() == true) record_history() = false; ..}`,
psa.hpp:484-488; tells whether this is the pass with the remainder -/
def recOff (n i : ℕ) : PM S Bool := do
  let st ← get
  if st.mode = 2 ∧ i = n - 1 then
    setRec false
    return true
  else return false

/-- One pass of the loop of the functions, e.g. psa.hpp:479-506.  `stp` gives the next coefficients and the one to use,
`lst` the coefficient of the remainder term. -/
def body {K : Type} (n old : ℕ) (hs : Res (List S)) (stp : ℕ → K → Res (K × S)) (lst : ℕ → K → PM S S) (i : ℕ)
    (hn r : List S) (κ : K) : PM S (List S × List S × K) := do
  useOff old i
  if (← recOff n i) then
    let hn ← mul hn (← lift hs)
    let c ← lst i κ
    let r ← add r (← sMul c hn)
    return (hn, r, κ)
  else
    let hn ← mul hn (← lift hs)
    let (κ, c) ← lift (stp i κ)
    let r ← add r (← sMul c hn)
    return (hn, r, κ)

/-- `for (i=1; i<n; i++)`, the first `m` passes -/
def loop {K : Type} (n old : ℕ) (hs : Res (List S)) (stp : ℕ → K → Res (K × S)) (lst : ℕ → K → PM S S) :
    ℕ → List S → K → PM S (List S × List S × K)
  | 0, r, κ => return ([one], r, κ)
  | m + 1, r, κ => do
    let (hn, r, κ) ← loop n old hs stp lst m r κ
    body n old hs stp lst (m + 1) hn r κ

/-- `if (use_history() == true) old_size = history().front().v.size()`, psa.hpp:476-478 -/
def oldSize : PM S ℕ := do
  let st ← get
  if st.use then
    match st.hist with
    | [] => lift (.error .undefined)
    | front :: _ => return front.length
  else return 0

/-- the common part of the functions, e.g. psa.hpp:476-512: loop, restore the switches, `r * 1.`.  `recover_uh` is set
only when `use_history()` was changed from true to false, so putting back the old value is the same. -/
def taylor {K : Type} (x : List S) (hs : Res (List S)) (r0 : S) (κ0 : K) (stp : ℕ → K → Res (K × S))
    (lst : ℕ → K → PM S S) : PM S (List S) := do
  let st ← get
  let old ← oldSize
  let (_, r, _) ← loop x.length old hs stp lst (x.length - 1) [r0] κ0
  setUse st.use
  setRec st.record
  mulC r (lit 1)

/-- `-x / y` -/
def negDiv (x y : S) : Res S := do Scal.bin .div (← Scal.un .neg x) y

/-- `if (mode() == 2) xn2 = ...`, e.g. psa.hpp:499-501 -/
def upd2 (mode : ℤ) (new : Res S) (old : S) : Res S := if mode = 2 then new else .ok old

/-- `inv`, psa.hpp:457-513; the state of the loop is `xn`, `xn2` -/
def inv (x : List S) : PM S (List S) := do
  let a ← lift (at' x 0)
  let h := center x
  let r ← lift (Scal.cBin .div (lit 1) a)
  let st ← get
  let range ← (if st.mode = 2 then evalrange x else return zero : PM S S)
  let xn2 ← (if st.mode = 2 then lift (Scal.cBin .div (lit 1) range) else return zero : PM S S)
  let next := fun t => do Scal.bin .mul (← negDiv t range) a
  taylor x (divV h a) r (r, xn2)
    (fun _ κ => do
      let xn ← Scal.un .neg κ.1
      let xn2 ← upd2 st.mode (next κ.2) κ.2
      .ok ((xn, xn2), xn))
    (fun _ κ => lift (next κ.2))

/-- `fact_n /= (double)i`, then `fact_n * table[i % m]`: psa.hpp:563-564 etc.; the state of the loop is `fact_n` -/
def factStep (table : ℕ → S) (i : ℕ) (f : S) : Res (S × S) := do
  let f ← Scal.binC .div f (lit i)
  .ok (f, ← Scal.bin .mul f (table i))

/-- the remainder term, psa.hpp:551-560 etc. -/
def factLast (x : List S) (tmp : ℕ → S → Res S) (i : ℕ) (f : S) : PM S S := do
  let f ← lift (Scal.binC .div f (lit i))
  let range ← evalrange x
  let t ← lift (tmp i range)
  lift (Scal.bin .mul f t)

/-- entry `i % 4` of a table -/
def pick4 {α : Type} (i : ℕ) (a b c d : α) : α :=
  if i % 4 = 0 then a else if i % 4 = 1 then b else if i % 4 = 2 then c else d

/-- entry `i % 2` of a table -/
def pick2 {α : Type} (i : ℕ) (a b : α) : α := if i % 2 = 0 then a else b

/-- `sin`, psa.hpp:515-573 -/
def sin (x : List S) : PM S (List S) := do
  let a ← lift (at' x 0)
  let t0 ← lift (Scal.un .sin a)
  let t1 ← lift (Scal.un .cos a)
  let t2 ← lift (Scal.un .neg t0)
  let t3 ← lift (Scal.un .neg t1)
  taylor x (.ok (center x)) t0 one (factStep fun i => pick4 i t0 t1 t2 t3)
    (factLast x fun i r => pick4 i (Scal.un .sin r) (Scal.un .cos r) (do Scal.un .neg (← Scal.un .sin r))
      (do Scal.un .neg (← Scal.un .cos r)))

/-- `cos`, psa.hpp:575-633 -/
def cos (x : List S) : PM S (List S) := do
  let a ← lift (at' x 0)
  let t0 ← lift (Scal.un .cos a)
  let t1 ← lift (do Scal.un .neg (← Scal.un .sin a))
  let t2 ← lift (Scal.un .neg t0)
  let t3 ← lift (Scal.un .neg t1)
  taylor x (.ok (center x)) t0 one (factStep fun i => pick4 i t0 t1 t2 t3)
    (factLast x fun i r => pick4 i (Scal.un .cos r) (do Scal.un .neg (← Scal.un .sin r))
      (do Scal.un .neg (← Scal.un .cos r)) (Scal.un .sin r))

/-- `exp`, psa.hpp:635-683 -/
def exp (x : List S) : PM S (List S) := do
  let a ← lift (at' x 0)
  let ea ← lift (Scal.un .exp a)
  taylor x (.ok (center x)) ea one (factStep fun _ => ea) (factLast x fun _ r => Scal.un .exp r)

/-- `xn *= (1./2. - i) / a / (i + 1.)`, psa.hpp:726 -/
def sqrtNext (a : S) (i : ℕ) (xn : S) : Res S := do
  let q ← Scal.cBin .div (lit (1 / 2 - i)) a
  let q ← Scal.binC .div q (lit (i + 1))
  Scal.bin .mul xn q

/-- `1./(2. * t)` -/
def inv2 (t : S) : Res S := do Scal.cBin .div (lit 1) (← Scal.cBin .mul (lit 2) t)

/-- `sqrt`, psa.hpp:685-738; the state of the loop is `xn`, `xn2` -/
def sqrt (x : List S) : PM S (List S) := do
  let a ← lift (at' x 0)
  let sa ← lift (Scal.un .sqrt a)
  let xn ← lift (inv2 sa)
  let st ← get
  let range ← (if st.mode = 2 then evalrange x else return zero : PM S S)
  let xn2 ← (if st.mode = 2 then lift (do inv2 (← Scal.un .sqrt range)) else return zero : PM S S)
  taylor x (.ok (center x)) sa (xn, xn2)
    (fun i κ => do
      let xn ← sqrtNext a i κ.1
      let xn2 ← upd2 st.mode (sqrtNext range i κ.2) κ.2
      .ok ((xn, xn2), κ.1))
    (fun _ κ => return κ.2)

/-- `log`, psa.hpp:740-792 -/
def log (x : List S) : PM S (List S) := do
  let a ← lift (at' x 0)
  let r ← lift (Scal.un .log a)
  let st ← get
  let range ← (if st.mode = 2 then evalrange x else return zero : PM S S)
  let m1 : S := Scal.ofC (lit (-1))
  taylor x (.ok (center x)) r (m1, m1)
    (fun i κ => do
      let xn ← negDiv κ.1 a
      let xn2 ← upd2 st.mode (negDiv κ.2 range) κ.2
      .ok ((xn, xn2), ← Scal.binC .div xn (lit i)))
    (fun i κ => lift (do
      let xn2 ← negDiv κ.2 range
      Scal.binC .div xn2 (lit i)))

/-- `sinh`, psa.hpp:794-848 -/
def sinh (x : List S) : PM S (List S) := do
  let a ← lift (at' x 0)
  let t0 ← lift (Scal.un .sinh a)
  let t1 ← lift (Scal.un .cosh a)
  taylor x (.ok (center x)) t0 one (factStep fun i => pick2 i t0 t1)
    (factLast x fun i r => pick2 i (Scal.un .sinh r) (Scal.un .cosh r))

/-- `cosh`, psa.hpp:850-904 -/
def cosh (x : List S) : PM S (List S) := do
  let a ← lift (at' x 0)
  let t0 ← lift (Scal.un .cosh a)
  let t1 ← lift (Scal.un .sinh a)
  taylor x (.ok (center x)) t0 one (factStep fun i => pick2 i t0 t1)
    (factLast x fun i r => pick2 i (Scal.un .cosh r) (Scal.un .sinh r))

/-- `operator/`, psa.hpp:430-432 -/
def div (a b : List S) : PM S (List S) := do mul a (← inv b)
/-- `operator/(double, psa)`, psa.hpp:443-445 -/
def cDiv (k : D) (b : List S) : PM S (List S) := do cMul k (← inv b)
/-- `tan`, psa.hpp:1314-1316 -/
def tan (x : List S) : PM S (List S) := do
  let s ← sin x
  let c ← cos x
  div s c
/-- `tanh`, psa.hpp:1318-1320 -/
def tanh (x : List S) : PM S (List S) := do
  let s ← sinh x
  let c ← cosh x
  div s c
/-- `pow(psa, psa)`, psa.hpp:1310-1312 -/
def pow (x y : List S) : PM S (List S) := do exp (← mul y (← log x))

/-- the loop of `pow(psa, int)`, psa.hpp:1295-1301 -/
def powLoop (tmp : ℕ) (r xp : List S) : PM S (List S) :=
  if _h : tmp = 0 then return r
  else do
    let r ← (if tmp % 2 ≠ 0 then mul r xp else return r : PM S (List S))
    let xp ← mul xp xp
    powLoop (tmp / 2) r xp
  termination_by tmp

/-- `pow(psa, int)`, psa.hpp:1284-1308; `-y` overflows for `INT_MIN` -/
def powI (x : List S) (y : ℤ) : PM S (List S) := do
  if y = 0 then return [one]
  else if y = -2147483648 then lift (.error .undefined)
  else
    let r ← powLoop y.natAbs [one] x
    if y < 0 then cDiv (lit 1) r else return r

/-- `integrate`, psa.hpp:1335-1347 -/
def integrate (x : List S) : Res (List S) := do
  let l ← tab x.length fun i => do Scal.binC .div (← at' x i) (lit (i + 1))
  .ok (zero :: l)

/-- `setorder(x, n)`, psa.hpp:1349-1370, for an `int` `n`: for negative `n` the element `r.v(n)` is written, which does
not exist -/
def setorder (x : List S) (n : ℤ) : PM S (List S) := do
  if n < 0 then lift (.error .undefined)
  else
    let n := n.toNat
    let s := x.length
    if s ≤ n + 1 then return x ++ List.replicate (n + 1 - s) zero
    else
      let st ← get
      if st.mode = 1 then lift (do .ok (x.take n ++ [← at' x n]))
      else lift (do .ok (x.take n ++ [← polyrange st.domain (x.drop n)]))

/-- `taylor.v(0) = x.v(0); taylor.v(1) = 1; taylor = setorder(taylor, x.v.size()-2)`, psa.hpp:926-929; the size is
converted to `int` -/
def unitSeries (x : List S) : PM S (List S) := do
  let a ← lift (at' x 0)
  setorder [a, one] ((x.length : ℤ) - 2)

/-- `op + integrate(p)`, psa.hpp:934: the scalar is added to the first coefficient -/
def scalarPlus (c : S) (p : List S) : Res (List S) := addHead p c

/-- the common part of `asin`, ..., `atanh`, psa.hpp:906-966: `fn` is the function on the constant term, `deriv` the
expression for the derivative of the function.  The loop in lines 944-965 is the same as in the other functions, with the
coefficients `taylor.v(i)`. -/
def invFn (fn : S → Res S) (deriv : List S → PM S (List S)) (x : List S) : PM S (List S) := do
  let st ← get
  setUse false
  setRec false
  let h := center x
  (if st.mode = 2 then do setDomain (← evalrange x) else return () : PM S Unit)
  let t ← unitSeries x
  let a ← lift (at' x 0)
  let c ← lift (fn a)
  let g ← deriv t
  let tl ← lift (do scalarPlus c (← integrate g))
  setUse st.use
  setRec st.record
  (if st.mode = 2 then setDomain st.domain else return () : PM S Unit)
  let r0 ← lift (at' tl 0)
  taylor x (.ok h) r0 () (fun i _ => do .ok ((), ← at' tl i)) (fun i _ => lift (at' tl i))

/-- `c - t * t` -/
def cSubSq (k : D) (t : List S) : PM S (List S) := do
  let q ← mul t t
  let q ← lift (negV q)
  lift (addHeadC q k)

/-- `asin`, psa.hpp:906-966 -/
def asin (x : List S) : PM S (List S) :=
  invFn (Scal.un .asin) (fun t => do cDiv (lit 1) (← sqrt (← cSubSq (lit 1) t))) x
/-- `acos`, psa.hpp:968-1028 -/
def acos (x : List S) : PM S (List S) :=
  invFn (Scal.un .acos) (fun t => do cDiv (lit (-1)) (← sqrt (← cSubSq (lit 1) t))) x
/-- `atan`, psa.hpp:1030-1089 -/
def atan (x : List S) : PM S (List S) :=
  invFn (Scal.un .atan) (fun t => do
    let q ← mul t t
    cDiv (lit 1) (← lift (addHeadC q (lit 1)))) x
/-- `asinh`, psa.hpp:1091-1151 -/
def asinh (x : List S) : PM S (List S) :=
  invFn (Scal.un .asinh) (fun t => do
    let q ← mul t t
    cDiv (lit 1) (← sqrt (← lift (addHeadC q (lit 1))))) x
/-- `acosh`, psa.hpp:1153-1213 -/
def acosh (x : List S) : PM S (List S) :=
  invFn (Scal.un .acosh) (fun t => do
    let q ← mul t t
    cDiv (lit 1) (← sqrt (← lift (subHeadC q (lit 1))))) x
/-- `atanh`, psa.hpp:1215-1274 -/
def atanh (x : List S) : PM S (List S) :=
  invFn (Scal.un .atanh) (fun t => do cDiv (lit 1) (← cSubSq (lit 1) t)) x

/-- the elementary functions and unary minus -/
def un : Un → List S → PM S (List S)
  | .neg => neg
  | .exp => exp
  | .log => log
  | .sqrt => sqrt
  | .sin => sin
  | .cos => cos
  | .tan => tan
  | .asin => asin
  | .acos => acos
  | .atan => atan
  | .sinh => sinh
  | .cosh => cosh
  | .tanh => tanh
  | .asinh => asinh
  | .acosh => acosh
  | .atanh => atanh

/-- `+`, `-`, `*`, `/` of two series -/
def bin : Bin → List S → List S → PM S (List S)
  | .add => add
  | .sub => sub
  | .mul => mul
  | .div => div

/-- mixed operators: psa.hpp:153-160, 224-231, 348-382, 434-441 -/
def binC : Bin → List S → D → PM S (List S)
  | .add, a, k => lift (addHeadC a k)
  | .sub, a, k => lift (subHeadC a k)
  | .mul, a, k => mulC a k
  | .div, a, k => lift (divV a (Scal.ofC k))

/-- mixed operators: psa.hpp:162-169, 233-240, 384-418, 443-445 -/
def cBin : Bin → D → List S → PM S (List S)
  | .add, k, b => lift (addHeadC b k)
  | .sub, k, b => lift (do addHeadC (← negV b) k)
  | .mul, k, b => cMul k b
  | .div, k, b => cDiv k b

end Psa

/-- instantiation of a template function with `psa<S>` -/
def Expr.evalP {S : Type} [Scal S] {n : ℕ} (p : ℕ → S) (x : Fin n → List S) : Expr n → PM S (List S)
  | .var i => return x i
  | .par i => return [p i]
  | .cst k => return [Scal.ofC k]
  | .un f a => do Psa.un f (← a.evalP p x)
  | .bin o a b => do
    let u ← a.evalP p x
    let v ← b.evalP p x
    Psa.bin o u v
  | .binC o a k => do Psa.binC o (← a.evalP p x) k
  | .cBin o k b => do Psa.cBin o k (← b.evalP p x)
  | .powI a y => do Psa.powI (← a.evalP p x) y
  | .pow a b => do
    let u ← a.evalP p x
    let v ← b.evalP p x
    Psa.pow u v

end Kv
