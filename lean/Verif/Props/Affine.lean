import Verif.Affine.Reduce
import Mathlib.Analysis.Real.Pi.Bounds

/-!
# Properties of affine arithmetic (C34, C35, C36, C58, C59)

Specification: an assignment of noise values (`Noise`) gives a form a value `x.lin ε`; the form represents every number within
`er` of it.
-/

namespace Kv
open RopSem Kv.Interval
open Rop (lit addUp addDown subUp subDown mulUp mulDown divUp divDown)

/-- the numbers a form stands for when the noise symbols have the values `ε` -/
def Form.Val (ε : ℕ → ℝ) (x : Form) (v : ℝ) : Prop := |v - x.lin ε| ≤ dbl x.er

/-- a form as the library makes them: a centre, no noise symbols newer than `maxnum() = m` -/
def Form.Wf (m : ℕ) (x : Form) : Prop := x.a ≠ [] ∧ x.a.length ≤ m + 1

/-- a finite form as the library makes them -/
def Form.Ok (m : ℕ) (x : Form) : Prop := x.Wf m ∧ x.Fin

instance (m : ℕ) (x : Form) : Decidable (x.Wf m) := inferInstanceAs (Decidable (_ ∧ _))
instance (m : ℕ) (x : Form) : Decidable (x.Ok m) := inferInstanceAs (Decidable (_ ∧ _))

/-- What a result has to satisfy.  The call, started when `m` was the newest noise symbol, ended with `m'`; the form `r` is
well-formed; and if it did not overflow, the operation is defined (`P`) and there are values for the new noise symbols, the
old ones being unchanged, such that the form stands for the exact value `w`. -/
def Form.Encl (ε : ℕ → ℝ) (m m' : ℕ) (r : Form) (w : ℝ) (P : Prop) : Prop :=
  m ≤ m' ∧ r.Wf m' ∧ (r.Fin → P ∧ ∃ ε', Noise ε' ∧ (∀ i ≤ m, ε' i = ε i) ∧ r.Val ε' w)

namespace Affine

variable {ε : ℕ → ℝ} {x y r : Form} {u v w : ℝ} {m m' : ℕ}

theorem wf_iff : x.Wf m ↔ size x ≠ 0 ∧ size x ≤ m + 1 := by
  unfold Form.Wf size; simp

theorem in_of (h : x.Ok m) (hv : x.Val ε u) : In ε m x u True :=
  have hw := wf_iff.1 h.1
  ⟨hw.2, ctr_of_fin hw.1 h.2, fun _ => trivial, fun _ => hv⟩

theorem encl_of {P Q : Prop} (h : Out ε m m' r w P) (hPQ : P → Q) : r.Encl ε m m' w Q := by
  obtain ⟨h1, e, h2, h3, h4⟩ := h
  exact ⟨h1, wf_iff.2 ⟨h4.ctr.1, h4.size⟩, fun hf => ⟨hPQ (h4.dom hf), e, h2, h3, h4.rep hf⟩⟩

end Affine
open Kv.Affine

variable {ε : ℕ → ℝ} {x y r : Form} {u v w : ℝ} {m m' : ℕ} {L : Libm} {fuel : ℕ}

/-! ## C34: the operations -/

/-- Unary minus, exp, log, sqrt, sin, cos, tan, asin, acos, sinh, cosh, tanh, asinh, acosh, atanh. -/
theorem C34_un {f : Un} (hf : f ≠ .atan) (hε : Noise ε) (hx : x.Ok m) (hu : x.Val ε u) (h : un L fuel f x m = (.ok r, m')) :
    r.Encl ε m m' (f.real u) (f.Dom u) :=
  encl_of (un_out hε (in_of hx hu) hf h) And.right

/-- `x + y`, `x - y`, `x * y`, `x / y` with the same noise values in both operands. -/
theorem C34_bin {o : Bin} (hε : Noise ε) (hx : x.Ok m) (hy : y.Ok m) (hu : x.Val ε u) (hv : y.Val ε v)
    (h : bin o x y m = (.ok r, m')) : r.Encl ε m m' (o.real u v) (o.Dom v) :=
  encl_of (bin_out hε (in_of hx hu) (in_of hy hv) h) fun a => a.2.2

/-- `x + k`, `x - k`, `x * k`, `x / k` for a number `k`. -/
theorem C34_binC {o : Bin} {k : D} (hk : FinD k) (hε : Noise ε) (hx : x.Ok m) (hu : x.Val ε u) (h : binC o x k m = (.ok r, m')) :
    r.Encl ε m m' (o.real u (dbl k)) (o.Dom (dbl k)) :=
  encl_of (binC_out hε (in_of hx hu) hk h) And.right

/-- `k + x`, `k - x`, `k * x`, `k / x` for a number `k`. -/
theorem C34_cBin {o : Bin} {k : D} (hε : Noise ε) (hx : x.Ok m) (hu : x.Val ε u) (h : cBin o k x m = (.ok r, m')) :
    r.Encl ε m m' (o.real (dbl k) u) (o.Dom u) :=
  encl_of (cBin_out hε (in_of hx hu) h) And.right

theorem C34_square (hε : Noise ε) (hx : x.Ok m) (hu : x.Val ε u) (h : square x m = (.ok r, m')) : r.Encl ε m m' (u * u) True :=
  encl_of (square_out hε (in_of hx hu) h) fun _ => trivial

theorem C34_inv (hε : Noise ε) (hx : x.Ok m) (hu : x.Val ε u) (h : inv x m = (.ok r, m')) : r.Encl ε m m' (1 / u) (u ≠ 0) :=
  encl_of (inv_out hε (in_of hx hu) h) And.right

/-- `pow(x, n)` for an `int` -/
theorem C34_powI {n : ℤ} (hε : Noise ε) (hx : x.Ok m) (hu : x.Val ε u) (h : powI x n m = (.ok r, m')) :
    r.Encl ε m m' (u ^ n) (n < 0 → u ≠ 0) :=
  encl_of (powI_out hε (in_of hx hu) h) And.right

/-- `pow(x, y)` -/
theorem C34_pow (hε : Noise ε) (hx : x.Ok m) (hy : y.Ok m) (hu : x.Val ε u) (hv : y.Val ε v) (h : pow L fuel x y m = (.ok r, m')) :
    r.Encl ε m m' (u ^ v) (0 < u) :=
  encl_of (pow_out hε (in_of hx hu) (in_of hy hv) h) fun a => a.2.2

/-! ## C35: `atan` and `abs` -/

/-- `affine([1, 101])` as the first form of a program -/
def form51 : Form := ⟨[lit 51, lit 50], lit 0⟩

/-- the result of `atan(affine([1, 101]))` -/
def atan51 : Form := ⟨[lit (436621449455341/281474976710656), lit (2522745114194803/140737488355328),
  lit (2453076504965959/140737488355328)], lit (1/281474976710656)⟩

theorem atan51_run : Affine.un L 100 .atan form51 1 = (.ok atan51, 2) := by
  have h : Affine.lazyFn (Interval.atan 100) dAtan form51 1 = (.ok atan51, 2) := by decide +kernel
  exact h

theorem dbl_lit {q : ℚ} (h : binary64.Rep q) : dbl (lit q : D) = q := by
  have e : dbl (lit q : D) = dbl (Fl.fin q h : Fl binary64) := congrArg dbl (litD h)
  rw [e, dbl_fin]

/-- all noise symbols have the value 1 -/
theorem noise_one : Noise fun _ => 1 := ⟨rfl, fun _ => by simp⟩

/-- `atan` does not enclose: for x = affine([1, 101]) and the noise value 1 the exact value is atan(101) < 1.58, but every
value of the returned form is larger than 2.  (The code uses the slope 1/√(1+x²) instead of 1/(1+x²).) -/
theorem C35_atan_violated : ¬ ∀ (L : Libm) (fuel m m' : ℕ) (ε : ℕ → ℝ) (x r : Form) (u : ℝ), Noise ε → x.Ok m → x.Val ε u →
    un L fuel .atan x m = (.ok r, m') → r.Encl ε m m' (Real.arctan u) True := by
  intro h
  have hv : form51.Val (fun _ => 1) 101 := by
    unfold Form.Val Form.lin form51
    simp only [List.length_cons, List.length_nil, Finset.sum_range_succ, Finset.sum_range_zero, List.getD_cons_zero, List.getD_cons_succ]
    rw [dbl_lit (by decide +kernel), dbl_lit (by decide +kernel), dbl_zero]
    norm_num
  obtain ⟨-, -, h1⟩ := h ⟨id, id⟩ 100 1 2 (fun _ => 1) form51 atan51 101 noise_one (by decide +kernel) hv atan51_run
  obtain ⟨-, e, h2, h3, h4⟩ := h1 (by decide +kernel)
  have e1 := h3 1 le_rfl
  have e2 := abs_le.1 (h2.le 2)
  unfold Form.Val Form.lin atan51 at h4
  simp only [List.length_cons, List.length_nil, Finset.sum_range_succ, Finset.sum_range_zero, List.getD_cons_zero, List.getD_cons_succ] at h4
  rw [dbl_lit (by decide +kernel), dbl_lit (by decide +kernel), dbl_lit (by decide +kernel), dbl_lit (by decide +kernel), h2.zero,
    zero_add, e1] at h4
  have h5 := (abs_le.1 h4).1
  have h6 := Real.arctan_lt_pi_div_two 101
  have h7 := Real.pi_lt_d2
  push_cast at h5
  norm_num at h5
  linarith [e2.1]

/-- the form 1.5·2⁻²⁶ + 1.5 ε₁ -/
def formAbs : Form := ⟨[lit (3 / 134217728), lit (3 / 2)], lit 0⟩
/-- its absolute value -/
def absAbs : Form := ⟨[lit (6755399441055745/9007199254740992), lit (3/134217728), lit (3377699720527871/4503599627370496)], lit 0⟩

/-- `abs` does not enclose: the form 1.5·2⁻²⁶ + 1.5 ε₁ has the value 1.5 + 1.5·2⁻²⁶ for ε₁ = 1, which is larger than all
values of the returned form.  (The end points of the range of |t| - a t are computed with rounding to nearest.) -/
theorem C35_abs_violated : ¬ ∀ (m m' : ℕ) (ε : ℕ → ℝ) (x r : Form) (u : ℝ), Noise ε → x.Ok m → x.Val ε u →
    Affine.abs x m = (.ok r, m') → r.Encl ε m m' |u| True := by
  intro h
  have hv : formAbs.Val (fun _ => 1) (3 / 134217728 + 3 / 2) := by
    unfold Form.Val Form.lin formAbs
    simp only [List.length_cons, List.length_nil, Finset.sum_range_succ, Finset.sum_range_zero, List.getD_cons_zero, List.getD_cons_succ]
    rw [dbl_lit (by decide +kernel), dbl_lit (by decide +kernel), dbl_zero]
    norm_num
  obtain ⟨-, -, h1⟩ := h 1 2 (fun _ => 1) formAbs absAbs _ noise_one (by decide +kernel) hv (by decide +kernel)
  obtain ⟨-, e, h2, h3, h4⟩ := h1 (by decide +kernel)
  have e1 := h3 1 le_rfl
  have e2 := abs_le.1 (h2.le 2)
  unfold Form.Val Form.lin absAbs at h4
  simp only [List.length_cons, List.length_nil, Finset.sum_range_succ, Finset.sum_range_zero, List.getD_cons_zero, List.getD_cons_succ] at h4
  rw [dbl_lit (by decide +kernel), dbl_lit (by decide +kernel), dbl_lit (by decide +kernel), dbl_zero, h2.zero, zero_add, e1] at h4
  have h5 := (abs_le.1 h4).2
  rw [abs_of_pos (by norm_num)] at h5
  push_cast at h5
  norm_num at h5
  linarith [e2.2]

/-- Missing from C35: `atan` and `abs` of a form with values of both signs (both violated, see above).  If no value of the form
is negative or none is positive, then `abs` encloses. -/
theorem C35_partial (hε : Noise ε) (hx : x.Ok m) (hu : x.Val ε u) {I : Interval D} (hI : toInterval x = .ok I)
    (hs : Rop.le (lit 0) I.inf = true ∨ Rop.le I.sup (lit 0) = true) (h : Affine.abs x m = (.ok r, m')) :
    r.Encl ε m m' |u| True := by
  have hin := in_of hx hu
  have hm := toInterval_mem hε hin.rep hx.2 hI
  obtain ⟨J, s1, g1, g2⟩ := AM.bind_run h
  obtain ⟨g3, rfl⟩ := AM.lift_run g1
  rw [hI] at g3
  cases g3
  dsimp only at g2
  by_cases c1 : Rop.le (lit 0) I.inf = true
  · rw [if_pos c1] at g2
    obtain ⟨rfl, rfl⟩ := AM.pure_run g2
    have : 0 ≤ u := coe_nonneg (le_zero_left.1 c1).2 hm.1.2
    rw [abs_of_nonneg this]
    exact encl_of (Out.of hε hin) id
  · rw [if_neg c1] at g2
    have c2 := hs.resolve_left c1
    rw [if_pos c2] at g2
    obtain ⟨rfl, rfl⟩ := AM.pure_run g2
    have : u ≤ 0 := coe_nonpos (le_zero_right.1 c2).2 hm.2.2
    rw [abs_of_nonpos this]
    exact encl_of (Out.of hε (neg_in hin)) id

/-! ## C36: conversions and reduction of noise symbols -/

/-- `to_interval(x)` contains every number the form stands for -/
theorem C36_to_interval (hε : Noise ε) (hx : x.Fin) (hu : x.Val ε u) {I : Interval D} (h : toInterval x = .ok I) : u ∈ I :=
  toInterval_mem hε (fun _ => hu) hx h

/-- `affine(I)`: a new noise symbol, and every number in `I` is a value of the form -/
theorem C36_of_interval (hε : Noise ε) {I : Interval D} (hu : u ∈ I) (h : ofInterval I m = (.ok r, m')) : m' = m + 1 ∧ r.Encl ε m m' u True :=
  ⟨(ofInterval_size h).1, encl_of (ofInterval_out hε hu h) id⟩

/-- `affine(k)` for a number -/
theorem C36_of_scalar {k : D} (hk : FinD k) (hε : Noise ε) : (ofScalar k).Ok m ∧ (ofScalar k).Val ε (dbl k) := by
  refine ⟨⟨⟨by simp [ofScalar], by simp [ofScalar]⟩, by simp [Form.Fin, ofScalar, hk, fin_zero]⟩, ?_⟩
  simp [Form.Val, Form.lin, ofScalar, hε.zero, dbl_zero]

/-- `epsilon_reduce(x, n, n_limit)`: whatever order `std::partial_sort` produces, all joint values of the vector are kept -/
theorem C36_reduce {sort : List D → ℕ → List ℕ} (hsort : ∀ l k, (sort l k).Perm (List.range l.length)) {x r : List Form} {n nLimit : ℕ}
    (hε : Noise ε) {u : ℕ → ℝ} (hx : ∀ i < x.length, (x.getD i ⟨[], lit 0⟩).Ok m ∧ (x.getD i ⟨[], lit 0⟩).Val ε (u i))
    (h : epsReduce sort x n nLimit m = (.ok r, m')) :
    r.length = x.length ∧ (m' = m ∨ m' = n) ∧ ∃ ε', Noise ε' ∧ ∀ i < x.length, (r.getD i ⟨[], lit 0⟩).Wf m' ∧
      ((r.getD i ⟨[], lit 0⟩).Fin → (r.getD i ⟨[], lit 0⟩).Val ε' (u i)) := by
  obtain ⟨h1, e, h2, h3⟩ := epsReduce_rep hε hsort (fun i hi => ⟨(wf_iff.1 (hx i hi).1.1).2, fun _ => (hx i hi).2⟩) h
  refine ⟨h1, ?_, e, h2, fun i hi => ⟨wf_iff.2 ⟨?_, (h3 i hi).2⟩, (h3 i hi).1⟩⟩
  · rcases epsReduce_run h hsort with ⟨-, h⟩ | ⟨-, -, h, -⟩
    · exact .inl h
    · exact .inr h
  · rcases epsReduce_run h hsort with ⟨rfl, -⟩ | ⟨pa, -, -, -, -, -, h4⟩
    · exact (wf_iff.1 (hx i hi).1.1).1
    · rw [(h4 i hi).2, size_vec]; omega

/-- `epsilon_reduce2(x, n)`: the noise symbols `1, ..., n` stay, all joint values of the vector are kept -/
theorem C36_reduce2 {x r : List Form} {n : ℕ} (hε : Noise ε) {u : ℕ → ℝ}
    (hx : ∀ i < x.length, (x.getD i ⟨[], lit 0⟩).Fin ∧ (x.getD i ⟨[], lit 0⟩).Val ε (u i)) (h : epsReduce2 x n m = (.ok r, m')) :
    r.length = x.length ∧ m' = n + x.length ∧ ∃ ε', Noise ε' ∧ (∀ j ≤ n, ε' j = ε j) ∧ ∀ i < x.length,
      (r.getD i ⟨[], lit 0⟩).Wf m' ∧ ((r.getD i ⟨[], lit 0⟩).Fin → (r.getD i ⟨[], lit 0⟩).Val ε' (u i)) := by
  obtain ⟨h0, h1, e, h2, h3, h4⟩ := epsReduce2_rep hε (fun i hi _ => (hx i hi).2) h
  refine ⟨h1, h0, e, h2, h3, fun i hi => ⟨wf_iff.2 ⟨?_, (h4 i hi).2⟩, (h4 i hi).1⟩⟩
  rw [(epsReduce2_run h).2.2 i hi, size_vec]; omega

/-! ## C58: whole functions -/

/-- Any function made of the operations above (without `atan`), called with forms: the returned form encloses the exact value. -/
theorem C58_eval {n : ℕ} {e : Expr n} (he : e.AffOk) {p : ℕ → Form} {x : Fin n → Form} {ρ : ℕ → ℝ} {ξ : Fin n → ℝ} (hε : Noise ε)
    (hx : ∀ i, (x i).Ok m ∧ (x i).Val ε (ξ i)) (hp : ∀ i, (p i).Ok m ∧ (p i).Val ε (ρ i)) (h : eval L fuel p x e m = (.ok r, m')) :
    r.Encl ε m m' (e.real ρ ξ) (e.NoPow0 → e.Dom ρ ξ) :=
  encl_of (eval_out he hε (fun i => in_of (hx i).1 (hx i).2) (fun i => in_of (hp i).1 (hp i).2) h) id

theorem ofBox_out {I : List (Interval D)} : ∀ {ε : ℕ → ℝ} {m m' : ℕ} {l : List Form}, Noise ε → ∀ {ξ : ℕ → ℝ},
    (∀ i < I.length, ξ i ∈ I.getD i ⟨lit 0, lit 0⟩) → ofBox I m = (.ok l, m') →
      m ≤ m' ∧ ∃ ε', Noise ε' ∧ (∀ i ≤ m, ε' i = ε i) ∧ ∀ i < I.length, In ε' m' (l.getD i ⟨[], lit 0⟩) (ξ i) True := by
  induction I with
  | nil =>
    intro ε m m' l hε ξ hξ h
    obtain ⟨rfl, rfl⟩ := AM.pure_run h
    exact ⟨le_rfl, ε, hε, fun _ _ => rfl, fun i hi => by simp at hi⟩
  | cons J t ih =>
    intro ε m m' l hε ξ hξ h
    obtain ⟨f, s1, g1, g2⟩ := AM.bind_run h
    obtain ⟨l', s2, g3, g4⟩ := AM.bind_run g2
    obtain ⟨rfl, rfl⟩ := AM.pure_run g4
    obtain ⟨h1, e1, n1, a1, i1⟩ := ofInterval_out hε (hξ 0 (by simp)) g1
    obtain ⟨h2, e2, n2, a2, i2⟩ := ih n1 (ξ := fun i => ξ (i + 1)) (fun i hi => by simpa using hξ (i + 1) (by simpa using hi)) g3
    refine ⟨h1.trans h2, e2, n2, fun i hi => (a2 i (hi.trans h1)).trans (a1 i hi), fun i hi => ?_⟩
    cases i with
    | zero => exact i1.mono h2 a2
    | succ i => simpa using i2 i (by simpa using hi)

/-- Range bounding: `to_interval(f(affine(I₁), ..., affine(Iₙ)))`.  If the result is an interval (not NaN), it contains
`f(ξ)` for every `ξ` in the box; if it is bounded, then `f` is defined on the whole box. -/
theorem C58_range {n : ℕ} {e : Expr n} (he : e.AffOk) {k : ℕ → D} (hk : ∀ i, FinD (k i)) {I : List (Interval D)} (hn : I.length = n)
    {ξ : Fin n → ℝ} (hξ : ∀ i, ξ i ∈ I.getD i.val ⟨lit 0, lit 0⟩) {J : Interval D} (h : evalBox L fuel k I e m = (.ok J, m'))
    (hJ : ∃ t : ℝ, t ∈ J) :
    e.real (fun i => dbl (k i)) ξ ∈ J ∧ (FinD J.inf → e.NoPow0 → e.Dom (fun i => dbl (k i)) ξ) := by
  subst hn
  obtain ⟨x, s1, g1, g2⟩ := AM.bind_run h
  obtain ⟨r, s2, g3, g4⟩ := AM.bind_run g2
  obtain ⟨g5, rfl⟩ := AM.lift_run g4
  obtain ⟨-, e1, n1, -, i1⟩ := ofBox_out noise_one (ξ := fun i => if hi : i < I.length then ξ ⟨i, hi⟩ else 0)
    (fun i hi => by rw [dif_pos hi]; exact hξ ⟨i, hi⟩) g1
  obtain ⟨-, e2, n2, -, i2⟩ := eval_out he n1 (fun i => by simpa using i1 i.val i.isLt) (fun i => (scalar_in n1 (hk i)).imp fun _ => trivial) g3
  obtain ⟨-, rfl⟩ := toInterval_ok g5
  have hfin : FinD (subDown (c r 0) (rad r)) ∨ FinD (addUp (c r 0) (rad r)) → r.Fin := by
    intro hd
    obtain ⟨h1, h2⟩ : FinD (c r 0) ∧ FinD (rad r) := hd.elim subDown_fin addUp_fin
    obtain ⟨h3, h4, -⟩ := rad_fin h2
    exact fin_iff.2 ⟨fun i hi => if h0 : i = 0 then h0 ▸ h1 else h3 i h0 hi, h4⟩
  obtain ⟨t, ht⟩ := hJ
  refine ⟨?_, fun hd => i2.dom (hfin (.inl hd))⟩
  by_cases hd : FinD (subDown (c r 0) (rad r)) ∨ FinD (addUp (c r 0) (rad r))
  · exact toInterval_mem n2 i2.rep (hfin hd) g5
  · push Not at hd
    have h1 := (inf_cases ht).resolve_right hd.1
    have h2 := (sup_cases ht).resolve_right hd.2
    refine ⟨?_, ?_⟩
    · rw [h1]; exact ⟨not_nan_dNinf, by rw [val_dNinf]; exact bot_le⟩
    · rw [h2]; exact ⟨not_nan_dPinf, by rw [val_dPinf]; exact le_top⟩

/-! ## C59: `append` and `split` -/

/-- `split(x, n, y, z)`: the old noise symbols go to `y`, the new ones and the error to `z` -/
theorem C59_split {n : ℕ} {z : Form} (hx : x.Fin) (hu : x.Val ε u) (h : split x n = .ok (y, z)) :
    y.Fin ∧ z.Fin ∧ (∀ i, n < i → c y i = lit 0) ∧ (∀ i, i ≤ n → c z i = lit 0) ∧
      ∃ v w, u = v + w ∧ y.Val ε v ∧ z.Val ε w := by
  have hr := split_rep (ε := ε) h (fun _ => hu) hx
  unfold split at h
  dsimp only at h
  split_ifs at h with hs
  cases h
  have fy : Form.Fin ⟨vec (size x) fun i => if i ≤ n then c x i else lit 0, lit 0⟩ :=
    fin_vec.2 ⟨fun i _ => by split_ifs; exacts [Fin.c hx i, fin_zero], fin_zero⟩
  have fz : Form.Fin ⟨vec (size x) fun i => if i ≤ n then lit 0 else c x i, x.er⟩ :=
    fin_vec.2 ⟨fun i _ => by split_ifs; exacts [fin_zero, Fin.c hx i], hx.2⟩
  obtain ⟨v, w, e, h1, h2, h3, h4, -⟩ := hr
  exact ⟨fy, fz, h3, h4, v, w, e, h1 fy, h2 fz⟩

theorem add_zero_near {a b : D} (ha : FinD a) (hb : b = lit 0) : Rop.add a b = a ∧ Rop.add b a = a := by
  subst hb
  obtain ⟨q, h, rfl⟩ := finD_iff.1 ha
  have e1 : Fl.add .near (Fl.fin q h) (Fl.zero : Fl binary64) = Fl.fin q h := by
    change Fl.round .near (q + 0) = _
    rw [add_zero]; exact Fl.round_of_rep .near h
  have e2 : Fl.add .near (Fl.zero : Fl binary64) (Fl.fin q h) = Fl.fin q h := by
    change Fl.round .near (0 + q) = _
    rw [zero_add]; exact Fl.round_of_rep .near h
  rw [lit_zero_fin]
  exact ⟨e1, e2⟩

theorem append_c (i : ℕ) (h : c x i = lit 0 ∨ c y i = lit 0) (hx : x.Fin) (hy : y.Fin) :
    dbl (c (append x y) i) = dbl (c x i) + dbl (c y i) ∧ FinD (c (append x y) i) := by
  have key : dbl (Rop.add (c x i) (c y i)) = dbl (c x i) + dbl (c y i) ∧ FinD (Rop.add (c x i) (c y i)) := by
    rcases h with h | h
    · rw [(add_zero_near (Fin.c hy i) h).2, h, dbl_zero, zero_add]; exact ⟨rfl, Fin.c hy i⟩
    · rw [(add_zero_near (Fin.c hx i) h).1, h, dbl_zero, add_zero]; exact ⟨rfl, Fin.c hx i⟩
  unfold append
  dsimp only
  by_cases hs : size x > size y
  · rw [if_pos hs]
    by_cases hi : i < size x
    · rw [c_vec hi]
      by_cases hj : i < size y
      · rw [if_pos hj]; exact key
      · rw [if_neg hj, c_ge (x := y) (not_lt.1 hj), dbl_zero, add_zero]; exact ⟨rfl, Fin.c hx i⟩
    · rw [c_ge (by rw [size_vec]; omega), c_ge (x := x) (by omega), c_ge (x := y) (by omega), dbl_zero, add_zero]; exact ⟨rfl, fin_zero⟩
  · rw [if_neg hs]
    by_cases hi : i < size y
    · rw [c_vec hi]
      by_cases hj : i < size x
      · rw [if_pos hj]; exact key
      · rw [if_neg hj, c_ge (x := x) (not_lt.1 hj), dbl_zero, zero_add]; exact ⟨rfl, Fin.c hy i⟩
    · rw [c_ge (by rw [size_vec]; omega), c_ge (x := x) (by omega), c_ge (x := y) (by omega), dbl_zero, add_zero]; exact ⟨rfl, fin_zero⟩

theorem append_er : (append x y).er = Rop.add x.er y.er := by
  unfold append; dsimp only; split_ifs <;> rfl
theorem append_size : size (append x y) = max (size x) (size y) := by
  unfold append; dsimp only; split_ifs with h <;> rw [size_vec] <;> omega

/-- Missing from C59: `append` of two forms which both have a centre, as in `append(s1, (affine<T>)I)` (violated, see below).
If for every index at least one of the two coefficients is zero, the centres included, and one of the errors is zero, then
`append` encloses the sum without any new noise symbol. -/
theorem C59_append_partial (hx : x.Ok m) (hy : y.Ok m) (hd : ∀ i, c x i = lit 0 ∨ c y i = lit 0) (he : x.er = lit 0 ∨ y.er = lit 0)
    (hu : x.Val ε u) (hv : y.Val ε v) : (append x y).Ok m ∧ (append x y).Val ε (u + v) := by
  have hw := wf_iff.1 hx.1
  have hw' := wf_iff.1 hy.1
  have hc := fun i => append_c i (hd i) hx.2 hy.2
  have hr : dbl (append x y).er = dbl x.er + dbl y.er ∧ FinD (append x y).er := by
    rw [append_er]
    rcases he with h | h
    · rw [(add_zero_near hy.2.2 h).2, h, dbl_zero, zero_add]; exact ⟨rfl, hy.2.2⟩
    · rw [(add_zero_near hx.2.2 h).1, h, dbl_zero, add_zero]; exact ⟨rfl, hx.2.2⟩
  refine ⟨⟨wf_iff.2 (by rw [append_size]; omega), fin_iff.2 ⟨fun i _ => (hc i).2, hr.2⟩⟩, ?_⟩
  unfold Form.Val at *
  have e : (append x y).lin ε = x.lin ε + y.lin ε := by
    rw [lin_def, append_size, lin_le (le_max_left (size x) (size y)), lin_le (le_max_right (size x) (size y)), ← Finset.sum_add_distrib]
    exact Finset.sum_congr rfl fun i _ => by rw [(hc i).1, add_mul]
  rw [e, hr.1, show u + v - (x.lin ε + y.lin ε) = (u - x.lin ε) + (v - y.lin ε) by ring]
  exact (abs_add_le _ _).trans (add_le_add hu hv)

/-- putting the parts of `split` together gives the form back -/
theorem C59_split_append {n : ℕ} {z : Form} (hx : x.Fin) (h : split x n = .ok (y, z)) : append y z = x := by
  unfold split at h
  dsimp only at h
  split_ifs at h with hs
  cases h
  have fy : Form.Fin ⟨vec (size x) fun i => if i ≤ n then c x i else lit 0, lit 0⟩ :=
    fin_vec.2 ⟨fun i _ => by split_ifs; exacts [Fin.c hx i, fin_zero], fin_zero⟩
  unfold append
  dsimp only
  rw [size_vec, size_vec, if_neg (by omega)]
  obtain ⟨l, e⟩ := x
  congr 1
  · refine List.ext_getElem (by simp [vec, size]) fun i h1 h2 => ?_
    have hi : i < size ⟨l, e⟩ := h2
    have hc : c ⟨l, e⟩ i = l[i] := List.getD_eq_getElem l (lit 0) h2
    have hf := Fin.c hx i
    simp only [vec, List.getElem_map, List.getElem_range]
    rw [if_pos hi]
    have e1 : c ⟨vec (size ⟨l, e⟩) fun i => if i ≤ n then c ⟨l, e⟩ i else lit 0, lit 0⟩ i = if i ≤ n then c ⟨l, e⟩ i else lit 0 := c_vec hi
    have e2 : c ⟨vec (size ⟨l, e⟩) fun i => if i ≤ n then lit 0 else c ⟨l, e⟩ i, e⟩ i = if i ≤ n then lit 0 else c ⟨l, e⟩ i := c_vec hi
    unfold vec at e1 e2
    rw [e1, e2]
    refine Eq.trans ?_ hc
    split_ifs
    · exact (add_zero_near hf rfl).1
    · exact (add_zero_near hf rfl).2
  · exact (add_zero_near hx.2 rfl).2

/-- `append` does not enclose the sum of forms without common noise symbols: the centres are added with rounding to nearest.
Here 1 and 2⁻⁶⁰ + 2⁻⁶⁰ε₁ are put together. -/
theorem C59_append_violated : ¬ ∀ (m : ℕ) (ε : ℕ → ℝ) (x y : Form) (u v : ℝ), Noise ε → x.Ok m → y.Ok m →
    (∀ i, i ≠ 0 → c x i = lit 0 ∨ c y i = lit 0) → x.Val ε u → y.Val ε v → (append x y).Val ε (u + v) := by
  intro h
  have := h 1 (fun _ => 1) ⟨[lit 1], lit 0⟩ ⟨[lit (1 / 2 ^ 60), lit (1 / 2 ^ 60)], lit 0⟩ 1 (2 / 2 ^ 60) noise_one (by decide +kernel)
    (by decide +kernel) (fun i hi => .inl (by cases i with | zero => exact absurd rfl hi | succ i => rfl))
    (by simp [Form.Val, Form.lin, dbl_one, dbl_zero]) (by
      unfold Form.Val Form.lin
      simp only [List.length_cons, List.length_nil, Finset.sum_range_succ, Finset.sum_range_zero, List.getD_cons_zero, List.getD_cons_succ]
      rw [dbl_lit (by decide +kernel), dbl_zero]
      norm_num)
  have e : append ⟨[lit 1], lit 0⟩ ⟨[lit (1 / 2 ^ 60), lit (1 / 2 ^ 60)], lit 0⟩ = ⟨[lit 1, lit (1 / 2 ^ 60)], lit 0⟩ := by decide +kernel
  rw [e] at this
  unfold Form.Val Form.lin at this
  simp only [List.length_cons, List.length_nil, Finset.sum_range_succ, Finset.sum_range_zero, List.getD_cons_zero, List.getD_cons_succ] at this
  rw [dbl_lit (by decide +kernel), dbl_lit (by decide +kernel), dbl_zero] at this
  norm_num at this

/-! ## the hypotheses can be met -/

/-- an ordinary return of a finite form -/
def okForm : Res Form × ℕ → Bool
  | (.ok r, _) => r.Fin
  | _ => false

theorem okForm_iff {p : Res Form × ℕ} (h : okForm p = true) : ∃ r m', p = (.ok r, m') ∧ r.Fin := by
  obtain ⟨q, m'⟩ := p
  cases q with
  | ok r => exact ⟨r, m', rfl, by simpa [okForm] using h⟩
  | error e => cases h

theorem form51_val : form51.Val (fun _ => 1) 101 := by
  unfold Form.Val Form.lin form51
  simp only [List.length_cons, List.length_nil, Finset.sum_range_succ, Finset.sum_range_zero, List.getD_cons_zero, List.getD_cons_succ]
  rw [dbl_lit (by decide +kernel), dbl_lit (by decide +kernel), dbl_zero]
  norm_num

example : Noise (fun _ => 1) ∧ form51.Ok 1 ∧ form51.Val (fun _ => 1) 101 ∧
    (∀ o : Bin, ∃ r m', bin o form51 form51 1 = (.ok r, m') ∧ r.Fin) ∧
    (∀ o : Bin, ∃ r m', binC o form51 (lit 3) 1 = (.ok r, m') ∧ r.Fin) ∧ (∀ o : Bin, ∃ r m', cBin o (lit 3) form51 1 = (.ok r, m') ∧ r.Fin) ∧
    (∃ r m', square form51 1 = (.ok r, m') ∧ r.Fin) ∧ (∃ r m', inv form51 1 = (.ok r, m') ∧ r.Fin) ∧
    (∃ r m', powI form51 3 1 = (.ok r, m') ∧ r.Fin) :=
  ⟨noise_one, by decide +kernel, form51_val, fun o => okForm_iff (by cases o <;> decide +kernel), fun o => okForm_iff (by cases o <;> decide +kernel),
    fun o => okForm_iff (by cases o <;> decide +kernel), okForm_iff (by decide +kernel), okForm_iff (by decide +kernel), okForm_iff (by decide +kernel)⟩

/-- the form 0.5 + 0.25 ε₁ -/
def formHalf : Form := ⟨[lit (1 / 2), lit (1 / 4)], lit 0⟩
/-- a poor C library: `exp(x)` is 2 and `log(x)` is `x` -/
def libm0 : Libm := ⟨fun _ => lit 2, id⟩

example : formHalf.Ok 1 ∧ ∀ f ∈ [Un.neg, .exp, .log, .sqrt, .asin, .tanh], ∃ r m', un libm0 100 f formHalf 1 = (.ok r, m') ∧ r.Fin :=
  ⟨by decide +kernel, fun f hf => okForm_iff ((by decide +kernel : ∀ f ∈ [Un.neg, .exp, .log, .sqrt, .asin, .tanh],
    okForm (un libm0 100 f formHalf 1) = true) f hf)⟩
example : ∃ r m', powI ⟨[lit 2, lit (1 / 4)], lit 0⟩ (-2) 1 = (.ok r, m') ∧ r.Fin := okForm_iff (by decide +kernel)
example : form51.Fin ∧ ∃ y z, split form51 0 = .ok (y, z) := ⟨by decide +kernel, _, _, rfl⟩
/-- reversing the order of the noise symbols is one of the orders `std::partial_sort` may produce -/
example : (∀ (l : List D) (k : ℕ), ((fun l _ => (List.range l.length).reverse : List D → ℕ → List ℕ) l k).Perm (List.range l.length)) ∧
    okForm ((epsReduce (fun l _ => (List.range l.length).reverse) [⟨[lit 1, lit 2, lit 3, lit 4], lit 5⟩] 2 2 3).1.map (·.getD 0 ⟨[], lit 0⟩), 0) = true :=
  ⟨fun l _ => List.reverse_perm _, by decide +kernel⟩
/-- x² - x on [0, 1] -/
example : (Expr.bin .sub (Expr.bin .mul (.var 0) (.var 0)) (.var 0) : Expr 1).AffOk ∧
    ∃ J : Interval D, ∃ m', evalBox libm0 100 (fun _ => lit 0) [⟨lit 0, lit 1⟩] (Expr.bin .sub (Expr.bin .mul (.var 0) (.var 0)) (.var 0) : Expr 1) 0
      = (.ok J, m') ∧ J = ⟨lit (-1/2), lit 0⟩ := ⟨⟨⟨trivial, trivial⟩, trivial⟩, _, _, rfl, by decide +kernel⟩
example : ∃ r m', pow libm0 100 form51 formHalf 1 = (.ok r, m') ∧ r.Fin := okForm_iff (by decide +kernel)

end Kv
