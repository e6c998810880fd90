import Verif.Complex.CardanoLemmas

/-!
# C72, C73: the roots of cubic and quartic equations by `cardano` and `ferrari`

The coefficients and the results are complex intervals.  `cardano` and `ferrari` compute with roots which are determined only up to
roots of unity, and intervals do not tell which of them belong together; the theorems say that nevertheless for all coefficients in
the given boxes the polynomial has a complete system of roots in the returned boxes, with multiplicities.
-/

namespace Kv
open RopSem Kv.Interval
open Rop (lit)

/-- the complex number is in the box -/
def InBox (Z : Cx) (z : ℂ) : Prop := z.re ∈ Z.re ∧ z.im ∈ Z.im

/-- The boxes contain numbers `r` with `∑ x i * z ^ i = lead * ∏ (z - r j)` for all `z`: a complete system of roots of the polynomial. -/
def RootSystem (x : List ℂ) (lead : ℂ) (out : List Cx) : Prop :=
  ∃ r : List ℂ, List.Forall₂ InBox out r ∧
    ∀ z : ℂ, (x.zipIdx.map fun c => c.1 * z ^ c.2).sum = lead * (r.map fun s => z - s).prod

theorem RootSystem.zero {x : List ℂ} {lead : ℂ} {out : List Cx} (h : RootSystem x lead out) (hl : lead ≠ 0) {z : ℂ}
    (hz : (x.zipIdx.map fun c => c.1 * z ^ c.2).sum = 0) : ∃ Z ∈ out, InBox Z z := by
  obtain ⟨r, hr, h⟩ := h
  rw [h z, mul_eq_zero, or_iff_right hl, List.prod_eq_zero_iff, List.mem_map] at hz
  obtain ⟨s, hs, e⟩ := hz
  rw [sub_eq_zero] at e
  subst e
  clear h
  induction hr with
  | nil => cases hs
  | cons h _ ih =>
    rcases List.mem_cons.1 hs with rfl | hs
    · exact ⟨_, List.mem_cons_self, h⟩
    · obtain ⟨Z, hZ, h⟩ := ih hs
      exact ⟨Z, List.mem_cons_of_mem _ hZ, h⟩

variable {fuel : ℕ} {inp out : List Cx} {x : List ℂ}

theorem Cardano.cardano_length (h : Cardano.cardano fuel inp = .ok (some out)) : ∃ X0 X1 X2 X3, inp = [X0, X1, X2, X3] := by
  match inp with
  | [X0, X1, X2, X3] => exact ⟨_, _, _, _, rfl⟩
  | [] => cases h
  | [_] => cases h
  | [_, _] => cases h
  | [_, _, _] => cases h
  | _ :: _ :: _ :: _ :: _ :: _ => cases h

theorem Cardano.ferrari_length (h : Cardano.ferrari fuel inp = .ok (some out)) : ∃ X0 X1 X2 X3 X4, inp = [X0, X1, X2, X3, X4] := by
  match inp with
  | [X0, X1, X2, X3, X4] => exact ⟨_, _, _, _, _, rfl⟩
  | [] => cases h
  | [_] => cases h
  | [_, _] => cases h
  | [_, _, _] => cases h
  | [_, _, _, _] => cases h
  | _ :: _ :: _ :: _ :: _ :: _ :: _ => cases h

/-- C72: whenever `cardano` returns `true` the polynomial is cubic and the three boxes contain a complete system of its roots, for
all coefficients in the given boxes. -/
theorem C72_roots (h : Cardano.cardano fuel inp = .ok (some out)) (hx : List.Forall₂ InBox inp x) :
    out.length = 3 ∧ ∃ x0 x1 x2 x3, x = [x0, x1, x2, x3] ∧ x3 ≠ 0 ∧ RootSystem x x3 out := by
  obtain ⟨X0, X1, X2, X3, rfl⟩ := Cardano.cardano_length h
  rcases hx with _ | ⟨h0, _ | ⟨h1, _ | ⟨h2, _ | ⟨h3, _ | _⟩⟩⟩⟩
  · rcases Cardano.cardano_ok h with ⟨-, h⟩ | ⟨-, R0, R1, R2, hb, h⟩
    · cases h
    cases h
    obtain ⟨hx3, r0, m0, r1, m1, r2, m2, hf⟩ := Cardano.body_mem hb h0 h1 h2 h3
    refine ⟨rfl, _, _, _, _, rfl, hx3, [r0, r1, r2], .cons m0 (.cons m1 (.cons m2 .nil)), fun z => ?_⟩
    have := hf z
    simp only [List.zipIdx_cons, List.zipIdx_nil, List.map_cons, List.map_nil, List.sum_cons, List.sum_nil, List.prod_cons, List.prod_nil]
    linear_combination this

/-- C72: in particular every root is in one of the three boxes. -/
theorem C72_all_roots (h : Cardano.cardano fuel inp = .ok (some out)) (hx : List.Forall₂ InBox inp x) {z : ℂ}
    (hz : (x.zipIdx.map fun c => c.1 * z ^ c.2).sum = 0) : ∃ Z ∈ out, InBox Z z := by
  obtain ⟨-, _, _, _, _, -, hl, hr⟩ := C72_roots h hx
  exact hr.zero hl hz

/-- C72: `false` is returned iff there are not four coefficients or the leading one may be zero. -/
theorem C72_false : Cardano.cardano fuel inp = .ok none ↔ inp.length ≠ 4 ∨ ∃ X, inp[3]? = some X ∧ InBox X 0 := by
  have key : ∀ X0 X1 X2 X3 : Cx, Cardano.cardano fuel [X0, X1, X2, X3] = .ok none ↔ InBox X3 0 := by
    intro X0 X1 X2 X3
    have e : Cardano.zeroInC X3 = true ↔ InBox X3 0 := by
      rw [Cardano.zeroInC, Bool.and_eq_true, C07_zero_in, C07_zero_in]; rfl
    constructor
    · intro h
      rcases Cardano.cardano_ok h with ⟨h, -⟩ | ⟨-, _, _, _, -, h⟩
      · exact e.1 h
      · cases h
    · intro h
      rw [Cardano.cardano, if_pos (e.2 h)]
  match inp with
  | [X0, X1, X2, X3] => rw [key]; simp
  | [] => simp [Cardano.cardano]
  | [_] => simp [Cardano.cardano]
  | [_, _] => simp [Cardano.cardano]
  | [_, _, _] => simp [Cardano.cardano]
  | _ :: _ :: _ :: _ :: _ :: _ => simp [Cardano.cardano]

/-- C73: whenever `ferrari` returns `true` the polynomial is of degree four and the four boxes contain a complete system of its
roots, for all coefficients in the given boxes. -/
theorem C73_roots (h : Cardano.ferrari fuel inp = .ok (some out)) (hx : List.Forall₂ InBox inp x) :
    out.length = 4 ∧ ∃ x0 x1 x2 x3 x4, x = [x0, x1, x2, x3, x4] ∧ x4 ≠ 0 ∧ RootSystem x x4 out := by
  obtain ⟨X0, X1, X2, X3, X4, rfl⟩ := Cardano.ferrari_length h
  rcases hx with _ | ⟨h0, _ | ⟨h1, _ | ⟨h2, _ | ⟨h3, _ | ⟨h4, _ | _⟩⟩⟩⟩⟩
  · obtain ⟨hx4, R0, R1, R2, R3, rfl, r0, m0, r1, m1, r2, m2, r3, m3, hf⟩ := Cardano.ferrari_mem h h0 h1 h2 h3 h4
    refine ⟨rfl, _, _, _, _, _, rfl, hx4, [r0, r1, r2, r3], .cons m0 (.cons m1 (.cons m2 (.cons m3 .nil))), fun z => ?_⟩
    have := hf z
    simp only [List.zipIdx_cons, List.zipIdx_nil, List.map_cons, List.map_nil, List.sum_cons, List.sum_nil, List.prod_cons, List.prod_nil]
    linear_combination this

/-- C73: in particular every root is in one of the four boxes. -/
theorem C73_all_roots (h : Cardano.ferrari fuel inp = .ok (some out)) (hx : List.Forall₂ InBox inp x) {z : ℂ}
    (hz : (x.zipIdx.map fun c => c.1 * z ^ c.2).sum = 0) : ∃ Z ∈ out, InBox Z z := by
  obtain ⟨-, _, _, _, _, _, -, hl, hr⟩ := C73_roots h hx
  exact hr.zero hl hz

/-! Concrete cases. -/

/-- an integer -/
def boxInt (k : ℤ) : Cx := ⟨point (lit k), point (lit 0)⟩
/-- `i` times an integer -/
def boxIm (k : ℤ) : Cx := ⟨point (lit 0), point (lit k)⟩

theorem boxInt_mem (k : ℤ) (z : ℂ) (h : |k| ≤ 2 ^ 31) (e : z = k) : InBox (boxInt k) z := by
  subst e
  refine ⟨?_, ?_⟩
  · rw [Complex.intCast_re]; exact point_mem (Is.lit_int (T := D) k h)
  · rw [Complex.intCast_im]; exact point_mem (T := D) is_zero

/-- `(z - 1)(z - 2)(z - 3)` -/
example : (∃ out, Cardano.cardano 60 [boxInt (-6), boxInt 11, boxInt (-6), boxInt 1] = .ok (some out)) ∧
    List.Forall₂ InBox [boxInt (-6), boxInt 11, boxInt (-6), boxInt 1] [(-6 : ℂ), 11, -6, 1] := by
  constructor
  · have : (match Cardano.cardano 60 [boxInt (-6), boxInt 11, boxInt (-6), boxInt 1] with | .ok (some _) => true | _ => false) = true := by
      decide +kernel
    split at this
    · exact ⟨_, by assumption⟩
    · cases this
  · refine .cons ?_ (.cons ?_ (.cons ?_ (.cons ?_ .nil))) <;> exact boxInt_mem _ _ (by decide) (by norm_num)

/-- `(z - 1)(z - 2)(z - 3)(z - 4)` -/
example : (∃ out, Cardano.ferrari 60 [boxInt 24, boxInt (-50), boxInt 35, boxInt (-10), boxInt 1] = .ok (some out)) ∧
    List.Forall₂ InBox [boxInt 24, boxInt (-50), boxInt 35, boxInt (-10), boxInt 1] [(24 : ℂ), -50, 35, -10, 1] := by
  constructor
  · have : (match Cardano.ferrari 60 [boxInt 24, boxInt (-50), boxInt 35, boxInt (-10), boxInt 1] with | .ok (some _) => true | _ => false) = true := by
      decide +kernel
    split at this
    · exact ⟨_, by assumption⟩
    · cases this
  · refine .cons ?_ (.cons ?_ (.cons ?_ (.cons ?_ (.cons ?_ .nil)))) <;> exact boxInt_mem _ _ (by decide) (by norm_num)

/-! `ferrari` tests `in(4).real()` and `in(3).imag()`. -/

/-- C73 is violated: the polynomial `i z⁴ + 1` has a leading coefficient which is not zero, but `false` is returned. -/
theorem C73_violated_refuses : ¬ InBox (boxIm 1) 0 ∧ Cardano.ferrari fuel [boxInt 1, boxInt 0, boxInt 0, boxInt 0, boxIm 1] = .ok none := by
  constructor
  · intro h
    have h : (0 : ℝ) ∈ (boxIm 1).im := h.2
    rw [← C07_zero_in] at h
    revert h; decide +kernel
  · rw [Cardano.ferrari, if_pos (by decide +kernel)]

/-- C73 is violated: the leading coefficient of `i z³ + 1` is zero, but instead of returning `false` an exception is thrown. -/
theorem C73_violated_throws : InBox (boxInt 0) 0 ∧
    Cardano.ferrari fuel [boxInt 1, boxInt 0, boxInt 0, boxIm 1, boxInt 0] = .error .domainError := by
  constructor
  · exact boxInt_mem 0 0 (by decide) (by norm_num)
  · rw [Cardano.ferrari, if_neg (by decide +kernel)]
    have : Cx.cDiv (boxIm 1) (boxInt 0) = .error .domainError := by decide +kernel
    rw [this]; rfl

end Kv
