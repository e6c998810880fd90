import Verif.Solver.Eig
import Verif.Complex.Lemmas
import Verif.Props.Psa
import Mathlib.LinearAlgebra.Eigenspace.Basic
import Mathlib.Algebra.Order.Field.Rat

/-!
# C71: eigenvalues of real matrices

`veig(A, v)` is meant to enclose all eigenvalues of `A`.  It does not.

Main theorems: `C71_violated_sign`, `C71_violated_sum`, `C71_violated_overflow`, `C71_silent`, `C71_no_return`, `C71_size_one`.
-/
namespace Kv
open Rop RopSem Kv.Interval Eig

/-- `A3` = (0 1 0; 1 0 1; 0 0 3), with the eigenvalues -1, 1 and 3 -/
def Eig.A3 : Mat 3 3 D := fun i j => Eig.at' [[lit 0, lit 1, lit 0], [lit 1, lit 0, lit 1], [lit 0, lit 0, lit 3]] i j

/-- what `eig` computes for `A3`; the last column is no approximate eigenvector -/
def Eig.V3 : Eig.LC :=
  [[.ofD (lit (1592262918131443 / 2251799813685248)), .ofD (lit (-6369051672525771 / 9007199254740992)), .ofD (lit (-8376525160469827 / 72057594037927936))],
   [.ofD (lit (-1592262918131443 / 2251799813685248)), .ofD (lit (-1592262918131443 / 2251799813685248)), .ofD (lit (-1570598467588093 / 4503599627370496))],
   [.ofD (lit 0), .ofD (lit 0), .ofD (lit (8376525160469833 / 9007199254740992))]]

/-- the inverse of `V3`, rounded to nearest -/
def Eig.R3 : Eig.LM :=
  [[lit (3184525836262887 / 4503599627370496), lit (-6369051672525773 / 9007199254740992), lit (-3184525836262885 / 18014398509481984)],
   [lit (-3184525836262887 / 4503599627370496), lit (-3184525836262887 / 4503599627370496), lit (-3184525836262885 / 9007199254740992)],
   [lit 0, lit 0, lit (2421339304198311 / 2251799813685248)]]

/-- the inverse of the real form of `V3` -/
def Eig.R6 : Mat 6 6 D := fun i j => if i.1 / 3 = j.1 / 3 then Eig.at' Eig.R3 (i.1 % 3) (j.1 % 3) else lit 0

theorem Eig.eig_A3 : Eig.eig 3 (List.ofFn fun i => List.ofFn (Eig.A3 i)) = .ok Eig.V3 := by decide +kernel

/-- the bounds of the result -/
def Eig.test3 (v : Vec 3 Cx) : Bool :=
  Rop.lt (v 0).re.sup (lit (-2)) && Rop.lt (v 1).re.sup (lit (-1 / 4)) && Rop.lt (lit (-1 / 2)) (v 1).re.inf && Rop.lt (lit 2) (v 2).re.inf

theorem Eig.test_A3 : Eig.test3 (Eig.verify (n := 3) (fun _ => some Eig.R6) Eig.A3 fun i j => Eig.atC Eig.V3 i j) = true := by
  decide +kernel

/-- the matrix of real numbers -/
noncomputable def Eig.realM {n : ℕ} (A : Mat n n D) : Matrix (Fin n) (Fin n) ℝ := fun i j => dbl (A i j)

theorem Eig.not_mem_of_lt {c : ℚ} {x : ℝ} {I : Interval D} (hc : Is (lit c : D) (c : ℝ)) (h : Rop.lt I.sup (lit c) = true) (hx : (c : ℝ) ≤ x) : x ∉ I := fun hm => by
  have h1 := ((RopSem.lt_iff _ _).1 h).2.2
  rw [hc.2] at h1
  exact absurd (EReal.coe_lt_coe_iff.1 (lt_of_le_of_lt (Interval.mem_iff.1 hm).2.2.2 h1)) (not_lt.2 hx)

theorem Eig.not_mem_of_gt {c : ℚ} {x : ℝ} {I : Interval D} (hc : Is (lit c : D) (c : ℝ)) (h : Rop.lt (lit c) I.inf = true) (hx : x ≤ c) : x ∉ I := fun hm => by
  have h1 := ((RopSem.lt_iff _ _).1 h).2.2
  rw [hc.2] at h1
  exact absurd (EReal.coe_lt_coe_iff.1 (lt_of_lt_of_le h1 (Interval.mem_iff.1 hm).2.2.1)) (not_lt.2 hx)

/-- `λ` is an eigenvalue: some vector is not zero and is multiplied by `λ` -/
def Eig.IsEigenvalue {n : ℕ} (A : Matrix (Fin n) (Fin n) ℝ) (l : ℝ) : Prop := ∃ x : Fin n → ℝ, x ≠ 0 ∧ A.mulVec x = l • x

/-- C71 fails: for the matrix (0 1 0; 1 0 1; 0 0 3) with an accurate inverse of the approximate eigenvectors, `veig` returns
three enclosures (about -2.3, -0.3 and 3) which do not contain the eigenvalues -1 and 1.  `eig` solves for the upper part of an
eigenvector with the wrong sign, and the verification adds the elements of a row instead of their absolute values. -/
theorem C71_violated_sign : ∃ v, veig 3 (fun _ => some Eig.R6) Eig.A3 = .ok v ∧
    ∀ l : ℝ, l = 1 ∨ l = -1 → Eig.IsEigenvalue (Eig.realM Eig.A3) l ∧ ∀ i, (l : ℂ) ∉ v i := by
  have h := Eig.test_A3
  unfold Eig.test3 at h
  simp only [Bool.and_eq_true] at h
  obtain ⟨⟨⟨h1, h2⟩, h3⟩, h4⟩ := h
  refine ⟨_, by unfold veig; rw [Eig.eig_A3]; rfl, fun l hl => ⟨?_, fun i hi => ?_⟩⟩
  · refine ⟨![1, l, 0], fun h => by simpa using congrFun h 0, ?_⟩
    have e0 : dbl (lit 0 : D) = 0 := is_dbl is_zero
    have e1 : dbl (lit 1 : D) = 1 := is_dbl is_one
    funext i
    fin_cases i
    · simp [Matrix.mulVec, dotProduct, Fin.sum_univ_three, Eig.realM, Eig.A3, Eig.at', Eig.get, e0, e1]
    · rcases hl with rfl | rfl <;> simp [Matrix.mulVec, dotProduct, Fin.sum_univ_three, Eig.realM, Eig.A3, Eig.at', Eig.get, e0, e1]
    · simp [Matrix.mulVec, dotProduct, Fin.sum_univ_three, Eig.realM, Eig.A3, Eig.at', Eig.get, e0]
  · have hi' : l ∈ (Eig.verify (n := 3) (fun _ => some Eig.R6) Eig.A3 (fun i j => Eig.atC Eig.V3 i j) i).re := hi.1
    fin_cases i
    · refine Eig.not_mem_of_lt (is_cst (-2) 0 (by norm_num) (by norm_num) (by norm_num) (by norm_num)) h1 ?_ hi'
      rcases hl with rfl | rfl <;> norm_num
    · rcases hl with rfl | rfl
      · exact Eig.not_mem_of_lt (is_cst (-1) (-2) (by norm_num) (by norm_num) (by norm_num) (by norm_num)) h2 (by norm_num) hi'
      · exact Eig.not_mem_of_gt (is_cst (-1) (-1) (by norm_num) (by norm_num) (by norm_num) (by norm_num)) h3 (by norm_num) hi'
    · refine Eig.not_mem_of_gt (is_cst 2 0 (by norm_num) (by norm_num) (by norm_num) (by norm_num)) h4 ?_ hi'
      rcases hl with rfl | rfl <;> norm_num

/-! ## the sum of the row -/

/-- the matrix (1 1; 2⁻¹¹⁰ 1), with the eigenvalues 1 ± 2⁻⁵⁵ -/
def Eig.A2 : Mat 2 2 D := fun i j => Eig.at' [[lit 1, lit 1], [lit (2 ^ (-110 : ℤ)), lit 1]] i j

/-- what `eig` computes: the unit matrix -/
theorem Eig.eig_A2 : Eig.eig 1 (List.ofFn fun i => List.ofFn (Eig.A2 i)) = .ok [[.ofD (lit 1), .ofD (lit 0)], [.ofD (lit 0), .ofD (lit 1)]] := by
  decide +kernel

theorem Eig.test_A2 : (let v := Eig.verify (n := 2) (fun _ => some LA.eye) Eig.A2 fun i j => Eig.atC [[.ofD (lit 1), .ofD (lit 0)], [.ofD (lit 0), .ofD (lit 1)]] i j
    Rop.lt (lit (3 / 2)) (v 0).re.inf && Rop.le (lit 1) (v 1).re.inf) = true := by
  decide +kernel

/-- C71 fails also where the approximate eigenvectors and their inverse are exactly the unit matrix: for (1 1; 2⁻¹¹⁰ 1) the
enclosures are [2, 2] and [1, 1 + 2⁻⁵²], the eigenvalue 1 - 2⁻⁵⁵ is in none of them. -/
theorem C71_violated_sum : ∃ v, veig 1 (fun _ => some LA.eye) Eig.A2 = .ok v ∧
    Eig.IsEigenvalue (Eig.realM Eig.A2) (1 - 2 ^ (-55 : ℤ)) ∧ ∀ i, ((1 - 2 ^ (-55 : ℤ) : ℝ) : ℂ) ∉ v i := by
  have h := Eig.test_A2
  dsimp only at h
  simp only [Bool.and_eq_true] at h
  refine ⟨_, by unfold veig; rw [Eig.eig_A2]; rfl, ?_, fun i hi => ?_⟩
  · refine ⟨![1, - 2 ^ (-55 : ℤ)], fun h => by simpa using congrFun h 0, ?_⟩
    have e1 : dbl (lit 1 : D) = 1 := is_dbl is_one
    have e2 : dbl (lit (2 ^ (-110 : ℤ)) : D) = 2 ^ (-110 : ℤ) := by
      rw [is_dbl (is_cst (q := 2 ^ (-110 : ℤ)) 1 (-110) (by norm_num) (by norm_num) (by norm_num) (by norm_num))]; norm_num
    funext i
    fin_cases i
    · simp [Matrix.mulVec, dotProduct, Fin.sum_univ_two, Eig.realM, Eig.A2, Eig.at', Eig.get, e1]; ring
    · have r0 : Eig.realM Eig.A2 1 0 = 2 ^ (-110 : ℤ) := e2
      have r1 : Eig.realM Eig.A2 1 1 = 1 := e1
      simp only [Matrix.mulVec, dotProduct, Fin.sum_univ_two, Fin.mk_one, r0, r1]
      norm_num
  · have hi' : (1 - 2 ^ (-55 : ℤ) : ℝ) ∈ (Eig.verify (n := 2) (fun _ => some LA.eye) Eig.A2 (fun i j => Eig.atC [[.ofD (lit 1), .ofD (lit 0)], [.ofD (lit 0), .ofD (lit 1)]] i j) i).re := by
      have := hi.1
      rwa [Complex.ofReal_re] at this
    fin_cases i
    · exact Eig.not_mem_of_gt (is_cst 3 (-1) (by norm_num) (by norm_num) (by norm_num) (by norm_num)) h.1 (by norm_num) hi'
    · have h2 := ((RopSem.le_iff _ _).1 h.2).2.2
      rw [is_one.2] at h2
      have h3 := EReal.coe_le_coe_iff.1 (h2.trans (Interval.mem_iff.1 hi').2.2.1)
      norm_num at h3

/-! ## the result of `vleq` is ignored -/

theorem Eig.part_zero {n : ℕ} (o : Fin n → Fin (n + n)) (i : Fin n) : Eig.part (fun _ _ => Interval.point (lit 0)) o i = Interval.point (lit 0) := by
  have e1 : Interval.mid (Interval.point (lit 0 : D)) = lit 0 := by decide +kernel
  have e2 : Interval.sub (Interval.point (lit 0 : D)) (Interval.point (lit 0)) = Interval.point (lit 0) := by decide +kernel
  have e3 : Interval.add (Interval.point (lit 0 : D)) (Interval.point (lit 0)) = Interval.point (lit 0) := by decide +kernel
  have e4 : ∀ l : List (Interval D), (∀ x ∈ l, x = Interval.point (lit 0)) → l.foldl Interval.add (Interval.point (lit 0)) = Interval.point (lit 0) := fun l => by
    induction l with
    | nil => intro _; rfl
    | cons a l ih =>
      intro h
      rw [List.foldl_cons, h a (by simp), e3]
      exact ih fun x hx => h x (by simp [hx])
  unfold Eig.part
  dsimp only
  rw [e1, e2, e4, e3]
  intro x hx
  rw [List.mem_ofFn] at hx
  obtain ⟨j, rfl⟩ := hx
  split_ifs <;> rfl

/-- C71: if the linear system cannot be verified (the approximate eigenvectors are too ill-conditioned, or exactly singular),
then nothing is reported and all enclosures are exactly 0, whatever the matrix is. -/
theorem C71_silent {n : ℕ} {inv : Inverter (n + n)} {A : Mat n n D} {V : Mat n n Eig.Cd}
    (h : ∀ C, vleq inv (Eig.blockA fun i j => ⟨Interval.point (V i j).re, Interval.point (V i j).im⟩) (m := n) C none = none) (i : Fin n) :
    Eig.verify inv A V i = ⟨Interval.point (lit 0), Interval.point (lit 0)⟩ := by
  unfold Eig.verify
  dsimp only
  rw [h]
  simp only [Option.getD_none, Eig.part_zero]

/-- the matrix (1 2⁵¹²; 0 2) -/
def Eig.B2 : Mat 2 2 D := fun i j => Eig.at' [[lit 1, lit (2 ^ 512)], [lit 0, lit 2]] i j

/-- the second eigenvector is divided by its norm, which overflows: a zero column -/
theorem Eig.eig_B2 : Eig.eig 1 (List.ofFn fun i => List.ofFn (Eig.B2 i)) = .ok [[.ofD (lit 1), .ofD (lit 0)], [.ofD (lit 0), .ofD (lit 0)]] := by
  decide +kernel

/-- C71 fails for (1 2⁵¹²; 0 2), whose eigenvalues are 1 and 2: if matrices with a zero column cannot be inverted, both enclosures
are exactly 0. -/
theorem C71_violated_overflow {inv : Inverter 4} (h : ∀ M : Mat 4 4 D, (∃ j, ∀ i, M i j = lit 0) → inv M = none) :
    ∃ v, veig 1 inv Eig.B2 = .ok v ∧ ∀ l : ℝ, l = 1 ∨ l = 2 → Eig.IsEigenvalue (Eig.realM Eig.B2) l ∧ ∀ i, (l : ℂ) ∉ v i := by
  refine ⟨_, by unfold veig; rw [Eig.eig_B2]; rfl, fun l hl => ⟨?_, fun i hi => ?_⟩⟩
  · have e0 : dbl (lit 0 : D) = 0 := is_dbl is_zero
    have e1 : dbl (lit 1 : D) = 1 := is_dbl is_one
    have e2 : dbl (lit 2 : D) = 2 := is_dbl is_two
    have e3 : dbl (lit (2 ^ 512) : D) = 2 ^ 512 := by
      rw [is_dbl (is_cst (q := 2 ^ 512) 1 512 (by norm_num) (by norm_num) (by norm_num) (by norm_num))]; push_cast; rfl
    rcases hl with rfl | rfl
    · refine ⟨![1, 0], fun h => by simpa using congrFun h 0, ?_⟩
      funext i
      fin_cases i <;> simp [Matrix.mulVec, dotProduct, Fin.sum_univ_two, Eig.realM, Eig.B2, Eig.at', Eig.get, e0, e1]
    · refine ⟨![2 ^ 512, 1], fun h => by simpa using congrFun h 1, ?_⟩
      funext i
      fin_cases i
      · simp [Matrix.mulVec, dotProduct, Fin.sum_univ_two, Eig.realM, Eig.B2, Eig.at', Eig.get, e1, e3]; ring
      · simp [Matrix.mulVec, dotProduct, Fin.sum_univ_two, Eig.realM, Eig.B2, Eig.at', Eig.get, e0, e2]
  · have hz := C71_silent (inv := inv) (A := Eig.B2) (V := fun i j => Eig.atC [[.ofD (lit 1), .ofD (lit 0)], [.ofD (lit 0), .ofD (lit 0)]] i j) (fun C => ?_) i
    · rw [hz] at hi
      have := (mem_pt is_zero).1 hi.1
      rw [Complex.ofReal_re] at this
      rcases hl with rfl | rfl <;> norm_num at this
    · unfold vleq
      have : inv (LA.midM (Eig.blockA fun i j : Fin 2 => (⟨Interval.point (Eig.atC [[.ofD (lit 1), .ofD (lit 0)], [.ofD (lit 0), .ofD (lit 0)]] i j).re,
          Interval.point (Eig.atC [[.ofD (lit 1), .ofD (lit 0)], [.ofD (lit 0), .ofD (lit 0)]] i j).im⟩ : Cx))) = none := by
        refine h _ ⟨1, fun i => ?_⟩
        fin_cases i <;> decide +kernel
      rw [this]

/-! ## no return -/

/-- the cyclic permutation (0 0 1; 1 0 0; 0 1 0) -/
def Eig.P3 : Mat 3 3 D := fun i j => Eig.at' [[lit 0, lit 0, lit 1], [lit 1, lit 0, lit 0], [lit 0, lit 1, lit 0]] i j

theorem Eig.francis_P3 (fuel : ℕ) (Q : Eig.LM) : Eig.francisQR 3 fuel 3 Q [[lit 0, lit 0, lit 1], [lit 1, lit 0, lit 0], [lit 0, lit 1, lit 0]] = .error .outOfFuel := by
  induction fuel generalizing Q with
  | zero => rfl
  | succ fuel ih =>
    have h1 : (Eig.sweep 3 3 [[lit 0, lit 0, lit 1], [lit 1, lit 0, lit 0], [lit 0, lit 1, lit 0]]).1 = [[lit 0, lit 0, lit 1], [lit 1, lit 0, lit 0], [lit 0, lit 1, lit 0]] := by decide +kernel
    have h2 : Eig.deflate 3 [[lit 0, lit 0, lit 1], [lit 1, lit 0, lit 0], [lit 0, lit 1, lit 0]] = ([[lit 0, lit 0, lit 1], [lit 1, lit 0, lit 0], [lit 0, lit 1, lit 0]], 3) := by decide +kernel
    unfold Eig.francisQR
    rw [if_pos (by norm_num)]
    simp only [h1, h2]
    exact ih _

/-- C71: `veig` never returns for the cyclic permutation of three coordinates (the eigenvalues are the third roots of unity):
the matrix is a fixed point of the QR steps, which have no exceptional shifts and no limit of their number. -/
theorem C71_no_return (fuel : ℕ) (inv : Inverter 6) : veig fuel inv Eig.P3 = .error .outOfFuel := by
  have h1 : (Eig.hess (List.ofFn fun i => List.ofFn (Eig.P3 i))).2 = [[lit 0, lit 0, lit 1], [lit 1, lit 0, lit 0], [lit 0, lit 1, lit 0]] := by decide +kernel
  have h2 : Eig.eig fuel (List.ofFn fun i => List.ofFn (Eig.P3 i)) = .error .outOfFuel := by
    unfold Eig.eig
    dsimp only
    rw [h1]
    rw [show (List.ofFn fun i => List.ofFn (Eig.P3 i)).length = 3 from rfl, Eig.francis_P3]; rfl
  unfold veig
  rw [h2]; rfl

/-- C71: for every 1×1 matrix an uninitialised variable is used as an index -/
theorem C71_size_one (fuel : ℕ) (inv : Inverter 2) (A : Mat 1 1 D) : veig (fuel + 1) inv A = .error .undefined := rfl

/-- A matrix for which the result is right: (2 1; 1 2), eigenvalues 1 and 3; only the enclosures of the approximate eigenvectors are
run here. -/
example : (Eig.eig 1 [[lit 2, lit 1], [lit 1, lit 2]]).isOk = true := by decide +kernel

end Kv
