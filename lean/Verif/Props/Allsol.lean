import Verif.Solver.AllsolKeep
import Verif.Props.AllsolSimple

/-!
# C31, C62: finding all zeros with trimming (`allsol`)

`f` is a real function with enclosures computed by `P` (`Prog.Sound`), `inv` an arbitrary approximate inverse.
`allsolList fuel giveup inv P targets rest0 = .ok (sols, rest)`: the search ends; `sols` lists the pairs of a returned box
and the box in which it was found to contain a unique zero; `rest` is the list of boxes given up (with the boxes `rest0` put there by the
caller).  The initial boxes may be unbounded.

C31 is false: trimming may declare a box with a regular zero empty (`C31_violated`), and as in `allsol_simple` an overflowing inverse loses zeros
(`C31_overflow_violated`).  It holds for runs where neither happens (`C31_partial`).
-/

namespace Kv
open RopSem Kv.Interval
open Rop (lit)
open LA

variable {n : ℕ} {inv : Inverter n} {P : Prog n} {dom : (Fin n → ℝ) → Prop} {f : (Fin n → ℝ) → Fin n → ℝ} {fuel : ℕ} {giveup : D}
  {targets rest0 rest : List (Vec n (Interval D))} {sols : List (Vec n (Interval D) × Vec n (Interval D))}

/-- the boxes examined by the search, with the boxes used to refine a solution found there -/
def allsolRun (fuel : ℕ) (giveup : D) (inv : Inverter n) (P : Prog n) (targets rest0 : List (Vec n (Interval D))) :
    List (Vec n (Interval D) × List (Vec n (Interval D))) := Allsol.trace fuel giveup inv P fuel ⟨targets, [], rest0⟩

/-- the approximate inverse of the derivative on `B` has no infinite entry -/
def InvFinite (inv : Inverter n) (P : Prog n) (B : Vec n (Interval D)) : Prop :=
  ∀ fi J R, P.FD B = .ok (fi, J) → inv (midM J) = some R → ∀ i k, R i k ≠ dPinf ∧ R i k ≠ dNinf

/-- a bounded box on which `f` may vanish has bounds and widths up to `2^1023` -/
def BoundsModerate (P : Prog n) (B : Vec n (Interval D)) : Prop :=
  ∀ fi, (∀ i, FinD (B i).inf ∧ FinD (B i).sup) → P.F B = .ok fi → (∀ i, (0 : ℝ) ∈ fi i) →
    ∀ i, |dbl (B i).inf| ≤ 2 ^ 1023 ∧ |dbl (B i).sup| ≤ 2 ^ 1023 ∧ dbl (B i).sup - dbl (B i).inf ≤ 2 ^ 1023

/-- The numerators used in trimming the bounded box `B` do not have zero as a bound, where the
denominator (an entry of the derivative) contains zero and other numbers. -/
def TrimRegular (P : Prog n) (B : Vec n (Interval D)) : Prop :=
  ∀ fi J fc, (∀ i, FinD (B i).inf ∧ FinD (B i).sup) → P.FD B = .ok (fi, J) → P.F (pointV (midV B)) = .ok fc → ∀ i j,
    let A := Allsol.numer fc J B (pointV (midV B)) i j
    (0 : ℝ) ∈ J i j → (∃ b : ℝ, b ∈ J i j ∧ b ≠ 0) → (0 : ℝ) ∈ A → (∃ a : ℝ, a ∈ A ∧ a < 0) ∧ ∃ a : ℝ, a ∈ A ∧ 0 < a

/-- the boxes are not empty -/
def AllNonempty (l : List (Vec n (Interval D))) : Prop := ∀ B ∈ l, ∀ i, ∃ x : ℝ, x ∈ B i

theorem mod_of_moderate {B : Vec n (Interval D)} (hB : ∀ i, (B i).Nonempty) (hm : BoundsModerate P B) : Allsol.Mod P B := fun fi hi hf hz =>
  hm fi (Allsol.hasInfV_false hB hi) hf fun i => (C07_zero_in _).1 (allV_iff.1 hz i)

theorem fit_of_regular {B : Vec n (Interval D)} (hB : ∀ i, (B i).Nonempty) (h : InvFinite inv P B ∧ TrimRegular P B) : Allsol.Fit inv P B := by
  obtain ⟨h1, h2⟩ := h
  refine ⟨h1, fun fi J fc hi hJ hfc i j => ?_⟩
  have hb := Allsol.hasInfV_false hB hi
  have em : Allsol.midInfV B = midV B := funext fun i => Allsol.midInf_bd (hb i)
  rw [em] at hfc ⊢
  exact h2 fi J fc hb hJ hfc i j

theorem allsol_aux (hP : P.Sound dom f) (hI : AllNonempty targets) (hR : AllNonempty rest0)
    (hrun : ∀ T ∈ allsolRun fuel giveup inv P targets rest0, BoundsModerate P T.1 ∧ ∀ B ∈ T.2, InvFinite inv P B)
    (h : allsolList fuel giveup inv P targets rest0 = .ok (sols, rest)) :
    ((∀ q ∈ sols, AllsolSimple.Sol f q) ∧ AllsolSimple.Disj sols) ∧
    ((∀ T ∈ allsolRun fuel giveup inv P targets rest0, InvFinite inv P T.1 ∧ TrimRegular P T.1) → ∀ z, dom z → f z = 0 →
      ((∃ B ∈ targets, InB B z) ∨ ∃ B ∈ rest0, InB B z) → (∃ q ∈ sols, InB q.1 z) ∨ ∃ B ∈ rest, InB B z) := by
  obtain ⟨t, ht, h⟩ := bind_ok.1 h
  cases h
  have key := Allsol.loop_ok (fuel := fuel) (giveup := giveup) (inv := inv) (s := ⟨targets, [], rest0⟩) hP (k := fuel)
    ⟨hI, hR, fun q hq => (by cases hq), List.Pairwise.nil⟩ (fun T hT hne => ⟨mod_of_moderate hne (hrun T hT).1, (hrun T hT).2⟩) ht
  refine ⟨⟨key.1.sol, key.1.disj⟩, fun hF z hd h0 hz => key.2 (fun T hT hne => fit_of_regular hne (hF T hT)) z hd h0 ?_⟩
  exact hz.imp id .inr

/-- C31 for runs in which no approximate inverse overflows, no numerator in a trimming step has zero as a bound (while the denominator
contains zero), and boxes are moderate: every zero of `f` in one of the initial boxes lies in a returned box or in a box of the list `rest`.
Missing: the other runs, where it is false (`C31_violated`, `C31_overflow_violated`). -/
theorem C31_partial (hP : P.Sound dom f) (hI : AllNonempty targets) (hR : AllNonempty rest0)
    (hrun : ∀ T ∈ allsolRun fuel giveup inv P targets rest0, BoundsModerate P T.1 ∧ InvFinite inv P T.1 ∧ TrimRegular P T.1 ∧ ∀ B ∈ T.2, InvFinite inv P B)
    (h : allsolList fuel giveup inv P targets rest0 = .ok (sols, rest)) (z : Fin n → ℝ) (hz : ∃ B ∈ targets, ∀ i, z i ∈ B i) (hd : dom z) (h0 : f z = 0) :
    (∃ q ∈ sols, ∀ i, z i ∈ q.1 i) ∨ ∃ B ∈ rest, ∀ i, z i ∈ B i :=
  (allsol_aux hP hI hR (fun T hT => ⟨(hrun T hT).1, (hrun T hT).2.2.2⟩) h).2 (fun T hT => ⟨(hrun T hT).2.1, (hrun T hT).2.2.1⟩) z hd h0 (.inl hz)

/-- C31, the boxes put into `rest` by the caller: their zeros are kept as well. -/
theorem C31_rest_partial (hP : P.Sound dom f) (hI : AllNonempty targets) (hR : AllNonempty rest0)
    (hrun : ∀ T ∈ allsolRun fuel giveup inv P targets rest0, BoundsModerate P T.1 ∧ InvFinite inv P T.1 ∧ TrimRegular P T.1 ∧ ∀ B ∈ T.2, InvFinite inv P B)
    (h : allsolList fuel giveup inv P targets rest0 = .ok (sols, rest)) (z : Fin n → ℝ) (hz : ∃ B ∈ rest0, ∀ i, z i ∈ B i) (hd : dom z) (h0 : f z = 0) :
    (∃ q ∈ sols, ∀ i, z i ∈ q.1 i) ∨ ∃ B ∈ rest, ∀ i, z i ∈ B i :=
  (allsol_aux hP hI hR (fun T hT => ⟨(hrun T hT).1, (hrun T hT).2.2.2⟩) h).2 (fun T hT => ⟨(hrun T hT).2.1, (hrun T hT).2.2.1⟩) z hd h0 (.inr hz)

/-- C62: each box returned by `allsol` contains a zero of `f`, which is the only zero in the box where it was found; the returned boxes
are disjoint, so they contain different zeros.  (For runs with moderate boxes in which no approximate inverse used
for refinement overflows; nothing is assumed about the inverse used in the existence test, or about trimming.) -/
theorem C62_partial (hP : P.Sound dom f) (hI : AllNonempty targets) (hR : AllNonempty rest0)
    (hrun : ∀ T ∈ allsolRun fuel giveup inv P targets rest0, BoundsModerate P T.1 ∧ ∀ B ∈ T.2, InvFinite inv P B)
    (h : allsolList fuel giveup inv P targets rest0 = .ok (sols, rest)) :
    (∀ q ∈ sols, (∀ x : Fin n → ℝ, (∀ i, x i ∈ q.1 i) → ∀ i, x i ∈ q.2 i) ∧
      ∃ z, (∀ i, z i ∈ q.1 i) ∧ f z = 0 ∧ ∀ y, (∀ i, y i ∈ q.2 i) → f y = 0 → y = z) ∧
    sols.Pairwise fun q q' => ∀ x : Fin n → ℝ, ¬ ((∀ i, x i ∈ q.1 i) ∧ ∀ i, x i ∈ q'.1 i) :=
  (allsol_aux hP hI hR hrun h).1

/-! Concrete case: `x² - 2` on `[-3/2, 3/2]`. -/

/-- the conditions on a run, decided for one variable -/
def runOk1 (P : Prog 1) (T : Vec 1 (Interval D) × List (Vec 1 (Interval D))) : Bool :=
  noOverflow1 P T.1 && T.2.all (noOverflow1 P) && Rop.le (lit (-1000)) (T.1 0).inf && Rop.le (T.1 0).inf (lit 1000) && Rop.le (lit (-1000)) (T.1 0).sup && Rop.le (T.1 0).sup (lit 1000) &&
  match P.FD T.1, P.F (pointV (midV T.1)) with
  | .ok (_, J), .ok fc =>
    let A := Allsol.numer fc J T.1 (pointV (midV T.1)) 0 0
    !Interval.zeroIn (J 0 0) || !Interval.zeroIn A || (Rop.lt A.inf (lit 0) && Rop.lt (lit 0) A.sup)
  | _, _ => true

theorem lit_dbl {q : ℚ} (h : binary64.Rep q) : FinD (lit q : D) ∧ dbl (lit q : D) = q := by
  have e : (lit q : D) = Hw.fin q h := Hw.lit_eq h
  rw [e]
  exact ⟨finD_fin, Allsol.dbl_fin h⟩

theorem runOk1_iff {P : Prog 1} {T : Vec 1 (Interval D) × List (Vec 1 (Interval D))} (h : runOk1 P T = true) :
    BoundsModerate P T.1 ∧ InvFinite inv1 P T.1 ∧ TrimRegular P T.1 ∧ ∀ B ∈ T.2, InvFinite inv1 P B := by
  unfold runOk1 at h
  simp only [Bool.and_eq_true, List.all_eq_true] at h
  obtain ⟨⟨⟨⟨⟨⟨h1, h2⟩, l1⟩, l2⟩, u1⟩, u2⟩, h3⟩ := h
  refine ⟨fun fi hfin _ _ i => ?_, noOverflow1_iff h1, fun fi J fc _ hJ hfc i j => ?_, fun B hB => noOverflow1_iff (h2 B hB)⟩
  · rw [Subsingleton.elim i 0]
    have k1 : dbl (lit (-1000) : D) = -1000 := (lit_dbl (q := -1000) (by decide +kernel)).2.trans (by norm_num)
    have k2 : dbl (lit 1000 : D) = 1000 := (lit_dbl (q := 1000) (by decide +kernel)).2.trans (by norm_num)
    have g1 : FinD (lit (-1000) : D) := isFinD_iff.1 (by decide +kernel)
    have g2 : FinD (lit 1000 : D) := isFinD_iff.1 (by decide +kernel)
    have le' : ∀ {a b : D}, FinD a → FinD b → Rop.le a b = true → dbl a ≤ dbl b := by
      intro a b ha hb h
      rw [le_iff, (is_dbl' ha).2, (is_dbl' hb).2, EReal.coe_le_coe_iff] at h
      exact h.2.2
    obtain ⟨f1, f2⟩ := hfin 0
    have l1 := le' g1 f1 l1
    have l2 := le' f1 g2 l2
    have u1 := le' g1 f2 u1
    have u2 := le' f2 g2 u2
    rw [k1] at l1 u1
    rw [k2] at l2 u2
    have hb : (2048 : ℝ) ≤ 2 ^ 1023 := by
      rw [show (2048 : ℝ) = 2 ^ 11 by norm_num]
      exact pow_le_pow_right₀ (by norm_num) (by norm_num)
    generalize (2 : ℝ) ^ 1023 = w at *
    exact ⟨abs_le.2 ⟨by linarith, by linarith⟩, abs_le.2 ⟨by linarith, by linarith⟩, by linarith⟩
  · rw [Subsingleton.elim i 0, Subsingleton.elim j 0]
    rw [hJ, hfc] at h3
    intro A hJ0 _ hA0
    have z1 := (C07_zero_in _).2 hJ0
    have z2 := (C07_zero_in _).2 hA0
    simp only [z1, z2, Bool.not_true, Bool.false_or, Bool.and_eq_true, A] at h3
    obtain ⟨s1, s2⟩ := h3
    rw [lt_zero_right] at s1
    rw [lt_zero_left] at s2
    obtain ⟨a, a1, a2⟩ := EReal.lt_iff_exists_real_btwn.1 s1.2
    obtain ⟨b, b1, b2⟩ := EReal.lt_iff_exists_real_btwn.1 s2.2
    have a2' : a < 0 := by exact_mod_cast a2
    have b1' : 0 < b := by exact_mod_cast b1
    exact ⟨⟨a, ⟨⟨hA0.1.1, a1.le⟩, hA0.2.1, le_trans (by exact_mod_cast a2.le) hA0.2.2⟩, a2'⟩,
      ⟨b, ⟨⟨hA0.1.1, hA0.1.2.trans (by exact_mod_cast b1.le)⟩, hA0.2.1, b2.le⟩, b1'⟩⟩

theorem sqP_allsol_ok : (allsolRun 50 (lit 0) inv1 sqP [box32] []).all (runOk1 sqP) = true := by decide +kernel

theorem sqP_allsol : (match allsol 50 (lit 0) inv1 sqP box32 [] with
    | .ok (l, []) => decide (l.length = 2)
    | _ => false) = true := by decide +kernel

/-- the hypotheses of the theorems are met; conclusion: there are two disjoint boxes, each with a zero of `x² - 2`, which contain all zeros between
-3/2 and 3/2 -/
example : ∃ l : List (Vec 1 (Interval D) × Vec 1 (Interval D)), l.length = 2 ∧
    (l.Pairwise fun q q' => ∀ x : Fin 1 → ℝ, ¬ ((∀ i, x i ∈ q.1 i) ∧ ∀ i, x i ∈ q'.1 i)) ∧
    (∀ q ∈ l, ∃ z : Fin 1 → ℝ, (∀ i, z i ∈ q.1 i) ∧ (fun i => (sqE i).real (fun _ => 0) z) = 0) ∧
    ∀ z : Fin 1 → ℝ, (∀ i, z i ∈ box32 i) → (fun i => (sqE i).real (fun _ => 0) z) = 0 → ∃ q ∈ l, ∀ i, z i ∈ q.1 i := by
  have h := sqP_allsol
  split at h
  · rename_i l heq
    have hok := List.all_eq_true.1 sqP_allsol_ok
    have hS := exprProg_sound (fuel := 0) (p := fun _ => Interval.point (lit 0)) (sqE_hyp fun _ => 0).1 (sqE_hyp fun _ => 0).2 fun _ => point_mem is_zero
    have hne : AllNonempty [box32] := fun B hB i => by rw [List.mem_singleton] at hB; rw [hB]; exact (box32_fin i).1
    obtain ⟨c1, c2⟩ := C62_partial hS hne (rest0 := []) (fun B hB => by cases hB) (fun T hT => ⟨(runOk1_iff (hok T hT)).1, (runOk1_iff (hok T hT)).2.2.2⟩) heq
    refine ⟨l, of_decide_eq_true h, c2, fun q hq => ?_, fun z hz h0 => ?_⟩
    · obtain ⟨-, z, z1, z2, -⟩ := c1 q hq
      exact ⟨z, z1, z2⟩
    · rcases C31_partial hS hne (rest0 := []) (fun B hB => by cases hB) (fun T hT => runOk1_iff (hok T hT)) heq z ⟨_, by simp, hz⟩
        (fun i => by simp [sqE, Expr.Dom, Bin.Dom]) h0 with hq | ⟨B, hB, -⟩
      · exact hq
      · cases hB
  · cases h

/-! Violations. -/

/-- `f(x, y) = (x - 1 + y/8, x³ - x)` -/
def lostE : Fin 2 → Expr 2 := ![.bin .add (.binC .sub (.var 0) (lit 1)) (.binC .mul (.var 1) (lit (1 / 8))),
  .bin .sub (.bin .mul (.bin .mul (.var 0) (.var 0)) (.var 0)) (.var 0)]

/-- the box `[-2, 2]²` -/
def box22 : Vec 2 (Interval D) := fun _ => ⟨lit (-2), lit 2⟩

/-- inverse of a 2×2 matrix in floating point -/
def adj (L : Mat 2 2 D) : Option (Mat 2 2 D) :=
  let det := Rop.sub (Rop.mul (L 0 0) (L 1 1)) (Rop.mul (L 0 1) (L 1 0))
  if Rop.eq det (lit 0) then none else some fun i j => Rop.div (if i = j then L (1 - i) (1 - i) else Rop.neg (L i j)) det

theorem lostE_run : (match allsol 3 (lit 0) adj (exprProg 0 (fun _ => Interval.point (lit 0)) lostE) box22 [] with
    | .ok ([], []) => true
    | _ => false) = true := by decide +kernel

/-- C31 is violated: the zero `(1, 0)` of `(x - 1 + y/8, x³ - x)` in `[-2,2]²`, where the derivative is regular, is lost without notice; no overflow
is involved. -/
theorem C31_violated : ∃ (P : Prog 2) (dom : (Fin 2 → ℝ) → Prop) (f : (Fin 2 → ℝ) → Fin 2 → ℝ) (I : Vec 2 (Interval D)) (z : Fin 2 → ℝ) (fuel : ℕ),
    P.Sound dom f ∧ (f = fun x => ![x 0 - 1 + x 1 * (1 / 8), x 0 * x 0 * x 0 - x 0]) ∧ (∀ i, FinWidth (I i)) ∧ (∀ i, z i ∈ I i) ∧ dom z ∧ f z = 0 ∧
    allsol fuel (lit 0) adj P I [] = .ok ([], []) := by
  have h := lostE_run
  split at h
  · rename_i heq
    have r1 : binary64.Rep 1 := Format.rep_one
    have d1 := lit_dbl r1
    have d8 := lit_dbl (q := 1 / 8) (by decide +kernel)
    have hb : ∀ i, Bd (box22 i) := fun i => ⟨isFinD_iff.1 (by decide +kernel : isFinD (lit (-2) : D) = true), isFinD_iff.1 (by decide +kernel : isFinD (lit 2 : D) = true)⟩
    have hm : ∀ x : ℝ, -2 ≤ x → x ≤ 2 → ∀ i, x ∈ box22 i := fun x h1 h2 i => (mem_of_bd (hb i)).2 ⟨by
      show dbl (lit (-2) : D) ≤ x
      rw [(lit_dbl (q := -2) (by decide +kernel)).2]; push_cast; exact h1, by
      show x ≤ dbl (lit 2 : D)
      rw [(lit_dbl (q := 2) (by decide +kernel)).2]; push_cast; exact h2⟩
    have hf : (fun (x : Fin 2 → ℝ) i => (lostE i).real (fun _ => 0) x) = fun x => ![x 0 - 1 + x 1 * (1 / 8), x 0 * x 0 * x 0 - x 0] := by
      funext x i
      fin_cases i
      · show x 0 - dbl (lit 1 : D) + x 1 * dbl (lit (1 / 8) : D) = x 0 - 1 + x 1 * (1 / 8)
        rw [d1.2, d8.2]; norm_num
      · rfl
    refine ⟨_, _, _, box22, ![1, 0], 3, exprProg_sound (fuel := 0) (p := fun _ => Interval.point (lit 0)) (ρ := fun _ => 0) (e := lostE) ?_ ?_
      fun _ => point_mem is_zero, hf, fun i => ⟨⟨0, hm 0 (by norm_num) (by norm_num) i⟩, isFinD_iff.1 (by decide +kernel : isFinD (Interval.width (box22 0)) = true)⟩, ?_, ?_, ?_, heq⟩
    · intro i
      fin_cases i
      · exact ⟨⟨trivial, is_dbl' d1.1⟩, trivial, is_dbl' d8.1⟩
      · exact ⟨⟨⟨trivial, trivial⟩, trivial⟩, trivial⟩
    · intro i
      fin_cases i <;> simp [lostE, Expr.ConstDom]
    · intro i
      fin_cases i
      · exact hm 1 (by norm_num) (by norm_num) 0
      · exact hm 0 (by norm_num) (by norm_num) 1
    · intro i
      fin_cases i <;> simp [lostE, Expr.Dom, Bin.Dom]
    · refine (congrFun hf ![1, 0]).trans ?_
      funext i
      fin_cases i <;> simp
  · cases h

theorem tinyE_allsol : (match allsol 50 (lit 0) inv1 (exprProg 0 (fun _ => Interval.point (lit 0)) tinyE) box11 [] with
    | .ok ([], []) => true
    | _ => false) = true := by
  decide +kernel

/-- C31 is violated also if the approximate inverse overflows: `f(x) = 2⁻¹⁰⁶⁰ x` on `[-1, 1]`. -/
theorem C31_overflow_violated : ∃ (P : Prog 1) (dom : (Fin 1 → ℝ) → Prop) (f : (Fin 1 → ℝ) → Fin 1 → ℝ) (I : Vec 1 (Interval D)) (z : Fin 1 → ℝ) (fuel : ℕ),
    P.Sound dom f ∧ (∀ i, FinWidth (I i)) ∧ (∀ i, z i ∈ I i) ∧ dom z ∧ f z = 0 ∧ allsol fuel (lit 0) inv1 P I [] = .ok ([], []) := by
  have h := tinyE_allsol
  split at h
  · rename_i heq
    have h0 : (0 : ℝ) ∈ box11 0 := (C07_zero_in _).1 (by decide +kernel)
    refine ⟨_, _, _, box11, fun _ => 0, 50, exprProg_sound (fuel := 0) (p := fun _ => Interval.point (lit 0)) (ρ := fun _ => 0) (e := tinyE) ?_ ?_
      fun _ => point_mem is_zero, fun i => ⟨⟨0, h0⟩, isFinD_iff.1 (by decide +kernel : isFinD (Interval.width (box11 0)) = true)⟩, fun i => h0, ?_, ?_, heq⟩
    · exact fun i => ⟨trivial, is_dbl' (isFinD_iff.1 (by decide +kernel))⟩
    · exact fun i => by simp [tinyE, Expr.ConstDom]
    · exact fun i => by simp [tinyE, Expr.Dom, Bin.Dom]
    · funext i
      show (0 : ℝ) * _ = 0
      exact zero_mul _
  · cases h

end Kv
