import Verif.Double.Mode
import Verif.Props.Arith
import Verif.Complex.Lemmas
import Verif.Solver.LinLemmas

/-!
# C42: the rounding mode is restored; C54: integer operands; C55: compound assignment
-/

namespace Kv
open RopSem
open Kv.RM

theorem RM.bind_eq {α β : Type} (m : RM α) (k : α → RM β) (md : RMode) : (m >>= k) md = match m md with
    | (.ok a, md') => k a md'
    | (.error e, md') => (.error e, md') := rfl

/-- The operations which set the mode themselves: started in any mode they give the ideal result and leave the mode at
nearest. -/
theorem C42_add (x y : Interval D) (md : RMode) : RM.add x y md = (.ok (x.add y), .near) := rfl
theorem C42_addS (x : Interval D) (y : D) (md : RMode) : RM.addS x y md = (.ok (x.addS y), .near) := rfl
theorem C42_sAdd (x : D) (y : Interval D) (md : RMode) : RM.sAdd x y md = (.ok (Interval.sAdd x y), .near) := rfl
theorem C42_sub (x y : Interval D) (md : RMode) : RM.sub x y md = (.ok (x.sub y), .near) := rfl
theorem C42_subS (x : Interval D) (y : D) (md : RMode) : RM.subS x y md = (.ok (x.subS y), .near) := rfl
theorem C42_sSub (x : D) (y : Interval D) (md : RMode) : RM.sSub x y md = (.ok (Interval.sSub x y), .near) := rfl
theorem C42_mul (x y : Interval D) (md : RMode) : RM.mul x y md = (.ok (x.mul y), .near) := by
  unfold RM.mul Interval.mul
  split_ifs <;> rfl
theorem C42_mulS (x : Interval D) (y : D) (md : RMode) : RM.mulS x y md = (.ok (x.mulS y), .near) := by
  unfold RM.mulS Interval.mulS
  split_ifs <;> rfl
theorem C42_sMul (x : D) (y : Interval D) (md : RMode) : RM.sMul x y md = (.ok (Interval.sMul x y), .near) := by
  unfold RM.sMul Interval.sMul
  split_ifs <;> rfl
/-- Division, whether it returns or throws. -/
theorem C42_div (x y : Interval D) (md : RMode) : RM.div x y md = (x.div y, .near) := by
  unfold RM.div Interval.div
  split_ifs <;> rfl
theorem C42_divS (x : Interval D) (y : D) (md : RMode) : RM.divS x y md = (x.divS y, .near) := by
  unfold RM.divS Interval.divS
  split_ifs <;> rfl
theorem C42_sDiv (x : D) (y : Interval D) (md : RMode) : RM.sDiv x y md = (Interval.sDiv x y, .near) := by
  unfold RM.sDiv Interval.sDiv
  split_ifs <;> rfl
theorem C42_width (x : Interval D) (md : RMode) : RM.width x md = (.ok x.width, .near) := rfl
theorem C42_rad (x : Interval D) (md : RMode) : RM.rad x md = (.ok x.rad, .near) := rfl

/-- Operations which may throw before they set the mode, or use ordinary arithmetic, need the mode nearest at the beginning. -/
theorem C42_sqrt (x : Interval D) : RM.sqrt x .near = (x.sqrt, .near) := by
  unfold RM.sqrt Interval.sqrt
  split_ifs <;> rfl
theorem C42_mid (x : Interval D) : RM.mid x .near = (.ok x.mid, .near) := by
  unfold RM.mid Interval.mid
  split_ifs <;> rfl
theorem C42_midrad (x : Interval D) : RM.midrad x .near = (.ok x.midrad, .near) := by
  unfold RM.midrad
  rw [RM.bind_eq, C42_mid]; rfl
theorem C42_divisionPart1 (x y : Interval D) : RM.divisionPart1 x y .near = (x.divisionPart1 y, .near) := by
  unfold RM.divisionPart1 Interval.divisionPart1
  split_ifs
  all_goals first
    | rfl
    | (rw [RM.bind_eq, C42_div]
       cases x.div y <;> rfl)
theorem C42_divisionPart2 (x y : Interval D) : RM.divisionPart2 x y .near = (x.divisionPart2 y, .near) := by
  unfold RM.divisionPart2 Interval.divisionPart2
  split_ifs
  all_goals first
    | rfl
    | exact C42_div x y .near

/-- C42 for one call -/
theorem C42_call {α : Type} (c : Call α) : c.run .near = (c.ideal, .near) := by
  cases c with
  | mul x y => exact C42_mul x y _
  | mulS x y => exact C42_mulS x y _
  | sMul x y => exact C42_sMul x y _
  | div x y => exact C42_div x y _
  | divS x y => exact C42_divS x y _
  | sDiv x y => exact C42_sDiv x y _
  | sqrt x => exact C42_sqrt x
  | mid x => exact C42_mid x
  | midrad x => exact C42_midrad x
  | divisionPart1 x y => exact C42_divisionPart1 x y
  | divisionPart2 x y => exact C42_divisionPart2 x y
  | _ => rfl

/-- C42: every program which starts in the mode nearest and uses floating-point numbers only through the operations of
intervals and ordinary arithmetic, with exceptions thrown and caught anywhere, has the result of the ideal operations and
ends in the mode nearest. -/
theorem C42 {α : Type} (p : Act α) : p.run .near = (p.ideal, .near) := by
  induction p with
  | ret a => rfl
  | raise e => rfl
  | call c k ih =>
    rw [Act.run, RM.bind_eq, C42_call]
    simp only [Act.ideal]
    cases c.ideal with
    | error e => rfl
    | ok b => exact ih b
  | «try» p h k ihp ihh ihk =>
    change (match (match p.run .near with | (.ok a, md') => (.ok a, md') | (.error e, md') => (h e).run md' : Res _ × RMode) with
      | (.ok a, md') => (k a).run md' | (.error e, md') => (.error e, md')) = _
    rw [ihp]
    simp only [Act.ideal]
    cases p.ideal with
    | ok b => exact ihk b
    | error e =>
      simp only [ihh]
      cases (h e).ideal with
      | error e => rfl
      | ok b => exact ihk b

/-- A program which divides by an interval around zero, catches the exception and adds: both operations are covered. -/
example : (Act.try (.call (.div (Interval.point (Rop.lit 1)) ⟨Rop.lit (-1), Rop.lit 1⟩) .ret) (fun _ => .ret (Interval.point (Rop.lit 3)))
    fun z => .call (.add z z) .ret : Act (Interval D)).run .near = (.ok (Interval.point (Rop.lit 6)), .near) := by
  rw [C42]; decide +kernel

/-- The mode of the caller is not restored but set to nearest. -/
theorem C42_not_saved : (RM.add (Interval.point (Rop.lit 1)) (Interval.point (Rop.lit 1)) .up).2 = .near := rfl

/-! ## C54: integer operands -/

theorem fInt_exact {n : ℤ} (h : |n| ≤ 2 ^ 53) (md : RMode) : ∃ k : D, RM.fInt n md = (.ok k, md) ∧ Is k (n : ℝ) := by
  have hr : binary64.Rep (n : ℚ) := by
    refine Format.rep_of_repU (by simpa using Format.repU_of_le (F := binary64) (m := n) (e := 0) h (by decide)) ?_
    have h1 : |(n : ℚ)| ≤ 2 ^ 53 := by exact_mod_cast h
    refine h1.trans ?_
    have : (2 : ℚ) ^ 53 ≤ (2 ^ 53 - 1) * 2 ^ (971 : ℤ) :=
      le_trans (by norm_num) (mul_le_mul_of_nonneg_left (zpow_le_zpow_right₀ (by norm_num) (by norm_num : (1 : ℤ) ≤ 971)) (by norm_num))
    exact this
  refine ⟨Hw.fin _ hr, ?_, Hw.not_nan_fin _ _, by rw [Hw.val_fin]; norm_cast⟩
  unfold RM.fInt
  rw [Fl.round_of_rep md hr]; rfl

/-- C54: `X + n` encloses if the integer is at most 2^53 in absolute value (in particular for every 32-bit integer).
Missing: larger 64-bit integers, for which it is false (`C54_violated`). -/
theorem C54_partial {X : Interval D} {x : ℝ} {n : ℤ} (hx : x ∈ X) (hn : |n| ≤ 2 ^ 53) (md : RMode) :
    ∃ Z, RM.addZ X n md = (.ok Z, .near) ∧ x + n ∈ Z := by
  obtain ⟨k, h1, h2⟩ := fInt_exact hn .up
  refine ⟨X.addS k, ?_, Interval.addS_mem hx h2⟩
  unfold RM.addZ
  rw [RM.bind_eq]
  change (RM.fInt n >>= _) RMode.up = _
  rw [RM.bind_eq, h1]
  simp only
  rw [RM.bind_eq]
  change (RM.fInt n >>= _) RMode.up = _
  rw [RM.bind_eq, h1]
  rfl

example : |(2147483647 : ℤ)| ≤ 2 ^ 53 := by decide

theorem rep_c54 : binary64.Rep (2 ^ 53 + 2) := ⟨2 ^ 52 + 1, 1, by decide, by decide, by decide, by norm_num⟩

/-- C54 is violated: `interval<double>(0) + (2^53 + 1)` is the point 2^53 + 2, since the 64-bit integer is converted to
`double` in the mode up. -/
theorem C54_violated : ∃ Z, RM.addZ (Interval.point (Rop.lit 0)) (2 ^ 53 + 1) .near = (.ok Z, .near) ∧
    ¬ ((0 : ℝ) + ((2 ^ 53 + 1 : ℤ) : ℝ) ∈ Z) := by
  refine ⟨Interval.point (Rop.lit (2 ^ 53 + 2)), by decide +kernel, ?_⟩
  intro h
  have h2 := h.1.2
  rw [show (Interval.point (Rop.lit (2 ^ 53 + 2)) : Interval D).inf = Hw.fin (2 ^ 53 + 2) rep_c54 by
    decide +kernel, Hw.val_fin, EReal.coe_le_coe_iff] at h2
  norm_num at h2

/-! ## C55: compound assignment -/

/-- C55: with an operand that is not part of the target the compound assignments mean the same as the binary operations;
`*=` and `/=` do so in any case.  Missing: `x += x.lower()` and the like, for which it is false (`C55_violated`). -/
theorem C55_partial (x : Interval D) (k : D) (y : RM.Arg) (md : RMode) :
    RM.addAssign x (.other k) md = (.ok (x.addS k), .near) ∧ RM.subAssign x (.other k) md = (.ok (x.subS k), .near) ∧
    RM.addAssign x .ownSup md = (.ok (x.addS x.sup), .near) ∧ RM.subAssign x .ownSup md = (.ok (x.subS x.sup), .near) ∧
    RM.mulAssign x y md = (.ok (x.mulS (y.get x)), .near) ∧ RM.divAssign x y md = (x.divS (y.get x), .near) :=
  ⟨rfl, rfl, rfl, rfl, C42_mulS _ _ _, C42_divS _ _ _⟩

theorem C55_complex_partial (x : Cx) (k : Sc) :
    x.mulAssign (.other k) = x.cMulK k ∧ x.divAssign (.other k) = x.cDivK k ∧ x.mulAssign .ownIm = x.cMulK (.ivl x.im) :=
  ⟨rfl, rfl, rfl⟩

/-- C55 is violated: for x = [-1,2] the statement `x += x.lower()` gives [-2,0], which does not contain 2 + (-1). -/
theorem C55_violated : RM.addAssign ⟨Rop.lit (-1), Rop.lit 2⟩ .ownInf .near = (.ok ⟨Rop.lit (-2), Rop.lit 0⟩, .near) ∧
    (2 : ℝ) ∈ (⟨Rop.lit (-1), Rop.lit 2⟩ : Interval D) ∧ ¬ ((2 : ℝ) + (-1) ∈ (⟨Rop.lit (-2), Rop.lit 0⟩ : Interval D)) := by
  refine ⟨by decide +kernel, mem_of_is Interval.is_two (by decide +kernel), fun h => ?_⟩
  have := h.2.2
  rw [show val (Rop.lit 0 : D) = _ from Interval.is_zero.2, EReal.coe_le_coe_iff] at this
  norm_num at this

/-- C55 is violated for complex numbers: `z *= z.real()` turns 2+i into 4+4i. -/
theorem C55_complex_violated :
    (⟨Interval.point (Rop.lit 2), Interval.point (Rop.lit 1)⟩ : Cx).mulAssign .ownRe =
      ⟨Interval.point (Rop.lit 4), Interval.point (Rop.lit 4)⟩ ∧
    (⟨Interval.point (Rop.lit 2), Interval.point (Rop.lit 1)⟩ : Cx).cMulK (.ivl (Interval.point (Rop.lit 2))) =
      ⟨Interval.point (Rop.lit 4), Interval.point (Rop.lit 2)⟩ := by
  decide +kernel

end Kv
