import Verif.Double.DDMixed
import Verif.Double.EmuLemmas

/-!
# C89: operators of `dd` with numbers of built-in types

Main theorems: `C89_add`, `C89_sub_partial`, `C89_sub_unsigned`, `C89_sub_violated`, `C89_sub_undefined`, `C89_rsub`, `C89_mul`, `C89_div`, `C89_rdiv_partial`,
`C89_rdiv_violated`, `C89_compare`.
-/

namespace Kv
open Fl DD Emu Format

theorem lit0 : (lit 0 : Dbl) = fin 0 rep_zero := round_of_rep .near _

theorem pl_zero (x : Dbl) : pl x (lit 0) = x := by
  rw [lit0]
  cases x with
  | nan => rfl
  | pinf => rfl
  | ninf => rfl
  | fin q h => exact (show (round .near (q + 0) : Dbl) = _ by rw [add_zero]; exact round_of_rep .near h)

theorem zero_pl (x : Dbl) : pl (lit 0) x = x := by
  rw [lit0]
  cases x with
  | nan => rfl
  | pinf => rfl
  | ninf => rfl
  | fin q h => exact (show (round .near (0 + q) : Dbl) = _ by rw [zero_add]; exact round_of_rep .near h)

theorem neg_lit0 : Fl.neg (lit 0 : Dbl) = lit 0 := by
  rw [lit0]; simp [Fl.neg]

theorem mi_zero (x : Dbl) : mi x (lit 0) = x := by
  have : mi x (lit 0) = pl x (Fl.neg (lit 0)) := rfl
  rw [this, neg_lit0, pl_zero]

theorem zero_mi (x : Dbl) : mi (lit 0) x = Fl.neg x := zero_pl (Fl.neg x)

theorem fin_ti_zero {q : ℚ} (h : (binary64).Rep q) : ti (fin q h) (lit 0) = lit 0 := by
  rw [lit0]
  exact (show (round .near (q * 0) : Dbl) = _ by rw [mul_zero]; exact round_of_rep .near _)

theorem zero_ti_fin {q : ℚ} (h : (binary64).Rep q) : ti (lit 0) (fin q h) = lit 0 := by
  rw [lit0]
  exact (show (round .near (0 * q) : Dbl) = _ by rw [zero_mul]; exact round_of_rep .near _)

theorem finishN_nan (z : Dbl) : finishN nan z = ⟨nan, nan⟩ := by
  cases z with
  | fin q h => simp [finishN, twosum, pl, mi, Fl.sub, Fl.add, Fl.abs, Fl.lt, isInf, Fl.eq]
  | _ => rfl

theorem ti_half_zero : ti (lit 0) (lit (1 / 2) : Dbl) = lit 0 := by decide +kernel

/-- the components of a `dd` are finite -/
def FinDD (x : DD) : Prop := (∃ q h, x.a1 = fin q h) ∧ ∃ q h, x.a2 = fin q h

/-- C89: `x + c` and `c + x` are the same as with `dd(c)`, for all `dd`, also for infinite components -/
theorem C89_add (x : DD) (c : Num) : addC x c = DD.add x (ofNum c) ∧ cAdd c x = DD.add (ofNum c) x := by
  constructor
  · simp only [addC, DD.add, ofNum, finishN, pl_zero]
  · simp only [cAdd, DD.add, ofNum, finishN, zero_pl]

/-- C89: `c - x` is the same as with `dd(c)` -/
theorem C89_rsub (x : DD) (c : Num) : cSub c x = DD.sub (ofNum c) x := by
  simp only [cSub, DD.sub, ofNum, finishN, zero_mi]
  rfl

/-- C89 (partial): `x - c` is the same as with `dd(c)` for floating point numbers, signed integers and 0.

Missing: unsigned integers (false, see `C89_sub_violated`), the smallest signed integer of a type (undefined behaviour). -/
theorem C89_sub_partial (x : DD) (c : Num)
    (hc : match c with | .dbl _ => True | .int w i => i ≠ -2 ^ (w - 1) | .uns _ n => n = 0) : subC x c = .ok (DD.sub x (ofNum c)) := by
  have key : c.negD = .ok (Fl.neg c.toD) := by
    cases c with
    | dbl d => rfl
    | int w i =>
      simp only [Num.negD, Num.toD, lit]
      rw [if_neg hc]
      push_cast
      rw [round_neg_near]
    | uns w n =>
      simp only at hc
      subst hc
      simp only [Num.negD, Num.toD, Nat.sub_zero, Nat.mod_self, Nat.cast_zero]
      exact congrArg _ neg_lit0.symm
  unfold subC
  rw [key]
  simp only [bind, Except.bind, DD.sub, ofNum, finishN, mi_zero]

/-- C89 fails for all positive unsigned integers: `x - n` is the sum of `x` and `2^w - n`. -/
theorem C89_sub_unsigned (x : DD) {w n : ℕ} (h0 : 0 < n) : subC x (.uns w n) = .ok (DD.add x (ofNum (.uns w (2 ^ w - n)))) := by
  rw [← (C89_add x _).1]
  simp only [subC, Num.negD, Nat.mod_eq_of_lt (Nat.sub_lt (Nat.two_pow_pos w) h0)]
  rfl

/-- C89 fails for unsigned integers: `dd(5) - 1u` is 4294967300, since `-1u` is 4294967295. -/
theorem C89_sub_violated : (Num.uns 32 1).Valid ∧ subC ⟨lit 5, lit 0⟩ (.uns 32 1) = .ok ⟨lit 4294967300, lit 0⟩ ∧
    DD.sub ⟨lit 5, lit 0⟩ (ofNum (.uns 32 1)) = ⟨lit 4, lit 0⟩ := by
  refine ⟨by unfold Num.Valid; norm_num, ?_, ?_⟩ <;> decide +kernel

/-- C89: subtracting the smallest signed integer of a type is undefined behaviour -/
theorem C89_sub_undefined (x : DD) (w : ℕ) : subC x (.int w (-2 ^ (w - 1))) = .error .undefined := by
  simp only [subC, Num.negD, if_pos]
  rfl

/-- C89: `x * c` and `c * x` are the same as with `dd(c)` for finite `x` -/
theorem C89_mul (fma : Bool) {x : DD} (hx : FinDD x) (c : Num) :
    mulC fma x c = DD.mul fma x (ofNum c) ∧ cMul fma c x = DD.mul fma (ofNum c) x := by
  obtain ⟨⟨q1, h1, e1⟩, q2, h2, e2⟩ := hx
  have dm : ∀ x y : DD, DD.mul fma x y = if isInf (twoproduct fma x.a1 y.a1).1 then ⟨(twoproduct fma x.a1 y.a1).1, lit 0⟩
      else finishN (twoproduct fma x.a1 y.a1).1 (pl (twoproduct fma x.a1 y.a1).2 (pl (pl (ti x.a1 y.a2) (ti x.a2 y.a1)) (ti x.a2 y.a2))) := fun x y => rfl
  constructor
  · rw [dm]
    simp only [mulC, ofNum, e1, e2, fin_ti_zero, zero_pl, pl_zero]
  · rw [dm]
    simp only [cMul, ofNum, e1, e2, zero_ti_fin, pl_zero]

theorem dv_cases {a b : Dbl} (h1 : isInf (dv a b) = false) :
    dv a b = nan ∨ ∃ q h, dv a b = fin q h := by
  cases e : dv a b with
  | nan => exact .inl rfl
  | pinf => rw [e] at h1; cases h1
  | ninf => rw [e] at h1; cases h1
  | fin q h => exact .inr ⟨q, h, rfl⟩

/-- C89: `x / c` is the same as with `dd(c)` -/
theorem C89_div (fma : Bool) (x : DD) (c : Num) : divC fma x c = DD.div fma x (ofNum c) := by
  have dd : DD.div fma x (ofNum c) = (if isInf (dv x.a1 c.toD) then ⟨dv x.a1 c.toD, lit 0⟩
    else if isInf c.toD then ⟨dv x.a1 c.toD, lit 0⟩
    else finishN (dv x.a1 c.toD) (
      if isInf (twoproduct fma (Fl.neg (dv x.a1 c.toD)) c.toD).1 then
        dv (pl (pl (mi (pl (twoproduct fma (Fl.neg (dv x.a1 c.toD)) (ti c.toD (lit (1 / 2)))).1 (ti x.a1 (lit (1 / 2)))) (ti (dv x.a1 c.toD) (ti (lit 0) (lit (1 / 2))))) (ti x.a2 (lit (1 / 2))))
          (twoproduct fma (Fl.neg (dv x.a1 c.toD)) (ti c.toD (lit (1 / 2)))).2) (ti c.toD (lit (1 / 2)))
      else dv (pl (pl (mi (pl (twoproduct fma (Fl.neg (dv x.a1 c.toD)) c.toD).1 x.a1) (ti (dv x.a1 c.toD) (lit 0))) x.a2) (twoproduct fma (Fl.neg (dv x.a1 c.toD)) c.toD).2) c.toD)) := rfl
  rw [dd]
  simp only [divC]
  split_ifs with h1 h2 h3
  · rfl
  · rfl
  · rcases dv_cases (by simpa using h1) with h | ⟨q, hq, h⟩
    · rw [h, finishN_nan, finishN_nan]
    · rw [h, ti_half_zero, fin_ti_zero, mi_zero]
  · rcases dv_cases (by simpa using h1) with h | ⟨q, hq, h⟩
    · rw [h, finishN_nan, finishN_nan]
    · rw [h, fin_ti_zero, mi_zero]

/-- C89 (partial): `c / x` is the same as with `dd(c)`, if the product of the approximate quotient and the divisor does not overflow.

Missing: the other case, which is false, see `C89_rdiv_violated`. -/
theorem C89_rdiv_partial (fma : Bool) (x : DD) (c : Num) (h : isInf (ti (Fl.neg (dv c.toD x.a1)) x.a1) = false) :
    cDiv fma c x = DD.div fma (ofNum c) x := by
  have hz : isInf (twoproduct fma (Fl.neg (dv c.toD x.a1)) x.a1).1 = false := by
    unfold twoproduct
    simp only
    split_ifs <;> exact h
  simp only [cDiv, DD.div, ofNum, hz, pl_zero]
  rfl

/-- C89 fails for `c / x` close to overflow: `DBL_MAX / dd(3)` is not a number, whereas `dd(DBL_MAX) / dd(3)` is a finite number
close to the quotient. -/
theorem C89_rdiv_violated (fma : Bool) : cDiv fma (.dbl maxF) ⟨lit 3, lit 0⟩ = ⟨nan, nan⟩ ∧ FinDD (DD.div fma (ofNum (.dbl maxF)) ⟨lit 3, lit 0⟩) ∧
    DD.lt ⟨lit (binary64.maxQ / 4), lit 0⟩ (DD.div fma (ofNum (.dbl maxF)) ⟨lit 3, lit 0⟩) = true := by
  have h : ∀ fma, cDiv fma (.dbl maxF) ⟨lit 3, lit 0⟩ = ⟨nan, nan⟩ ∧
      (Fl.lt (DD.div fma (ofNum (.dbl maxF)) ⟨lit 3, lit 0⟩).a1 pinf && Fl.lt ninf (DD.div fma (ofNum (.dbl maxF)) ⟨lit 3, lit 0⟩).a1 &&
        Fl.lt (DD.div fma (ofNum (.dbl maxF)) ⟨lit 3, lit 0⟩).a2 pinf && Fl.lt ninf (DD.div fma (ofNum (.dbl maxF)) ⟨lit 3, lit 0⟩).a2 &&
        DD.lt ⟨lit (binary64.maxQ / 4), lit 0⟩ (DD.div fma (ofNum (.dbl maxF)) ⟨lit 3, lit 0⟩)) = true := by
    intro fma
    cases fma <;> decide +kernel
  have f : ∀ z : Dbl, Fl.lt z pinf = true → Fl.lt ninf z = true → ∃ q h, z = fin q h := by
    intro z hz hz'
    cases z with
    | fin q h => exact ⟨q, h, rfl⟩
    | nan => cases hz
    | pinf => cases hz
    | ninf => cases hz'
  have := (h fma).2
  simp only [Bool.and_eq_true] at this
  exact ⟨(h fma).1, ⟨f _ this.1.1.1.1 this.1.1.1.2, f _ this.1.1.2 this.1.2⟩, this.2⟩

/-- C89: all comparisons of `x` and `c` are those of `x` and `dd(c)` -/
theorem C89_compare (x : DD) (c : Num) : ltC x c = DD.lt x (ofNum c) ∧ cLt c x = DD.lt (ofNum c) x ∧
    leC x c = DD.le x (ofNum c) ∧ cLe c x = DD.le (ofNum c) x ∧ gtC x c = DD.lt (ofNum c) x ∧ cGt c x = DD.lt x (ofNum c) ∧
    geC x c = DD.le (ofNum c) x ∧ cGe c x = DD.le x (ofNum c) ∧ eqC x c = DD.eq x (ofNum c) ∧ cEq c x = DD.eq (ofNum c) x :=
  ⟨rfl, rfl, rfl, rfl, rfl, rfl, rfl, rfl, rfl, rfl⟩

/-- The hypotheses are met: `dd(7) - 2`, `dd(7) / 2`, `1 / dd(7)` -/
example : subC ⟨lit 7, lit 0⟩ (.int 32 2) = .ok ⟨lit 5, lit 0⟩ ∧ divC true ⟨lit 7, lit 0⟩ (.int 32 2) = ⟨lit (7 / 2), lit 0⟩ ∧
    isInf (ti (Fl.neg (dv (Num.int 32 1).toD (lit 7))) (lit 7)) = false := by
  refine ⟨?_, ?_, ?_⟩ <;> decide +kernel

example : FinDD ⟨lit 7, lit 0⟩ := ⟨⟨7, (by decide +kernel), round_of_rep .near _⟩, ⟨0, _, lit0⟩⟩

end Kv
