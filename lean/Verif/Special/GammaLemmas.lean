import Verif.Special.Gamma
import Verif.Special.GammaMath
import Verif.Props.SingularAutoPower
import Verif.Props.Hypergeom
import Verif.Solver.AllsolTrim

/-!
# Helper lemmas: `gamma_r`, `gamma_point`, `lgamma_point`
-/

namespace Kv
open PowerSeries Psa PM MeasureTheory Filter Topology RopSem
open Rop (lit)
set_option linter.unusedVariables false

namespace GammaFn

/-! ## `floor` -/

theorem rep_floor {q : ℚ} (h : binary64.Rep q) : binary64.Rep ((⌊q⌋ : ℤ) : ℚ) := by
  by_cases hq : q = ((⌊q⌋ : ℤ) : ℚ)
  · rwa [← hq]
  · have h1 := abs_lt.1 (abs_lt_of_not_int h hq)
    refine rep_int (abs_le.2 ⟨?_, ?_⟩)
    · rw [Int.le_floor]; push_cast; exact h1.1.le
    · have := (Int.floor_le q).trans h1.2.le
      exact_mod_cast this

theorem is_fin {x : D} {c : ℝ} (h : Is x c) : ∃ q hq, x = Fl.fin q hq ∧ (q : ℝ) = c := by
  cases x with
  | nan => exact absurd rfl h.1
  | pinf => exact absurd h.2.symm (EReal.coe_ne_top c)
  | ninf => exact absurd h.2.symm (EReal.coe_ne_bot c)
  | fin q hq => exact ⟨q, hq, rfl, by have := h.2; exact_mod_cast (show ((q : ℝ) : EReal) = c from this)⟩

theorem is_of_fin {q : ℚ} (hq : binary64.Rep q) : Is (T := D) (Fl.fin q hq) (q : ℝ) := ⟨fun h => (by cases h), rfl⟩

theorem is_floor {x : D} {c : ℝ} (h : Is x c) : Is (Rop.floor x) (⌊c⌋ : ℤ) := by
  obtain ⟨q, hq, rfl, rfl⟩ := is_fin h
  have e : Rop.floor (T := D) (Fl.fin q hq) = Fl.fin ((⌊q⌋ : ℤ) : ℚ) (rep_floor hq) := Fl.round_of_rep .near (rep_floor hq)
  rw [e, Rat.floor_cast]
  have := is_of_fin (rep_floor hq)
  exact_mod_cast this

/-- `y - 1` is rounded to nearest -/
theorem sub_one_eq {z : ℤ} (hq : binary64.Rep (z : ℚ)) : Rop.sub (T := D) (Fl.fin (z : ℚ) hq) (lit 1) = Fl.round .near ((z - 1 : ℤ) : ℚ) := by
  have h1 : (lit 1 : D) = Fl.fin 1 (by exact_mod_cast rep_int (F := binary64) (n := 1) (by decide)) := Fl.round_of_rep .near _
  rw [h1]
  show Fl.round .near ((z : ℚ) + -1) = _
  push_cast
  rw [sub_eq_add_neg]

/-- `y - 1` is exact unless it is outside of the range of `int` -/
theorem is_sub_one {y : D} {z : ℤ} (h : Is y z) (hz : |z| ≤ 2 ^ 40) : Is (Rop.sub y (lit 1)) ((z - 1 : ℤ) : ℝ) := by
  obtain ⟨q, hq, rfl, e⟩ := is_fin h
  have e' : q = z := by exact_mod_cast e
  subst e'
  have hr : binary64.Rep ((z - 1 : ℤ) : ℚ) := rep_int (by
    rw [abs_le] at hz ⊢
    have : (2 : ℤ) ^ 40 + 1 ≤ 2 ^ binary64.p := by decide
    omega)
  rw [sub_one_eq hq, Fl.round_of_rep .near hr]
  have := is_of_fin hr
  exact_mod_cast this

theorem toInt_fin {q : ℚ} (hq : binary64.Rep q) (h0 : 0 ≤ q) : toInt (Fl.fin q hq) = if -2 ^ 31 ≤ ⌊q⌋ ∧ ⌊q⌋ < 2 ^ 31 then .ok ⌊q⌋ else .error .undefined := by
  show (if -2 ^ 31 ≤ (if 0 ≤ q then ⌊q⌋ else ⌈q⌉) ∧ (if 0 ≤ q then ⌊q⌋ else ⌈q⌉) < 2 ^ 31 then Except.ok (if 0 ≤ q then ⌊q⌋ else ⌈q⌉) else Except.error Err.undefined) = _
  rw [if_pos h0]

theorem toInt_sub_one {y : D} {z i : ℤ} (h : Is y z) (h1 : 1 ≤ z) (ht : toInt (Rop.sub y (lit 1)) = .ok i) : z ≤ 2 ^ 31 ∧ i = z - 1 := by
  by_cases hz : |z| ≤ 2 ^ 40
  · obtain ⟨q, hq, e, e2⟩ := is_fin (is_sub_one h hz)
    have e' : q = ((z - 1 : ℤ) : ℚ) := by exact_mod_cast e2
    subst e'
    rw [e, toInt_fin _ (by exact_mod_cast (by omega : 0 ≤ z - 1)), Int.floor_intCast] at ht
    rw [ite_eq_iff] at ht
    rcases ht with ⟨h2, h3⟩ | ⟨_, h3⟩
    · cases h3; exact ⟨by omega, rfl⟩
    · cases h3
  · exfalso
    obtain ⟨q, hq, rfl, e⟩ := is_fin h
    have e' : q = z := by exact_mod_cast e
    subst e'
    rw [sub_one_eq hq] at ht
    have hr : binary64.Rep ((2 ^ 40 : ℤ) : ℚ) := rep_int (by decide)
    have hl : ((2 ^ 40 : ℤ) : ℚ) ≤ ((z - 1 : ℤ) : ℚ) := by
      rw [abs_of_nonneg (by omega)] at hz
      exact_mod_cast (by omega : (2 : ℤ) ^ 40 ≤ z - 1)
    have l := Format.le_roundQ_of_le .near hr.repU hl
    unfold Fl.round Fl.pack at ht
    split_ifs at ht with h3
    · have h4 : (2 : ℤ) ^ 40 ≤ ⌊binary64.roundQ .near ((z - 1 : ℤ) : ℚ)⌋ := Int.le_floor.2 l
      rw [toInt_fin _ (le_trans (by norm_num) l), if_neg (by omega)] at ht
      cases ht
    · have h0 : 0 < binary64.roundQ .near ((z - 1 : ℤ) : ℚ) := lt_of_lt_of_le (by norm_num) l
      rw [decide_eq_true h0] at ht
      cases ht

theorem passes_eq {y : D} {z : ℤ} {k : ℕ} (h : Is y z) (hp : passes y = .ok k) : -2 ^ 31 ≤ z ∧ k = (1 - z).toNat := by
  obtain ⟨q, hq, rfl, e⟩ := is_fin h
  have e' : q = z := by exact_mod_cast e
  subst e'
  unfold passes at hp
  rw [ite_eq_iff] at hp
  rcases hp with ⟨_, h3⟩ | ⟨h2, h3⟩
  · cases h3
  · rw [Int.floor_intCast] at h3
    cases h3
    rw [not_lt] at h2
    exact ⟨by exact_mod_cast h2, rfl⟩

theorem is_lit_int {n : ℤ} (h : |n| ≤ 2 ^ 40) : Is (lit (n : ℚ) : D) (n : ℝ) := by
  have hr : binary64.Rep (n : ℚ) := rep_int (h.trans (by decide))
  have e : (lit (n : ℚ) : D) = Fl.fin n hr := Fl.round_of_rep .near hr
  rw [e]
  have := is_of_fin hr
  exact_mod_cast this

/-! ## the integral -/

/-- the parameters for which the enclosures are proved: an order between 1 and `2^31 - 2`, a function for step sizes which takes
non-negative numbers to non-negative numbers, and an approximation of `53 log 2` which is at least 1 -/
structure _root_.Kv.GammaPar.Ok (P : GammaPar) : Prop where
  order : 1 ≤ P.order ∧ P.order + 1 < 2 ^ 31
  pw : Ode.PwOk P.pw
  th : ∃ θ : ℝ, Is (th P) θ ∧ 1 ≤ θ ∧ θ ≤ 2 ^ 1000

variable {P : GammaPar} {X Z : Interval D} {x : ℝ} {st st' : PSt (Interval D)}

theorem point_is {d : D} {c y : ℝ} (h : Is d c) : y ∈ Interval.point d ↔ y = c := by
  constructor
  · rintro ⟨⟨-, h1⟩, ⟨-, h2⟩⟩
    have h1 : val d ≤ y := h1
    have h2 : (y : EReal) ≤ val d := h2
    rw [h.2] at h1 h2
    exact le_antisymm (by exact_mod_cast h2) (by exact_mod_cast h1)
  · rintro rfl
    exact ⟨h.lo, h.hi⟩

theorem gammaR_mem (hP : P.Ok) (hx : x ∈ X) (h0 : 0 < x) (h2 : x ≤ 2)
    (h : (letI := scalI P.fuel; gammaR P X) st = (.ok Z, st')) : Real.Gamma x ∈ Z := by
  obtain ⟨θ, hθ, h1, hb⟩ := hP.th
  unfold gammaR at h
  obtain ⟨R, st1, hR, h⟩ := bind_run h
  obtain ⟨e, st2, he', h3⟩ := bind_run h
  obtain ⟨he, rfl⟩ := lift_run he'
  obtain ⟨rfl, rfl⟩ := pure_run h3
  have hθm : θ ∈ Interval.point (th P) := (point_is hθ).2 rfl
  obtain ⟨I, hI, -, hi⟩ := C77_power_partial (a := 0) (b := θ) (π := x - 1) (ρ := fun _ => x) (ρ' := fun _ => x) (f := g) (fun _ => hx)
    ⟨by simp [g, Expr.FinCst], by simp [g, Expr.noInv, Un.isInv], by simp [g, Expr.LDom]⟩ (fun _ => hx)
    ⟨by simp [f, Expr.FinCst]; exact is_dbl' ⟨_, Interval.is_one⟩, by simp [f, Expr.noInv, Un.isInv], by simp [f, Expr.LDom, Expr.isC]⟩
    (fun y _ => by
      show y ^ (x - dbl (lit 1 : D)) * Real.exp (-y) = (y - 0) ^ (x - 1) * Real.exp (-y)
      rw [sub_zero, is_dbl Interval.is_one]) hP.order.1 hP.order.2 (exIntSq_mem Interval.is_zero) hθm (by linarith)
    (fun y hy => by rw [(mem_pt Interval.is_zero).1 hy, abs_zero]; positivity)
    (fun y hy => by rw [(point_is hθ).1 hy, abs_of_pos (by linarith)]; exact hb)
    (Interval.subS_mem hx Interval.is_one) (by linarith) hP.pw (NN.lit (by norm_num)) hR
  obtain ⟨r, hr0, hr1, er⟩ := gamma_split h0 h2 h1
  rw [er]
  refine Interval.add_mem (x := ∫ t in (0 : ℝ)..θ, t ^ (x - 1) * Real.exp (-t)) ?_ ⟨Interval.is_zero.lo.mono hr0, ?_⟩
  · rw [← hi] at hI
    simpa [g, Expr.real, Un.real] using hI
  · exact (Interval.mul_mem (Interval.exp_mem he (Interval.neg_mem hθm)) (Interval.addS_mem hθm Interval.is_one)).2.mono hr1

/-! ## the loops -/

theorem mulDown_mem (hx : x ∈ X) : ∀ (k : ℕ) (r : Interval D) (g : ℝ), k ≤ 2 ^ 40 → g ∈ r → g * ∏ i ∈ Finset.range k, (x - (i + 1 : ℕ)) ∈ mulDown X k r
  | 0, r, g, _, hg => by simpa [mulDown] using hg
  | k + 1, r, g, hk, hg => by
    have := mulDown_mem hx k _ _ (by omega) (Interval.mul_mem hg (Interval.subS_mem hx (is_lit_int (n := (k + 1 : ℕ)) (by rw [abs_of_nonneg (by positivity)]; exact_mod_cast hk))))
    rw [Finset.prod_range_succ, mul_comm (∏ i ∈ _, _), ← mul_assoc]
    exact_mod_cast this

theorem lit_neg_nat {j : ℕ} (hj : j ≤ 2 ^ 40) : Is (lit (-(j : ℚ)) : D) (-(j : ℝ)) := by
  have := is_lit_int (n := -(j : ℤ)) (by rw [abs_neg, abs_of_nonneg (by positivity)]; exact_mod_cast hj)
  exact_mod_cast this

theorem prod_shift (x : ℝ) (k j : ℕ) : ∏ i ∈ Finset.range (k + 1), (x + ((j + i : ℕ) : ℝ)) = (x + j) * ∏ i ∈ Finset.range k, (x + ((j + 1 + i : ℕ) : ℝ)) := by
  rw [Finset.prod_range_succ']
  rw [mul_comm]
  congr 1
  exact Finset.prod_congr rfl fun i _ => by push_cast; ring

theorem divDown_mem (hx : x ∈ X) : ∀ (k j : ℕ) (r : Interval D) (g : ℝ), j + k ≤ 2 ^ 40 → g ∈ r → ∀ Z, divDown X k j r = .ok Z →
    (∀ i < k, x + ((j + i : ℕ) : ℝ) ≠ 0) ∧ g / ∏ i ∈ Finset.range k, (x + ((j + i : ℕ) : ℝ)) ∈ Z
  | 0, j, r, g, _, hg, Z, h => by
    cases h
    exact ⟨fun i hi => absurd hi (Nat.not_lt_zero i), by simpa using hg⟩
  | k + 1, j, r, g, hk, hg, Z, h => by
    obtain ⟨r', hr, h⟩ := bind_ok.1 h
    have hd := Interval.subS_mem hx (lit_neg_nat (j := j) (by omega))
    rw [sub_neg_eq_add] at hd
    have hne := div_ok_ne hr hd
    obtain ⟨h1, h2⟩ := divDown_mem hx k (j + 1) r' _ (by omega) (Interval.div_mem hr hg hd) Z h
    refine ⟨fun i hi => ?_, ?_⟩
    · cases i with
      | zero => exact hne
      | succ i => have := h1 i (by omega); rwa [show j + 1 + i = j + (i + 1) by ring] at this
    · rwa [prod_shift, ← div_div]

theorem addLog_mem {fuel : ℕ} (hx : x ∈ X) : ∀ (k : ℕ) (r : Interval D) (g : ℝ), k ≤ 2 ^ 40 → 0 < x - k → g ∈ r → ∀ Z, addLog fuel X k r = .ok Z →
    g + ∑ i ∈ Finset.range k, Real.log (x - (i + 1 : ℕ)) ∈ Z
  | 0, r, g, _, _, hg, Z, h => by cases h; simpa using hg
  | k + 1, r, g, hk, h0, hg, Z, h => by
    obtain ⟨l, hl, h⟩ := bind_ok.1 h
    have hd := Interval.subS_mem hx (is_lit_int (n := (k + 1 : ℕ)) (by rw [abs_of_nonneg (by positivity)]; exact_mod_cast hk))
    have := addLog_mem hx k _ _ (by omega) (by push_cast at h0; linarith) (Interval.add_mem hg (Interval.log_mem hl hd (by exact_mod_cast h0))) Z h
    rw [Finset.sum_range_succ, add_comm (∑ i ∈ _, _), ← add_assoc]
    exact_mod_cast this

theorem sum_shift (x : ℝ) (k j : ℕ) : ∑ i ∈ Finset.range (k + 1), Real.log |x + ((j + i : ℕ) : ℝ)| = Real.log |x + j| + ∑ i ∈ Finset.range k, Real.log |x + ((j + 1 + i : ℕ) : ℝ)| := by
  rw [Finset.sum_range_succ', add_comm]
  congr 1
  exact Finset.sum_congr rfl fun i _ => by push_cast; ring_nf

theorem subLog_mem {fuel : ℕ} (hx : x ∈ X) : ∀ (k j : ℕ) (r : Interval D) (g : ℝ), j + k ≤ 2 ^ 40 → (∀ i < k, x + ((j + i : ℕ) : ℝ) ≠ 0) → g ∈ r → ∀ Z, subLog fuel X k j r = .ok Z →
    g - ∑ i ∈ Finset.range k, Real.log |x + ((j + i : ℕ) : ℝ)| ∈ Z
  | 0, j, r, g, _, _, hg, Z, h => by cases h; simpa using hg
  | k + 1, j, r, g, hk, h0, hg, Z, h => by
    obtain ⟨l, hl, h⟩ := bind_ok.1 h
    have hd := Interval.subS_mem hx (lit_neg_nat (j := j) (by omega))
    rw [sub_neg_eq_add] at hd
    have hne : x + j ≠ 0 := h0 0 (by omega)
    have := subLog_mem hx k (j + 1) _ _ (by omega) (fun i hi => by have := h0 (i + 1) (by omega); rwa [show j + (i + 1) = j + 1 + i by ring] at this)
      (Interval.sub_mem hg (Interval.log_mem hl ((C10_abs ⟨_, hd⟩ _).2 ⟨_, hd, rfl⟩) (abs_pos.2 hne))) Z h
    rwa [sum_shift, ← sub_sub]

/-! ## `gamma_point` and `lgamma_point` -/

/-- `floor` does not make a number finite, and `gamma_point` does not return for an infinite lower end -/
theorem inf_cases {a : D} (h : ¬ nan a) : (∃ c, Is a c) ∨ a = Rop.inf ∨ a = Rop.neg Rop.inf := by
  cases a with
  | nan => exact absurd rfl h
  | pinf => exact Or.inr (Or.inl rfl)
  | ninf => exact Or.inr (Or.inr rfl)
  | fin q hq => exact Or.inl ⟨q, is_of_fin hq⟩

theorem floor_inf : Rop.floor (Rop.inf : D) = Rop.inf := rfl
theorem floor_ninf : Rop.floor (Rop.neg Rop.inf : D) = Rop.neg Rop.inf := rfl

theorem lit_one_fin : ∃ h, (lit 1 : D) = Fl.fin 1 h := ⟨_, Fl.round_of_rep .near (by exact_mod_cast rep_int (F := binary64) (n := 1) (by decide))⟩
theorem eq_inf_one : ¬ Rop.eq (Rop.inf : D) (lit 1) = true := by
  obtain ⟨_, e⟩ := lit_one_fin
  rw [e]; exact Bool.false_ne_true
theorem eq_ninf_one : ¬ Rop.eq (Rop.neg Rop.inf : D) (lit 1) = true := by
  obtain ⟨_, e⟩ := lit_one_fin
  rw [e]; exact Bool.false_ne_true
theorem lt_one_inf : Rop.lt (lit 1 : D) Rop.inf = true := by
  obtain ⟨_, e⟩ := lit_one_fin
  rw [e]; rfl
theorem lt_one_ninf : ¬ Rop.lt (lit 1 : D) (Rop.neg Rop.inf) = true := by
  obtain ⟨_, e⟩ := lit_one_fin
  rw [e]; exact Bool.false_ne_true

theorem toInt_inf : toInt (Rop.sub (Rop.inf : D) (lit 1)) = .error .undefined := by
  have h1 : (lit 1 : D) = Fl.fin 1 (by exact_mod_cast rep_int (F := binary64) (n := 1) (by decide)) := Fl.round_of_rep .near _
  rw [h1]; rfl
theorem passes_ninf : passes (Rop.neg Rop.inf : D) = .error .undefined := rfl

/-- the steps of `gamma_point`: the argument of the integral, and the loops -/
theorem gammaPoint_mem {c : ℝ} (hP : P.Ok) (hc : Is X.inf c) (hx : x ∈ X) (hle : x ≤ ⌊c⌋ + 1)
    (h : (letI := scalI P.fuel; gammaPoint P X) st = (.ok Z, st')) : Real.Gamma x ∈ Z ∧ ∀ n : ℕ, x ≠ -n := by
  have hcx : c ≤ x := by have := hx.1.2; rw [hc.2] at this; exact_mod_cast this
  have hf := is_floor hc
  have hzc := Int.floor_le c
  unfold gammaPoint at h
  by_cases h1 : Rop.eq (Rop.floor X.inf) (lit 1) = true
  · rw [if_pos h1] at h
    rw [Interval.eq_of_is hf Interval.is_one] at h1
    have hx1 : 1 ≤ x := by linarith
    exact ⟨gammaR_mem hP hx (by linarith) (by linarith) h, fun n hn => by have : (0 : ℝ) ≤ n := n.cast_nonneg; linarith⟩
  rw [if_neg h1] at h
  rw [Interval.eq_of_is hf Interval.is_one] at h1
  obtain ⟨r, st1, hr, h2⟩ := bind_run h
  by_cases h3 : Rop.lt (lit 1) (Rop.floor X.inf) = true
  · rw [if_pos h3] at h2
    rw [Interval.lt_of_is Interval.is_one hf] at h3
    obtain ⟨i, st2, hi', h4⟩ := bind_run h2
    obtain ⟨hi, rfl⟩ := lift_run hi'
    obtain ⟨rfl, rfl⟩ := pure_run h4
    have h3' : 1 < ⌊c⌋ := by exact_mod_cast h3
    obtain ⟨hz, rfl⟩ := toInt_sub_one hf h3'.le hi
    have hs := is_sub_one hf (by rw [abs_le]; constructor <;> omega)
    have hd := Interval.subS_mem hx hs
    push_cast at hd
    have hg := gammaR_mem hP hd (by linarith) (by linarith) hr
    have hk : (((⌊c⌋ - 1).toNat : ℕ) : ℝ) = (⌊c⌋ : ℝ) - 1 := by
      have : (((⌊c⌋ - 1).toNat : ℕ) : ℤ) = ⌊c⌋ - 1 := Int.toNat_of_nonneg (by omega)
      have e2 : ((((⌊c⌋ - 1).toNat : ℕ) : ℤ) : ℝ) = ((⌊c⌋ - 1 : ℤ) : ℝ) := by rw [this]
      push_cast at e2
      exact_mod_cast e2
    have := mulDown_mem hx (⌊c⌋ - 1).toNat r _ (by omega) hg
    rw [← hk, ← gamma_mul x _ (by rw [hk]; linarith)] at this
    exact ⟨this, fun n hn => by have : (0 : ℝ) ≤ n := n.cast_nonneg; linarith⟩
  · rw [if_neg h3] at h2
    rw [Interval.lt_of_is Interval.is_one hf, not_lt] at h3
    obtain ⟨h4, rfl⟩ := lift_run h2
    obtain ⟨k, hk, h5⟩ := bind_ok.1 h4
    obtain ⟨hz, rfl⟩ := passes_eq hf hk
    have h3' : ⌊c⌋ ≤ 0 := by
      have e1 : ⌊c⌋ ≤ 1 := by exact_mod_cast h3
      have e2 : ⌊c⌋ ≠ 1 := fun e => h1 (by exact_mod_cast e)
      omega
    have hs := is_sub_one hf (by rw [abs_le]; constructor <;> omega)
    have hd := Interval.subS_mem hx hs
    push_cast at hd
    have hg := gammaR_mem hP hd (by linarith) (by linarith) hr
    obtain ⟨h6, h7⟩ := divDown_mem hx _ 0 r _ (by omega) hg Z h5
    simp only [Nat.zero_add] at h6 h7
    have hk : (((1 - ⌊c⌋).toNat : ℕ) : ℝ) = 1 - (⌊c⌋ : ℝ) := by
      have : (((1 - ⌊c⌋).toNat : ℕ) : ℤ) = 1 - ⌊c⌋ := Int.toNat_of_nonneg (by omega)
      have e2 : ((((1 - ⌊c⌋).toNat : ℕ) : ℤ) : ℝ) = ((1 - ⌊c⌋ : ℤ) : ℝ) := by rw [this]
      push_cast at e2
      exact_mod_cast e2
    have e := gamma_div x _ h6
    rw [hk, show x + (1 - (⌊c⌋ : ℝ)) = x - (⌊c⌋ - 1) by ring] at e
    rw [← e, mul_div_cancel_right₀ _ (Finset.prod_ne_zero_iff.2 fun i hi => h6 i (Finset.mem_range.1 hi))] at h7
    refine ⟨h7, fun n hn => h6 n ?_ (by rw [hn]; ring)⟩
    have : (n : ℝ) < 1 - ⌊c⌋ := by linarith
    rw [← hk] at this
    exact_mod_cast this

theorem gammaPoint_fin (hn : ¬ nan X.inf) (h : (letI := scalI P.fuel; gammaPoint P X) st = (.ok Z, st')) : ∃ c, Is X.inf c := by
  rcases inf_cases hn with h1 | h1 | h1
  · exact h1
  · exfalso
    unfold gammaPoint at h
    rw [h1, floor_inf, if_neg eq_inf_one] at h
    obtain ⟨r, st1, hr, h2⟩ := bind_run h
    rw [if_pos lt_one_inf] at h2
    obtain ⟨i, st2, hi', h4⟩ := bind_run h2
    obtain ⟨hi, rfl⟩ := lift_run hi'
    rw [toInt_inf] at hi; cases hi
  · exfalso
    unfold gammaPoint at h
    rw [h1, floor_ninf, if_neg eq_ninf_one] at h
    obtain ⟨r, st1, hr, h2⟩ := bind_run h
    rw [if_neg lt_one_ninf] at h2
    obtain ⟨h4, rfl⟩ := lift_run h2
    obtain ⟨k, hk, h5⟩ := bind_ok.1 h4
    rw [passes_ninf] at hk; cases hk

theorem log_prod_abs (x : ℝ) (k : ℕ) (h : ∀ i < k, x + (i : ℝ) ≠ 0) :
    Real.log (∏ i ∈ Finset.range k, (x + i)) = ∑ i ∈ Finset.range k, Real.log |x + i| := by
  rw [Real.log_prod (fun i hi => h i (Finset.mem_range.1 hi))]
  exact Finset.sum_congr rfl fun i _ => (Real.log_abs _).symm

/-- `lgamma_point`: `log |Γ(x)|` -/
theorem lgammaPoint_mem {c : ℝ} (hP : P.Ok) (hc : Is X.inf c) (hx : x ∈ X) (hle : x ≤ ⌊c⌋ + 1) (hn : ∀ n : ℕ, x ≠ -n)
    (h : (letI := scalI P.fuel; lgammaPoint P X) st = (.ok Z, st')) : Real.log (Real.Gamma x) ∈ Z := by
  have hcx : c ≤ x := by have := hx.1.2; rw [hc.2] at this; exact_mod_cast this
  have hf := is_floor hc
  have hzc := Int.floor_le c
  unfold lgammaPoint at h
  by_cases h1 : Rop.eq (Rop.floor X.inf) (lit 1) = true
  · rw [if_pos h1] at h
    rw [Interval.eq_of_is hf Interval.is_one] at h1
    have hx1 : 1 ≤ x := by linarith
    obtain ⟨r, st1, hr, h2⟩ := bind_run h
    obtain ⟨h3, rfl⟩ := lift_run h2
    exact Interval.log_mem h3 (gammaR_mem hP hx (by linarith) (by linarith) hr) (Real.Gamma_pos_of_pos (by linarith))
  rw [if_neg h1] at h
  rw [Interval.eq_of_is hf Interval.is_one] at h1
  obtain ⟨r, st1, hr, h2⟩ := bind_run h
  obtain ⟨l, st2, hl', h2'⟩ := bind_run h2
  obtain ⟨hl, rfl⟩ := lift_run hl'
  by_cases h3 : Rop.lt (lit 1) (Rop.floor X.inf) = true
  · rw [if_pos h3] at h2'
    rw [Interval.lt_of_is Interval.is_one hf] at h3
    obtain ⟨h4, rfl⟩ := lift_run h2'
    obtain ⟨i, hi, h5⟩ := bind_ok.1 h4
    have h3' : 1 < ⌊c⌋ := by exact_mod_cast h3
    obtain ⟨hz, rfl⟩ := toInt_sub_one hf h3'.le hi
    have hs := is_sub_one hf (by rw [abs_le]; constructor <;> omega)
    have hd := Interval.subS_mem hx hs
    push_cast at hd
    have hg := gammaR_mem hP hd (by linarith) (by linarith) hr
    have hk : (((⌊c⌋ - 1).toNat : ℕ) : ℝ) = (⌊c⌋ : ℝ) - 1 := by
      have : (((⌊c⌋ - 1).toNat : ℕ) : ℤ) = ⌊c⌋ - 1 := Int.toNat_of_nonneg (by omega)
      have e2 : ((((⌊c⌋ - 1).toNat : ℕ) : ℤ) : ℝ) = ((⌊c⌋ - 1 : ℤ) : ℝ) := by rw [this]
      push_cast at e2
      exact_mod_cast e2
    have hpos : 0 < x - ((⌊c⌋ - 1).toNat : ℕ) := by rw [hk]; linarith
    have hgp : 0 < Real.Gamma (x - (⌊c⌋ - 1)) := Real.Gamma_pos_of_pos (by linarith)
    have := addLog_mem hx (⌊c⌋ - 1).toNat l _ (by omega) hpos (Interval.log_mem hl hg hgp) Z h5
    rw [← hk] at this hgp
    have hne : ∀ i ∈ Finset.range (⌊c⌋ - 1).toNat, x - (i + 1 : ℕ) ≠ 0 := fun i hi => by
      have : ((i + 1 : ℕ) : ℝ) ≤ ((⌊c⌋ - 1).toNat : ℕ) := by exact_mod_cast Finset.mem_range.1 hi
      linarith
    rwa [← Real.log_prod hne, ← Real.log_mul hgp.ne' (Finset.prod_ne_zero_iff.2 hne), ← gamma_mul x _ hpos] at this
  · rw [if_neg h3] at h2'
    rw [Interval.lt_of_is Interval.is_one hf, not_lt] at h3
    obtain ⟨h4, rfl⟩ := lift_run h2'
    obtain ⟨k, hk, h5⟩ := bind_ok.1 h4
    obtain ⟨hz, rfl⟩ := passes_eq hf hk
    have h3' : ⌊c⌋ ≤ 0 := by
      have e1 : ⌊c⌋ ≤ 1 := by exact_mod_cast h3
      have e2 : ⌊c⌋ ≠ 1 := fun e => h1 (by exact_mod_cast e)
      omega
    have hs := is_sub_one hf (by rw [abs_le]; constructor <;> omega)
    have hd := Interval.subS_mem hx hs
    push_cast at hd
    have hg := gammaR_mem hP hd (by linarith) (by linarith) hr
    have hgp : 0 < Real.Gamma (x - (⌊c⌋ - 1)) := Real.Gamma_pos_of_pos (by linarith)
    have h6 : ∀ i < (1 - ⌊c⌋).toNat, x + (i : ℝ) ≠ 0 := fun i _ e => hn i (by linarith)
    have h7 := subLog_mem hx _ 0 l _ (by omega) (by simpa using h6) (Interval.log_mem hl hg hgp) Z h5
    simp only [Nat.zero_add] at h7
    have hk : (((1 - ⌊c⌋).toNat : ℕ) : ℝ) = 1 - (⌊c⌋ : ℝ) := by
      have : (((1 - ⌊c⌋).toNat : ℕ) : ℤ) = 1 - ⌊c⌋ := Int.toNat_of_nonneg (by omega)
      have e2 : ((((1 - ⌊c⌋).toNat : ℕ) : ℤ) : ℝ) = ((1 - ⌊c⌋ : ℤ) : ℝ) := by rw [this]
      push_cast at e2
      exact_mod_cast e2
    have e := gamma_div x _ h6
    rw [hk, show x + (1 - (⌊c⌋ : ℝ)) = x - (⌊c⌋ - 1) by ring] at e
    have hp0 := Finset.prod_ne_zero_iff.2 fun i hi => h6 i (Finset.mem_range.1 hi)
    rw [← log_prod_abs x _ h6, ← e, Real.log_mul (fun e0 => by rw [e0, zero_mul] at e; exact hgp.ne e) hp0, add_sub_cancel_right] at h7
    exact h7

theorem lgammaPoint_fin (hn : ¬ nan X.inf) (h : (letI := scalI P.fuel; lgammaPoint P X) st = (.ok Z, st')) : ∃ c, Is X.inf c := by
  rcases inf_cases hn with h1 | h1 | h1
  · exact h1
  · exfalso
    unfold lgammaPoint at h
    rw [h1, floor_inf, if_neg eq_inf_one] at h
    obtain ⟨r, st1, hr, h2⟩ := bind_run h
    obtain ⟨l, st2, hl, h3⟩ := bind_run h2
    rw [if_pos lt_one_inf] at h3
    obtain ⟨h4, rfl⟩ := lift_run h3
    obtain ⟨i, hi, h5⟩ := bind_ok.1 h4
    rw [toInt_inf] at hi; cases hi
  · exfalso
    unfold lgammaPoint at h
    rw [h1, floor_ninf, if_neg eq_ninf_one] at h
    obtain ⟨r, st1, hr, h2⟩ := bind_run h
    obtain ⟨l, st2, hl, h3⟩ := bind_run h2
    rw [if_neg lt_one_ninf] at h3
    obtain ⟨h4, rfl⟩ := lift_run h3
    obtain ⟨k, hk, h5⟩ := bind_ok.1 h4
    rw [passes_ninf] at hk; cases hk

end GammaFn
end Kv
