import Verif.Solver.LpStart
import Verif.Props.Affine

/-!
# C44: the verified bound of a linear program

Specification in `Verif/Solver/LpSpec.lean`: `linear c x` is `c0 + c1*x1 + ...` over the reals, `Feasible cons x` says
that `x >= 0` and `linear c x <= 0` for every constraint `c`.
-/

namespace Kv
namespace Lp
open RopSem Kv.Interval
open Rop (lit lt le)
open Finset (Icc)

/-- the function returns and no entry of a matrix has overflowed on the way -/
def FiniteRun (fi fo : ℕ) (round : ℤ) (obj : List D) (cons : List (List D)) : Prop :=
  ∃ s, run fi fo round obj cons = .ok s ∧ s.fin = true

/-- the last right-hand sides are not negative -/
def EndFeasible (fi fo : ℕ) (round : ℤ) (obj : List D) (cons : List (List D)) : Prop :=
  ∃ s, run fi fo round obj cons = .ok s ∧ ∀ i ∈ Icc 1 cons.length, le (lit 0) (get s.a i 0) = true

theorem run_start {fi fo : ℕ} {round : ℤ} {obj : List D} {cons : List (List D)} {r : St}
    (h : run fi fo round obj cons = .ok r) :
    ∃ s, Start obj cons s ∧ loop fi round cons.length (obj.length - 1 + cons.length) fo s = .ok r := by
  obtain ⟨s, h1, h2⟩ := bind_ok.1 h
  exact ⟨s, start_ok h1, h2⟩

/-- C44, lower bound: with `round = -1` the result is at most the value of the objective function at every feasible point.
Missing (see `C44_overflow_violated`): runs in which an entry overflows. -/
theorem C44_lower_partial {fi fo : ℕ} {obj : List D} {cons : List (List D)} {z : D}
    (h : minimize fi fo (-1) obj cons = .ok z) (hlen : ∀ c ∈ cons, c.length ≤ obj.length)
    (hfin : FiniteRun fi fo (-1) obj cons) :
    FinD z ∧ ∀ x, Feasible cons x → dbl z ≤ linear obj x := by
  obtain ⟨r, h1, h2⟩ := bind_ok.1 h
  obtain ⟨r', h1', hf⟩ := hfin
  rw [h1] at h1'; cases h1'; cases h2
  obtain ⟨s, hs, hl⟩ := run_start h1
  have hsf := loop_fin hl hf
  have hI := start_inv hs hsf
  refine ⟨loop_end_fin hl hf hI 0 0, fun x hx => ?_⟩
  obtain ⟨v, hv, e⟩ := feasible_sol hs hsf hlen hx
  have := loop_lower hl hf hI v hv
  rw [obj_start hs hsf, e] at this
  exact this

/-- C44, upper bound: with `round = 1` some feasible point has at most the returned value, so the optimum is not larger.
Missing (see `C44_upper_violated`): runs that end with a negative right-hand side, and overflow. -/
theorem C44_upper_partial {fi fo : ℕ} {obj : List D} {cons : List (List D)} {z : D}
    (h : minimize fi fo 1 obj cons = .ok z) (hlen : ∀ c ∈ cons, c.length ≤ obj.length)
    (hfin : FiniteRun fi fo 1 obj cons) (hend : EndFeasible fi fo 1 obj cons) :
    FinD z ∧ ∃ x, Feasible cons x ∧ linear obj x ≤ dbl z := by
  obtain ⟨r, h1, h2⟩ := bind_ok.1 h
  obtain ⟨r', h1', hf⟩ := hfin
  rw [h1] at h1'; cases h1'
  obtain ⟨r', h1', he⟩ := hend
  rw [h1] at h1'; cases h1'; cases h2
  obtain ⟨s, hs, hl⟩ := run_start h1
  have hsf := loop_fin hl hf
  have hI := start_inv hs hsf
  have hfz := loop_end_fin hl hf hI
  refine ⟨hfz 0 0, ?_⟩
  obtain ⟨v, hv, e⟩ := loop_upper hl hf hI fun i hi => by
    have := (le_zero_left.1 (he i hi)).2
    rw [(is_dbl' (hfz i 0)).2] at this
    exact_mod_cast this
  rw [obj_start hs hsf] at e
  exact ⟨v, sol_feasible hs hsf hlen hv, e⟩

/-- a constraint with positive constant (the origin is not feasible) is refused, whatever else is given -/
theorem C44_refused {fi fo : ℕ} {round : ℤ} {obj : List D} {cons : List (List D)} (ho : obj ≠ [])
    (hne : ∀ c ∈ cons, c ≠ []) {c : List D} (hc : c ∈ cons) (hpos : ¬ nan (c.getD 0 (lit 0)) ∧ 0 < val (c.getD 0 (lit 0))) :
    minimize fi fo round obj cons = .error .domainError := by
  have key : ∀ l : List (List D), (∀ c ∈ l, c ≠ []) → c ∈ l → check l = .error .domainError := by
    intro l
    induction l with
    | nil => intro _ h; simp at h
    | cons d t ih =>
      intro hl hm
      obtain ⟨d0, d', rfl⟩ := List.exists_cons_of_ne_nil (hl d List.mem_cons_self)
      unfold check
      by_cases h1 : lt (lit 0) d0 = true
      · rw [if_pos h1]
      · rw [if_neg h1]
        refine ih (fun e he => hl e (List.mem_cons_of_mem _ he)) ?_
        rcases List.mem_cons.1 hm with rfl | hm
        · exfalso
          apply h1
          rw [lt_zero_left]
          exact hpos
        · exact hm
  have : start obj cons = .error .domainError := by
    unfold start
    rw [if_neg ho, key cons hne hc]; rfl
  unfold minimize run
  rw [this]; rfl

/-! ## concrete programs -/

/-- doubles with the given values -/
def dl (l : List ℚ) : List D := l.map lit

theorem coef_dl {l : List ℚ} (h : ∀ q ∈ l, binary64.Rep q) (j : ℕ) : coef (dl l) j = ((l.getD j 0 : ℚ) : ℝ) := by
  unfold coef dl
  by_cases hj : j < l.length
  · rw [List.getD_eq_getElem _ _ (by simpa using hj), List.getD_eq_getElem _ _ hj, List.getElem_map]
    exact dbl_lit (h _ (List.getElem_mem hj))
  · rw [List.getD_eq_default _ _ (by simpa using hj), List.getD_eq_default _ _ (by omega), dbl_zero]; simp

theorem linear_dl {l : List ℚ} (h : ∀ q ∈ l, binary64.Rep q) (x : ℕ → ℝ) :
    linear (dl l) x = ((l.getD 0 0 : ℚ) : ℝ) + ∑ j ∈ Icc 1 (l.length - 1), ((l.getD j 0 : ℚ) : ℝ) * x j := by
  unfold linear
  rw [coef_dl h]
  congr 1
  rw [show (dl l).length = l.length by simp [dl]]
  exact Finset.sum_congr rfl fun j _ => by rw [coef_dl h]

/-- minimise `-2*x1 - x2` subject to `x1 - x2 <= 5`, `x1 + 2*x2 <= 10` -/
def exObj : List D := dl [0, -2, -1]
def exCons : List (List D) := [dl [-5, 1, -1], dl [-10, 1, 2]]

/-- did the run end with finite entries and nonnegative right-hand sides? -/
def okRun (r : Res St) (m : ℕ) : Bool :=
  match r with
  | .ok s => s.fin && (List.range' 1 m).all fun i => le (lit 0) (get s.a i 0)
  | _ => false

theorem okRun_spec {fi fo : ℕ} {round : ℤ} {obj : List D} {cons : List (List D)}
    (h : okRun (run fi fo round obj cons) cons.length = true) :
    (∃ z, minimize fi fo round obj cons = .ok z) ∧ FiniteRun fi fo round obj cons ∧ EndFeasible fi fo round obj cons := by
  unfold okRun at h
  cases hr : run fi fo round obj cons with
  | error e => rw [hr] at h; cases h
  | ok s =>
    rw [hr] at h
    simp only [Bool.and_eq_true, List.all_eq_true] at h
    refine ⟨⟨get s.a 0 0, ?_⟩, ⟨s, hr, h.1⟩, ⟨s, hr, fun i hi => h.2 i ?_⟩⟩
    · unfold minimize; rw [hr]; rfl
    · rw [Finset.mem_Icc] at hi; rw [List.mem_range'_1]; omega

/-- both runs of the example satisfy the hypotheses of `C44_lower_partial` and `C44_upper_partial` -/
theorem C44_example : (∃ z, minimize 10 10 (-1) exObj exCons = .ok z) ∧ FiniteRun 10 10 (-1) exObj exCons ∧
    (∃ z, minimize 10 10 1 exObj exCons = .ok z) ∧ FiniteRun 10 10 1 exObj exCons ∧ EndFeasible 10 10 1 exObj exCons := by
  obtain ⟨h1, h2, _⟩ := okRun_spec (fi := 10) (fo := 10) (round := -1) (obj := exObj) (cons := exCons) (by decide +kernel)
  obtain ⟨h4, h5, h6⟩ := okRun_spec (fi := 10) (fo := 10) (round := 1) (obj := exObj) (cons := exCons) (by decide +kernel)
  exact ⟨h1, h2, h4, h5, h6⟩

example : ∀ c ∈ exCons, c.length ≤ exObj.length := by decide +kernel

/-- the two results enclose the optimum of the example -/
example : ∃ z1 z2, minimize 10 10 (-1) exObj exCons = .ok z1 ∧ minimize 10 10 1 exObj exCons = .ok z2 ∧
    (∀ x, Feasible exCons x → dbl z1 ≤ linear exObj x) ∧ ∃ x, Feasible exCons x ∧ linear exObj x ≤ dbl z2 := by
  have hl : ∀ c ∈ exCons, c.length ≤ exObj.length := by decide +kernel
  obtain ⟨⟨z1, h1⟩, h2, ⟨z2, h4⟩, h5, h6⟩ := C44_example
  exact ⟨z1, z2, h1, h4, (C44_lower_partial h1 hl h2).2, (C44_upper_partial h4 hl h5 h6).2⟩

/-! ## where the function fails -/

/-- the result is the finite double `q` -/
def isOk (r : Res D) (q : ℚ) : Bool :=
  match r with
  | .ok z => Rop.eq z (lit q) && isFinD z
  | _ => false

theorem isOk_spec {r : Res D} {q : ℚ} (h : isOk r q = true) (hq : binary64.Rep q) : ∃ z, r = .ok z ∧ FinD z ∧ dbl z = q := by
  unfold isOk at h
  cases r with
  | error e => cases h
  | ok z =>
    simp only [Bool.and_eq_true] at h
    have hz := isFinD_iff.1 h.2
    refine ⟨z, rfl, hz, ?_⟩
    have h2 := ((eq_iff z (lit q)).1 h.1).2.2
    unfold dbl
    rw [h2]
    exact dbl_lit hq

/-- five doubles, four constraints: an intermediate product overflows, a coefficient becomes NaN -/
def ovObj : List ℚ := [0, -2 ^ 700, 0, -1, 0]
def ovCons : List (List ℚ) := [[0, 1, -2 ^ 700, 0, 0], [0, 0, 1, 1, -1], [0, 0, 0, -1, 1], [-5, 0, 0, 1]]

theorem rep_of_int_pow {n : ℤ} {e : ℕ} (h : |n| < 2 ^ 53) (he : e ≤ 971) : binary64.Rep (n * 2 ^ e) :=
  ⟨n, e, h, by change (-1074 : ℤ) ≤ e; omega, by change (e : ℤ) ≤ 971; omega, by simp⟩

theorem rep_int53 (n : ℤ) (h : |n| < 2 ^ 53) : binary64.Rep (n : ℚ) := by
  have := rep_of_int_pow (e := 0) h (by omega); simpa using this

/-- C44 fails: with `round = -1` the function returns 0, although the feasible point `(0, 0, 5, 5)` has the value -5.
(A coefficient of the objective function has become NaN and is never chosen as pivot column.) -/
theorem C44_overflow_violated : ∃ z, minimize 100 100 (-1) (dl ovObj) (ovCons.map dl) = .ok z ∧ FinD z ∧
    ∃ x, Feasible (ovCons.map dl) x ∧ linear (dl ovObj) x < dbl z := by
  obtain ⟨z, h1, h2, h3⟩ := isOk_spec (r := minimize 100 100 (-1) (dl ovObj) (ovCons.map dl)) (q := 0)
    (by decide +kernel) (by simpa using rep_int53 0 (by norm_num))
  have hr : ∀ l ∈ ovObj :: ovCons, ∀ q ∈ l, binary64.Rep q := by
    have r0 : binary64.Rep 0 := by simpa using rep_int53 0 (by norm_num)
    have r1 : binary64.Rep 1 := by simpa using rep_int53 1 (by norm_num)
    have r2 : binary64.Rep (-1) := by simpa using rep_int53 (-1) (by norm_num)
    have r3 : binary64.Rep (-5) := by simpa using rep_int53 (-5) (by norm_num)
    have r4 : binary64.Rep (-2 ^ 700) := by
      have := rep_of_int_pow (n := -1) (e := 700) (by norm_num) (by norm_num)
      simpa using this
    simp [ovObj, ovCons, r0, r1, r2, r3, r4]
  refine ⟨z, h1, h2, fun j => if j = 3 ∨ j = 4 then 5 else 0, ⟨fun j => by beta_reduce; split_ifs <;> norm_num, ?_⟩, ?_⟩
  · intro c hc
    obtain ⟨l, hl, rfl⟩ := List.mem_map.1 hc
    rw [linear_dl (hr l (List.mem_cons_of_mem _ hl))]
    simp only [ovCons, List.mem_cons, List.not_mem_nil, or_false] at hl
    rcases hl with rfl | rfl | rfl | rfl <;> simp [Finset.sum_Icc_succ_top]
  · rw [linear_dl (hr _ List.mem_cons_self), h3]
    simp [ovObj, Finset.sum_Icc_succ_top]

/-- the first constraint is degenerate (`x1 <= 0`) -/
def upObj : List ℚ := [0, -2, -1]
def upCons : List (List ℚ) := [[0, 1], [-100, 0, 1], [-50 / 2 ^ 74, 1000 * 2 ^ 1000, 1 / 2 ^ 74]]

/-- C44 fails: with `round = 1` the function returns a number close to -100 without any overflow, although no feasible point
has a value below -50.  (The right-hand side of the degenerate constraint is made negative by the smallest number.) -/
theorem C44_upper_violated : ∃ z, minimize 100 100 1 (dl upObj) (upCons.map dl) = .ok z ∧ FinD z ∧
    FiniteRun 100 100 1 (dl upObj) (upCons.map dl) ∧ dbl z < -99 ∧
    ∀ x, Feasible (upCons.map dl) x → -50 ≤ linear (dl upObj) x := by
  have hq : binary64.Rep (-7036874417766399 / 70368744177664) := ⟨-7036874417766399, -46, by norm_num [binary64], by decide, by decide, by norm_num⟩
  obtain ⟨z, h1, h2, h3⟩ := isOk_spec (r := minimize 100 100 1 (dl upObj) (upCons.map dl)) (q := -7036874417766399 / 70368744177664)
    (by decide +kernel) hq
  have hf : FiniteRun 100 100 1 (dl upObj) (upCons.map dl) := by
    have hd : (match run 100 100 1 (dl upObj) (upCons.map dl) with | .ok s => s.fin | _ => false) = true := by decide +kernel
    unfold FiniteRun
    cases hr : run 100 100 1 (dl upObj) (upCons.map dl) with
    | error e => rw [hr] at hd; cases hd
    | ok s => rw [hr] at hd; exact ⟨s, rfl, hd⟩
  have hr : ∀ l ∈ upObj :: upCons, ∀ q ∈ l, binary64.Rep q := by
    have r0 : binary64.Rep 0 := by simpa using rep_int53 0 (by norm_num)
    have r1 : binary64.Rep 1 := by simpa using rep_int53 1 (by norm_num)
    have r2 : binary64.Rep (-1) := by simpa using rep_int53 (-1) (by norm_num)
    have r3 : binary64.Rep (-2) := by simpa using rep_int53 (-2) (by norm_num)
    have r4 : binary64.Rep (-100) := by simpa using rep_int53 (-100) (by norm_num)
    have r5 : binary64.Rep (-50 / 2 ^ 74) := ⟨-50, -74, by norm_num [binary64], by decide, by decide, by norm_num⟩
    have r6 : binary64.Rep (1 / 2 ^ 74) := ⟨1, -74, by norm_num [binary64], by decide, by decide, by norm_num⟩
    have r7 : binary64.Rep (1000 * 2 ^ 1000) := ⟨1000 * 2 ^ 40, 960, by norm_num [binary64], by decide, by decide, by
      rw [show (2 : ℚ) ^ 1000 = 2 ^ 40 * 2 ^ (960 : ℤ) by rw [← zpow_natCast, ← zpow_natCast, ← zpow_add₀ (by norm_num)]; norm_num]
      push_cast; ring⟩
    intro l hl q hq
    simp only [upObj, upCons, List.mem_cons, List.not_mem_nil, or_false] at hl
    rcases hl with rfl | rfl | rfl | rfl <;> simp only [List.mem_cons, List.not_mem_nil, or_false] at hq
    · rcases hq with rfl | rfl | rfl <;> assumption
    · rcases hq with rfl | rfl <;> assumption
    · rcases hq with rfl | rfl | rfl <;> assumption
    · rcases hq with rfl | rfl | rfl <;> assumption
  refine ⟨z, h1, h2, hf, by rw [h3]; norm_num, fun x hx => ?_⟩
  have c1 := hx.2 (dl [0, 1]) (by simp [upCons])
  have c3 := hx.2 (dl [-50 / 2 ^ 74, 1000 * 2 ^ 1000, 1 / 2 ^ 74]) (by simp [upCons])
  rw [linear_dl (hr _ (by simp [upCons]))] at c1 c3
  rw [linear_dl (hr _ List.mem_cons_self)]
  have x1 := hx.1 1
  have x2 := hx.1 2
  simp at c1
  have e1 : x 1 = 0 := le_antisymm c1 x1
  simp [Finset.sum_Icc_succ_top, e1] at c3
  simp [upObj, Finset.sum_Icc_succ_top, e1]
  have hp : (0 : ℝ) < (2 ^ 74)⁻¹ := by positivity
  nlinarith

/-- the last right-hand sides of that run are not all nonnegative, so `C44_upper_partial` does not apply -/
example : okRun (run 100 100 1 (dl upObj) (upCons.map dl)) 3 = false := by decide +kernel

/-- a constraint that the origin violates -/
example : minimize 10 10 1 exObj [dl [-1, 1], dl [1, -1, 1]] = .error .domainError :=
  C44_refused (c := dl [1, -1, 1]) (by simp [exObj, dl]) (by simp [dl]) (by simp) ⟨lit_one.1, by
    change 0 < val (lit 1 : D); rw [lit_one.2]; norm_num⟩

end Lp
end Kv
