import Verif.Ode.DoubleNewtonCotesLemmas
import Verif.Props.NewtonCotes
import Mathlib.MeasureTheory.Integral.Prod

/-!
# C87, C88: integration in two dimensions with Newton–Cotes formulas

Main theorems: `C87_partial`, `C87_domain`, `C87_violated_3`, `C87_violated_5`, `C87_violated_7`, `C87_violated_negative`, `C88_partial`, `C88_s_partial`.
-/
namespace Kv
open Rop RopSem Kv.Interval NCotes MeasureTheory intervalIntegral

theorem swap_rect {F : ℝ → ℝ → ℝ} {a b c d : ℝ} (hF : ContinuousOn (fun z : ℝ × ℝ => F z.1 z.2) (Set.uIcc a b ×ˢ Set.uIcc c d)) :
    ∫ x in a..b, ∫ y in c..d, F x y = ∫ y in c..d, ∫ x in a..b, F x y := by
  have h1 : IntegrableOn (fun z : ℝ × ℝ => F z.1 z.2) (Set.uIcc a b ×ˢ Set.uIcc c d) :=
    hF.integrableOn_compact (isCompact_uIcc.prod isCompact_uIcc)
  exact intervalIntegral_intervalIntegral_swap (h1.mono_set (Set.prod_mono Set.uIoc_subset_uIcc Set.uIoc_subset_uIcc))

theorem double_cases {fuel fuel' : ℕ} {s1 : PSt (Interval D)} {s2 : PSt (Autodif (Interval D))} {p : ℕ → Interval D} {e : Expr 2} {ρ : ℕ → ℝ}
    {limit : D} {est : Res (ℤ × ℤ)} {start1 end1 start2 end2 Z : Interval D} {n m1 m2 : ℤ} {a b c d : ℝ}
    (hn : n = 1 ∨ n = 2 ∨ n = 4 ∨ n = 6) (hm1 : 0 ≤ m1 ∧ m1 ≤ 2147483647) (hm2 : 0 ≤ m2 ∧ m2 ≤ 2147483647)
    (hest : ∀ k, est = .ok k → (0 ≤ k.1 ∧ k.1 ≤ 2147483647) ∧ 0 ≤ k.2 ∧ k.2 ≤ 2147483647)
    (he : e.FinCst) (ht : e.TameE) (hp : ∀ i, ρ i ∈ p i) (hs1 : Proper start1) (hs1' : Proper end1) (hs2 : Proper start2) (hs2' : Proper end2)
    (h : doubleNewtoncotes fuel fuel' s1 s2 limit est p e start1 end1 start2 end2 n m1 m2 = .ok Z)
    (ha : a ∈ start1) (hb : b ∈ end1) (hc : c ∈ start2) (hd : d ∈ end2) :
    (∀ x ∈ Set.uIcc a b, ∀ y ∈ Set.uIcc c d, e.SDom ρ ![x, y]) ∧ ∫ x in a..b, ∫ y in c..d, e.real ρ ![x, y] ∈ Z := by
  rcases hn with rfl | rfl | rfl | rfl
  · refine double_mem (n := 1) one_pos table1 NC.panel1 (by norm_num) (fun j _ => rfl) (fun j _ => by norm_num [NC.q1]) (by decide) (by decide) (by decide) (fun c hc => ?_) he ht hp hs1 hs1' hs2 hs2' hm1 hm2 hest h ha hb hc hd
    convert entry_mem (by norm_num [errterm]) (by norm_num [errterm]) hc using 1; norm_num [errterm]
  · refine double_mem (n := 2) two_pos table2 NC.panel2 (by norm_num) (fun j hj => ?_) (fun j hj => ?_) (by decide) (by decide) (by decide) (fun c hc => ?_) he ht hp hs1 hs1' hs2 hs2' hm1 hm2 hest h ha hb hc hd
    · interval_cases j <;> rfl
    · interval_cases j <;> norm_num [NC.q2]
    · convert entry_mem (by norm_num [errterm]) (by norm_num [errterm]) hc using 1; norm_num [errterm]
  · refine double_mem (n := 4) (by norm_num) table4 NC.panel4 (by norm_num) (fun j hj => ?_) (fun j hj => ?_) (by decide) (by decide) (by decide) (fun c hc => ?_) he ht hp hs1 hs1' hs2 hs2' hm1 hm2 hest h ha hb hc hd
    · interval_cases j <;> norm_num [NC.q4]
    · interval_cases j <;> norm_num [NC.q4]
    · convert entry_mem (by norm_num [errterm]) (by norm_num [errterm]) hc using 1; norm_num [errterm]
  · refine double_mem (n := 6) (by norm_num) table6 NC.panel6 (by norm_num) (fun j hj => ?_) (fun j hj => ?_) (by decide) (by decide) (by decide) (fun c hc => ?_) he ht hp hs1 hs1' hs2 hs2' hm1 hm2 hest h ha hb hc hd
    · interval_cases j <;> norm_num [NC.q6]
    · interval_cases j <;> norm_num [NC.q6]
    · convert entry_mem (by norm_num [errterm]) (by norm_num [errterm]) hc using 1; norm_num [errterm]

/-- C87 (partial): with the formulas of order 1, 2, 4 and 6, whenever `double_newtoncotes(f, start1, end1, start2, end2, n, m1, m2)` returns,
the function is smooth on the rectangle between all `a ∈ start1`, `b ∈ end1`, `c ∈ start2` and `d ∈ end2`, and the result encloses the integral
over it (in either order of integration); for all numbers `m1`, `m2` of subintervals (0: estimated numbers, whatever they are), every
tolerance of the error terms, and also for `b < a` or `d < c`.

Missing: the formulas of order 3, 5 and 7 (false, see below), negative `m1`, `m2` (false, see below), functions with `log` or `pow`. -/
theorem C87_partial {fuel fuel' : ℕ} {s1 : PSt (Interval D)} {s2 : PSt (Autodif (Interval D))} {p : ℕ → Interval D} {e : Expr 2} {ρ : ℕ → ℝ}
    {limit : D} {est : Res (ℤ × ℤ)} {start1 end1 start2 end2 Z : Interval D} {n m1 m2 : ℤ} {a b c d : ℝ}
    (hn : n = 1 ∨ n = 2 ∨ n = 4 ∨ n = 6) (hm1 : 0 ≤ m1 ∧ m1 ≤ 2147483647) (hm2 : 0 ≤ m2 ∧ m2 ≤ 2147483647)
    (hest : ∀ k, est = .ok k → (0 ≤ k.1 ∧ k.1 ≤ 2147483647) ∧ 0 ≤ k.2 ∧ k.2 ≤ 2147483647)
    (he : e.FinCst) (ht : e.TameE) (hp : ∀ i, ρ i ∈ p i) (hs1 : Proper start1) (hs1' : Proper end1) (hs2 : Proper start2) (hs2' : Proper end2)
    (h : doubleNewtoncotes fuel fuel' s1 s2 limit est p e start1 end1 start2 end2 n m1 m2 = .ok Z)
    (ha : a ∈ start1) (hb : b ∈ end1) (hc : c ∈ start2) (hd : d ∈ end2) :
    (∀ x ∈ Set.uIcc a b, ∀ y ∈ Set.uIcc c d, ContDiffAt ℝ (⊤ : ℕ∞) (fun v => e.real ρ v) ![x, y]) ∧
      ∫ x in a..b, ∫ y in c..d, e.real ρ ![x, y] ∈ Z ∧ ∫ y in c..d, ∫ x in a..b, e.real ρ ![x, y] ∈ Z := by
  have key := double_cases hn hm1 hm2 hest he ht hp hs1 hs1' hs2 hs2' h ha hb hc hd
  have hcd : ∀ x ∈ Set.uIcc a b, ∀ y ∈ Set.uIcc c d, ContDiffAt ℝ (⊤ : ℕ∞) (fun v => e.real ρ v) ![x, y] := fun x hx y hy => Expr.contDiffAt (key.1 x hx y hy)
  refine ⟨hcd, key.2, ?_⟩
  rw [← swap_rect (F := fun x y => e.real ρ ![x, y])]
  · exact key.2
  · intro z hz
    refine ContinuousAt.continuousWithinAt ?_
    refine ContinuousAt.comp (g := e.real ρ) (f := fun z : ℝ × ℝ => ![z.1, z.2]) (hcd _ hz.1 _ hz.2).continuousAt ?_
    refine continuousAt_pi.2 fun i => ?_
    fin_cases i
    · exact continuousAt_fst
    · exact continuousAt_snd

/-- C87: an order outside of 1, …, 7 is reported by an exception -/
theorem C87_domain {fuel fuel' : ℕ} {s1 : PSt (Interval D)} {s2 : PSt (Autodif (Interval D))} {p : ℕ → Interval D} {e : Expr 2}
    {limit : D} {est : Res (ℤ × ℤ)} {start1 end1 start2 end2 : Interval D} {n m1 m2 : ℤ} (hn : n < 1 ∨ 7 < n) :
    doubleNewtoncotes fuel fuel' s1 s2 limit est p e start1 end1 start2 end2 n m1 m2 = .error .domainError := by
  unfold doubleNewtoncotes
  rw [if_pos hn]

/-! ## The formulas of odd order, and negative numbers of points -/

namespace NCotes

/-- the call on `[0, 1] × [0, 1]` -/
def runSq (e : Expr 2) (n m1 m2 : ℤ) : Res (Interval D) :=
  doubleNewtoncotes 5 5 psa0 psaA (lit 2) (.ok (0, 0)) (fun _ => pt 0) e (pt 0) (pt 1) (pt 0) (pt 1) n m1 m2

/-- `x²` as a function of `x` and `y` -/
def xx2 : Expr 2 := .bin .mul (.var 0) (.var 0)
/-- `x⁴` -/
def xx4 : Expr 2 := .bin .mul xx2 xx2
/-- `x² y` -/
def x2y : Expr 2 := .bin .mul xx2 (.var 1)

end NCotes

/-- C87 fails for the formula of order 3: for `f(x, y) = x⁴` on `[0, 1] × [0, 1]` with 3 × 3 subintervals the result does not contain 1/5. -/
theorem C87_violated_3 : ∃ Z, runSq xx4 3 3 3 = .ok Z ∧ ∫ x in (0 : ℝ)..1, ∫ y in (0 : ℝ)..1, xx4.real (fun _ => 0) ![x, y] ∉ Z := by
  refine below_spec (c := 51 / 256) (is_cst 51 (-8) (by norm_num) (by norm_num) (by norm_num) (by norm_num)) (by decide +kernel) ?_
  rw [show (fun x : ℝ => ∫ y in (0 : ℝ)..1, xx4.real (fun _ => 0) ![x, y]) = fun x => x ^ 4 by funext x; simp [xx4, xx2, Expr.real, Bin.real]; ring, int_pow]
  norm_num

/-- C87 fails for the formula of order 5: `f(x, y) = x⁶` -/
theorem C87_violated_5 : ∃ Z, runSq (.bin .mul xx4 xx2) 5 5 5 = .ok Z ∧ ∫ x in (0 : ℝ)..1, ∫ y in (0 : ℝ)..1, (Expr.bin .mul xx4 xx2).real (fun _ => 0) ![x, y] ∉ Z := by
  refine below_spec (c := 9362 / 65536) (is_cst 9362 (-16) (by norm_num) (by norm_num) (by norm_num) (by norm_num)) (by decide +kernel) ?_
  rw [show (fun x : ℝ => ∫ y in (0 : ℝ)..1, (Expr.bin .mul xx4 xx2).real (fun _ => 0) ![x, y]) = fun x => x ^ 6 by funext x; simp [xx4, xx2, Expr.real, Bin.real]; ring, int_pow]
  norm_num

/-- C87 fails for the formula of order 7: `f(x, y) = x⁸` -/
theorem C87_violated_7 : ∃ Z, runSq (.bin .mul xx4 xx4) 7 7 7 = .ok Z ∧ ∫ x in (0 : ℝ)..1, ∫ y in (0 : ℝ)..1, (Expr.bin .mul xx4 xx4).real (fun _ => 0) ![x, y] ∉ Z := by
  refine below_spec (c := 7281 / 65536) (is_cst 7281 (-16) (by norm_num) (by norm_num) (by norm_num) (by norm_num)) (by decide +kernel) ?_
  rw [show (fun x : ℝ => ∫ y in (0 : ℝ)..1, (Expr.bin .mul xx4 xx4).real (fun _ => 0) ![x, y]) = fun x => x ^ 8 by funext x; simp [xx4, xx2, Expr.real, Bin.real]; ring, int_pow]
  norm_num

/-- C87 fails for negative `m1`, `m2`: the sum has no terms and no exception is thrown; for `f = 1` the result is 0 instead of 1. -/
theorem C87_violated_negative : ∃ Z, runSq (.cst (lit 1)) 1 (-1) (-1) = .ok Z ∧
    ∫ x in (0 : ℝ)..1, ∫ y in (0 : ℝ)..1, (Expr.cst (lit 1) : Expr 2).real (fun _ => 0) ![x, y] ∉ Z := by
  refine below_spec (c := 1 / 2) (is_cst 1 (-1) (by norm_num) (by norm_num) (by norm_num) (by norm_num)) (by decide +kernel) ?_
  have h1 : (fun x : ℝ => ∫ y in (0 : ℝ)..1, (Expr.cst (lit 1) : Expr 2).real (fun _ => 0) ![x, y]) = fun _ => (1 : ℝ) := by
    funext x
    have : (fun y : ℝ => (Expr.cst (lit 1) : Expr 2).real (fun _ => 0) ![x, y]) = fun _ => (1 : ℝ) := by
      funext y; exact is_dbl is_one
    rw [this]; norm_num
  rw [h1]
  norm_num

/-- The hypotheses of `C87_partial` are met: Simpson's rule for `x² y` with 2 × 4 subintervals, with an upper bound of the result -/
example : (runSq x2y 2 2 4).isOk = true ∧ below (runSq x2y 2 2 4) (3 / 16) = true ∧ x2y.FinCst ∧ x2y.TameE ∧ Proper (pt 0) ∧ Proper (pt 1) := by
  refine ⟨by decide +kernel, by decide +kernel, ?_, ?_, ?_, ?_⟩
  · exact ⟨⟨trivial, trivial⟩, trivial⟩
  · exact ⟨⟨trivial, trivial⟩, trivial⟩
  · exact ⟨⟨_, is_zero⟩, ⟨_, is_zero⟩, 0, (mem_pt is_zero).2 rfl⟩
  · exact ⟨⟨_, is_one⟩, ⟨_, is_one⟩, 1, (mem_pt is_one).2 rfl⟩

/-- the trapezoidal rule for `exp(x * y)` from `[0, 1/2]` to 1 and from 1 to 0, with estimated numbers of points -/
example : (doubleNewtoncotes 100 30 psa0 psaA (lit 2) (.ok (2, 3)) (fun _ => pt 0) (.un .exp (.bin .mul (.var 0) (.var 1))) ⟨lit 0, lit (1 / 2)⟩ (pt 1) (pt 1) (pt 0) 1 0 5).isOk = true := by
  decide +kernel

/-! ## regions with curved edges -/

namespace Expr

theorem real_subst2 {n : ℕ} {ρ : ℕ → ℝ} {x y : Expr n} {v : Fin n → ℝ} : ∀ e : Expr 2, (e.subst2 x y).real ρ v = e.real ρ ![x.real ρ v, y.real ρ v]
  | .var i => by fin_cases i <;> rfl
  | .par _ => rfl
  | .cst _ => rfl
  | .un _ a => by simp only [subst2, real, real_subst2 a]
  | .bin _ a b => by simp only [subst2, real, real_subst2 a, real_subst2 b]
  | .binC _ a _ => by simp only [subst2, real, real_subst2 a]
  | .cBin _ _ b => by simp only [subst2, real, real_subst2 b]
  | .powI a _ => by simp only [subst2, real, real_subst2 a]
  | .pow a b => by simp only [subst2, real, real_subst2 a, real_subst2 b]

theorem real_first {ρ : ℕ → ℝ} {v : Fin 2 → ℝ} : ∀ e : Expr 1, e.first.real ρ v = e.real ρ fun _ => v 0
  | .var _ => rfl
  | .par _ => rfl
  | .cst _ => rfl
  | .un _ a => by simp only [first, real, real_first a]
  | .bin _ a b => by simp only [first, real, real_first a, real_first b]
  | .binC _ a _ => by simp only [first, real, real_first a]
  | .cBin _ _ b => by simp only [first, real, real_first b]
  | .powI a _ => by simp only [first, real, real_first a]
  | .pow a b => by simp only [first, real, real_first a, real_first b]

theorem finCst_subst2 {n : ℕ} {x y : Expr n} (hx : x.FinCst) (hy : y.FinCst) : ∀ {e : Expr 2}, e.FinCst → (e.subst2 x y).FinCst
  | .var i, _ => by fin_cases i; exacts [hx, hy]
  | .par _, _ => trivial
  | .cst _, h => h
  | .un _ a, h => finCst_subst2 hx hy (e := a) h
  | .bin _ _ _, h => ⟨finCst_subst2 hx hy h.1, finCst_subst2 hx hy h.2⟩
  | .binC _ _ _, h => ⟨finCst_subst2 hx hy h.1, h.2⟩
  | .cBin _ _ _, h => ⟨finCst_subst2 hx hy h.1, h.2⟩
  | .powI _ _, h => ⟨finCst_subst2 hx hy h.1, h.2⟩
  | .pow _ _, h => ⟨finCst_subst2 hx hy h.1, finCst_subst2 hx hy h.2⟩

theorem tameE_subst2 {n : ℕ} {x y : Expr n} (hx : x.TameE) (hy : y.TameE) : ∀ {e : Expr 2}, e.TameE → (e.subst2 x y).TameE
  | .var i, _ => by fin_cases i; exacts [hx, hy]
  | .par _, _ => trivial
  | .cst _, _ => trivial
  | .un _ _, h => ⟨h.1, tameE_subst2 hx hy h.2⟩
  | .bin _ _ _, h => ⟨tameE_subst2 hx hy h.1, tameE_subst2 hx hy h.2⟩
  | .binC _ a _, h => tameE_subst2 hx hy (e := a) h
  | .cBin _ _ b, h => tameE_subst2 hx hy (e := b) h
  | .powI a _, h => tameE_subst2 hx hy (e := a) h
  | .pow _ _, h => h.elim

theorem finCst_first : ∀ {e : Expr 1}, e.FinCst → e.first.FinCst
  | .var _, _ => trivial
  | .par _, _ => trivial
  | .cst _, h => h
  | .un _ a, h => finCst_first (e := a) h
  | .bin _ _ _, h => ⟨finCst_first h.1, finCst_first h.2⟩
  | .binC _ _ _, h => ⟨finCst_first h.1, h.2⟩
  | .cBin _ _ _, h => ⟨finCst_first h.1, h.2⟩
  | .powI _ _, h => ⟨finCst_first h.1, h.2⟩
  | .pow _ _, h => ⟨finCst_first h.1, finCst_first h.2⟩

theorem tameE_first : ∀ {e : Expr 1}, e.TameE → e.first.TameE
  | .var _, _ => trivial
  | .par _, _ => trivial
  | .cst _, _ => trivial
  | .un _ _, h => ⟨h.1, tameE_first h.2⟩
  | .bin _ _ _, h => ⟨tameE_first h.1, tameE_first h.2⟩
  | .binC _ a _, h => tameE_first (e := a) h
  | .cBin _ _ b, h => tameE_first (e := b) h
  | .powI a _, h => tameE_first (e := a) h
  | .pow _ _, h => h.elim

end Expr

theorem curved_real {ρ : ℕ → ℝ} {f : Expr 2} {el eh : Expr 1} (x y : ℝ) : (curvedEdge f el eh).real ρ ![x, y] =
    f.real ρ ![x, (el.real ρ fun _ => x) + ((eh.real ρ fun _ => x) - el.real ρ fun _ => x) * y] * ((eh.real ρ fun _ => x) - el.real ρ fun _ => x) := by
  simp only [curvedEdge, Expr.real, Expr.real_subst2, Expr.real_first, Bin.real]
  simp only [Matrix.cons_val_zero, Matrix.cons_val_one]
  rw [mul_comm y]

/-- C88 (partial): with the formulas of order 1, 2, 4 and 6, whenever `doubleint_curvededge(f, el, eh, start, end, n, m1, m2)` returns, the result encloses
`∫ (∫ f(x, y) dy) dx` for `x` from `a` to `b` and `y` from `el(x)` to `eh(x)`, for all `a ∈ start` and `b ∈ end`.

Missing: as for C87. -/
theorem C88_partial {fuel fuel' : ℕ} {s1 : PSt (Interval D)} {s2 : PSt (Autodif (Interval D))} {p : ℕ → Interval D} {f : Expr 2} {el eh : Expr 1} {ρ : ℕ → ℝ}
    {limit : D} {est : Res (ℤ × ℤ)} {start stop Z : Interval D} {n m1 m2 : ℤ} {a b : ℝ}
    (hn : n = 1 ∨ n = 2 ∨ n = 4 ∨ n = 6) (hm1 : 0 ≤ m1 ∧ m1 ≤ 2147483647) (hm2 : 0 ≤ m2 ∧ m2 ≤ 2147483647)
    (hest : ∀ k, est = .ok k → (0 ≤ k.1 ∧ k.1 ≤ 2147483647) ∧ 0 ≤ k.2 ∧ k.2 ≤ 2147483647)
    (he : f.FinCst ∧ el.FinCst ∧ eh.FinCst) (ht : f.TameE ∧ el.TameE ∧ eh.TameE) (hp : ∀ i, ρ i ∈ p i) (hs : Proper start) (hs' : Proper stop)
    (h : doubleintCurvededge fuel fuel' s1 s2 limit est p f el eh start stop n m1 m2 = .ok Z) (ha : a ∈ start) (hb : b ∈ stop) :
    ∫ x in a..b, ∫ y in (el.real ρ fun _ => x)..(eh.real ρ fun _ => x), f.real ρ ![x, y] ∈ Z := by
  have hl := Expr.finCst_first he.2.1
  have hh := Expr.finCst_first he.2.2
  have tl := Expr.tameE_first ht.2.1
  have th := Expr.tameE_first ht.2.2
  have key := double_cases (e := curvedEdge f el eh) hn hm1 hm2 hest ⟨Expr.finCst_subst2 (x := .var 0) (y := .bin .add el.first (.bin .mul (.var 1) (.bin .sub eh.first el.first))) trivial ⟨hl, trivial, hh, hl⟩ he.1, hh, hl⟩
    ⟨Expr.tameE_subst2 (x := .var 0) (y := .bin .add el.first (.bin .mul (.var 1) (.bin .sub eh.first el.first))) trivial ⟨tl, trivial, th, tl⟩ ht.1, th, tl⟩ hp hs hs' ⟨⟨_, is_zero⟩, ⟨_, is_zero⟩, 0, point_mem is_zero⟩
    ⟨⟨_, is_one⟩, ⟨_, is_one⟩, 1, point_mem is_one⟩ h ha hb (c := 0) (d := 1) (point_mem is_zero) (point_mem is_one)
  have e1 : (fun x : ℝ => ∫ y in (0 : ℝ)..1, (curvedEdge f el eh).real ρ ![x, y]) =
      fun x => ∫ y in (el.real ρ fun _ => x)..(eh.real ρ fun _ => x), f.real ρ ![x, y] := by
    funext x
    simp only [curved_real]
    rw [intervalIntegral.integral_mul_const, mul_comm, ← smul_eq_mul,
      intervalIntegral.smul_integral_comp_add_mul (fun t => f.real ρ ![x, t])]
    congr 1 <;> ring
  have := key.2
  rwa [e1] at this

/-- C88 (partial), the other direction: `doubleint_curvededge_s(f, el, eh, start, end, n, m1, m2)` encloses `∫ (∫ f(x, y) dx) dy` for `y` from `a` to `b`
and `x` from `el(y)` to `eh(y)`. -/
theorem C88_s_partial {fuel fuel' : ℕ} {s1 : PSt (Interval D)} {s2 : PSt (Autodif (Interval D))} {p : ℕ → Interval D} {f : Expr 2} {el eh : Expr 1} {ρ : ℕ → ℝ}
    {limit : D} {est : Res (ℤ × ℤ)} {start stop Z : Interval D} {n m1 m2 : ℤ} {a b : ℝ}
    (hn : n = 1 ∨ n = 2 ∨ n = 4 ∨ n = 6) (hm1 : 0 ≤ m1 ∧ m1 ≤ 2147483647) (hm2 : 0 ≤ m2 ∧ m2 ≤ 2147483647)
    (hest : ∀ k, est = .ok k → (0 ≤ k.1 ∧ k.1 ≤ 2147483647) ∧ 0 ≤ k.2 ∧ k.2 ≤ 2147483647)
    (he : f.FinCst ∧ el.FinCst ∧ eh.FinCst) (ht : f.TameE ∧ el.TameE ∧ eh.TameE) (hp : ∀ i, ρ i ∈ p i) (hs : Proper start) (hs' : Proper stop)
    (h : doubleintCurvededgeS fuel fuel' s1 s2 limit est p f el eh start stop n m1 m2 = .ok Z) (ha : a ∈ start) (hb : b ∈ stop) :
    ∫ y in a..b, ∫ x in (el.real ρ fun _ => y)..(eh.real ρ fun _ => y), f.real ρ ![x, y] ∈ Z := by
  have := C88_partial hn hm2 hm1 hest ⟨Expr.finCst_subst2 (x := .var 1) (y := .var 0) trivial trivial he.1, he.2⟩ ⟨Expr.tameE_subst2 (x := .var 1) (y := .var 0) trivial trivial ht.1, ht.2⟩ hp hs hs' h ha hb
  simp only [Expr.real_subst2] at this
  exact this

namespace NCotes
/-- `x` -/
def lineX : Expr 1 := .var 0
/-- `f(x, y) = y` -/
def fy : Expr 2 := .var 1
end NCotes

/-- The hypotheses are met: the region `x² ≤ y ≤ x`, `0 ≤ x ≤ 1`; the integral of `y` is 1/15, the result lies between 1/16 and 5/64 -/
example : (match doubleintCurvededge 5 5 psa0 psaA (lit 2) (.ok (0, 0)) (fun _ => pt 0) fy x2 lineX (pt 0) (pt 1) 2 4 4 with
    | .ok Z => Rop.lt Z.sup (lit (5 / 64)) && Rop.lt (lit (1 / 16)) Z.inf
    | .error _ => false) = true ∧ (fy.FinCst ∧ x2.FinCst ∧ lineX.FinCst) ∧ fy.TameE ∧ x2.TameE ∧ lineX.TameE := by
  refine ⟨by decide +kernel, ⟨trivial, ⟨trivial, trivial⟩, trivial⟩, trivial, ⟨trivial, trivial⟩, trivial⟩

/-- the other direction: `y² ≤ x ≤ y`, the integral of `f(x, y) = y` is 1/12 -/
example : (match doubleintCurvededgeS 5 5 psa0 psaA (lit 2) (.ok (0, 0)) (fun _ => pt 0) fy x2 lineX (pt 0) (pt 1) 2 4 8 with
    | .ok Z => Rop.lt Z.sup (lit (11 / 128)) && Rop.lt (lit (5 / 64)) Z.inf
    | .error _ => false) = true := by
  decide +kernel

end Kv
