import Verif.Autodif.Model
import Verif.Props.Elem
import Verif.Props.Arith
import Mathlib.Analysis.SpecialFunctions.Trigonometric.DerivHyp
import Mathlib.Analysis.SpecialFunctions.Trigonometric.InverseDeriv
import Mathlib.Analysis.SpecialFunctions.Trigonometric.ArctanDeriv
import Mathlib.Analysis.SpecialFunctions.Sqrt
import Mathlib.Analysis.SpecialFunctions.Pow.Deriv
import Mathlib.Analysis.SpecialFunctions.Log.Deriv
import Mathlib.Analysis.Calculus.FDeriv.Mul
import Mathlib.Analysis.Calculus.Deriv.ZPow

/-! # Automatic differentiation: specification over the reals and helper lemmas -/

namespace Kv
open RopSem Kv.Interval
open Rop (lit)

/-! ## real semantics of template functions -/

/-- the real function denoted by an elementary function -/
noncomputable def Un.real : Un → ℝ → ℝ
  | .neg => fun x => -x
  | .exp => Real.exp
  | .log => Real.log
  | .sqrt => Real.sqrt
  | .sin => Real.sin
  | .cos => Real.cos
  | .tan => Real.tan
  | .asin => Real.arcsin
  | .acos => Real.arccos
  | .atan => Real.arctan
  | .sinh => Real.sinh
  | .cosh => Real.cosh
  | .tanh => Real.tanh
  | .asinh => Real.arsinh
  | .acosh => Real.arcosh
  | .atanh => Real.artanh

/-- the arguments at which the function is defined -/
def Un.Dom : Un → ℝ → Prop
  | .log, x => 0 < x
  | .sqrt, x => 0 ≤ x
  | .tan, x => Real.cos x ≠ 0
  | .asin, x => -1 ≤ x ∧ x ≤ 1
  | .acos, x => -1 ≤ x ∧ x ≤ 1
  | .acosh, x => 1 ≤ x
  | .atanh, x => -1 < x ∧ x < 1
  | _, _ => True

/-- the part of the domain that is checked by the function itself -/
def Un.WDom : Un → ℝ → Prop
  | .log, x => 0 ≤ x
  | .sqrt, x => 0 ≤ x
  | .acosh, x => 1 ≤ x
  | .atanh, x => -1 ≤ x ∧ x ≤ 1
  | _, _ => True

noncomputable def Bin.real : Bin → ℝ → ℝ → ℝ
  | .add, x, y => x + y
  | .sub, x, y => x - y
  | .mul, x, y => x * y
  | .div, x, y => x / y

def Bin.Dom : Bin → ℝ → Prop
  | .div, y => y ≠ 0
  | _, _ => True

/-- the real value of a double -/
noncomputable def dbl (k : D) : ℝ := (val k).toReal

namespace Expr
variable {n : ℕ}

/-- value of the template function at a real point; `ρ` are the values of the interval constants -/
noncomputable def real (ρ : ℕ → ℝ) (x : Fin n → ℝ) : Expr n → ℝ
  | .var i => x i
  | .par i => ρ i
  | .cst k => dbl k
  | .un f a => f.real (a.real ρ x)
  | .bin o a b => o.real (a.real ρ x) (b.real ρ x)
  | .binC o a k => o.real (a.real ρ x) (dbl k)
  | .cBin o k b => o.real (dbl k) (b.real ρ x)
  | .powI a y => a.real ρ x ^ y
  | .pow a b => a.real ρ x ^ b.real ρ x

/-- the template function is defined at `x` -/
def Dom (ρ : ℕ → ℝ) (x : Fin n → ℝ) : Expr n → Prop
  | .var _ => True
  | .par _ => True
  | .cst _ => True
  | .un f a => a.Dom ρ x ∧ f.Dom (a.real ρ x)
  | .bin o a b => a.Dom ρ x ∧ b.Dom ρ x ∧ o.Dom (b.real ρ x)
  | .binC o a k => a.Dom ρ x ∧ o.Dom (dbl k)
  | .cBin o _ b => b.Dom ρ x ∧ o.Dom (b.real ρ x)
  | .powI a y => a.Dom ρ x ∧ (y < 0 → a.real ρ x ≠ 0)
  | .pow a b => a.Dom ρ x ∧ b.Dom ρ x ∧ 0 < a.real ρ x

/-- all double constants of the text are finite -/
def FinCst : Expr n → Prop
  | .var _ => True
  | .par _ => True
  | .cst k => Is k (dbl k)
  | .un _ a => a.FinCst
  | .bin _ a b => a.FinCst ∧ b.FinCst
  | .binC _ a k => a.FinCst ∧ Is k (dbl k)
  | .cBin _ k b => b.FinCst ∧ Is k (dbl k)
  | .powI a y => a.FinCst ∧ |y| < 2 ^ 31
  | .pow a b => a.FinCst ∧ b.FinCst

/-- no variable occurs -/
def closed : Expr n → Bool
  | .var _ => false
  | .par _ => true
  | .cst _ => true
  | .un _ a => a.closed
  | .bin _ a b => a.closed && b.closed
  | .binC _ a _ => a.closed
  | .cBin _ _ b => b.closed
  | .powI a _ => a.closed
  | .pow a b => a.closed && b.closed

/-- constant subexpressions are in the domain of the function applied to them (`log(0)` does not
occur in the text) -/
def ConstDom (ρ : ℕ → ℝ) : Expr n → Prop
  | .var _ => True
  | .par _ => True
  | .cst _ => True
  | .un f a => a.ConstDom ρ ∧ (a.closed = true → f.Dom (a.real ρ 0))
  | .bin _ a b => a.ConstDom ρ ∧ b.ConstDom ρ
  | .binC _ a _ => a.ConstDom ρ
  | .cBin _ _ b => b.ConstDom ρ
  | .powI a _ => a.ConstDom ρ
  | .pow a b => a.ConstDom ρ ∧ b.ConstDom ρ ∧ (a.closed = true → 0 < a.real ρ 0)

theorem real_closed {ρ : ℕ → ℝ} : ∀ {e : Expr n}, e.closed = true → ∀ x y, e.real ρ x = e.real ρ y
  | .var _, h, _, _ => by simp [closed] at h
  | .par _, _, _, _ => rfl
  | .cst _, _, _, _ => rfl
  | .un f a, h, x, y => by simp only [real]; rw [real_closed (e := a) h x y]
  | .bin o a b, h, x, y => by
    simp only [closed, Bool.and_eq_true] at h
    simp only [real]; rw [real_closed h.1 x y, real_closed h.2 x y]
  | .binC o a k, h, x, y => by simp only [real]; rw [real_closed (e := a) h x y]
  | .cBin o k b, h, x, y => by simp only [real]; rw [real_closed (e := b) h x y]
  | .powI a k, h, x, y => by simp only [real]; rw [real_closed (e := a) h x y]
  | .pow a b, h, x, y => by
    simp only [closed, Bool.and_eq_true] at h
    simp only [real]; rw [real_closed h.1 x y, real_closed h.2 x y]

theorem pos_of_not_closed : ∀ {e : Expr n}, e.closed = false → 0 < n
  | .var i, _ => i.pos
  | .par _, h => by simp [closed] at h
  | .cst _, h => by simp [closed] at h
  | .un _ a, h => pos_of_not_closed (e := a) h
  | .bin _ a b, h => by
    simp only [closed, Bool.and_eq_false_iff] at h
    rcases h with h | h <;> exact pos_of_not_closed h
  | .binC _ a _, h => pos_of_not_closed (e := a) h
  | .cBin _ _ b, h => pos_of_not_closed (e := b) h
  | .powI a _, h => pos_of_not_closed (e := a) h
  | .pow a b, h => by
    simp only [closed, Bool.and_eq_false_iff] at h
    rcases h with h | h <;> exact pos_of_not_closed h

end Expr

/-! ## interval facts -/

theorem div_ok_ne {X Y Z : Interval D} {y : ℝ} (h : Interval.div X Y = .ok Z) (hy : y ∈ Y) : y ≠ 0 := by
  rintro rfl
  rw [(C03_div_error_iff X hy).2 hy] at h; cases h
theorem sDiv_ok_ne {k : D} {Y Z : Interval D} {y : ℝ} (h : Interval.sDiv k Y = .ok Z) (hy : y ∈ Y) : y ≠ 0 := by
  rintro rfl
  rw [(C03_sDiv_error_iff k hy).2 hy] at h; cases h
theorem divS_ok_ne {X Z : Interval D} {k : D} {c : ℝ} (h : Interval.divS X k = .ok Z) (hk : Is k c) : c ≠ 0 := by
  rintro rfl
  rw [(C03_divS_error_iff X hk).2 rfl] at h; cases h

theorem log_ok_nonneg {fuel : ℕ} {X Z : Interval D} {x : ℝ} (h : log fuel X = .ok Z) (hx : x ∈ X) : 0 ≤ x := by
  by_contra hc
  have : val X.inf < 0 := lt_of_le_of_lt hx.1.2 (by exact_mod_cast not_le.1 hc)
  rw [C15_log_throws hx.1.1 this] at h; cases h
theorem sqrt_ok_nonneg {X Z : Interval D} {x : ℝ} (h : Interval.sqrt X = .ok Z) (hx : x ∈ X) : 0 ≤ x := by
  by_contra hc
  have : val X.inf < 0 := lt_of_le_of_lt hx.1.2 (by exact_mod_cast not_le.1 hc)
  rw [(C05_sqrt_error_iff X).2 ⟨hx.1.1, this⟩] at h; cases h
theorem acosh_ok_le {fuel : ℕ} {X Z : Interval D} {x : ℝ} (h : acosh fuel X = .ok Z) (hx : x ∈ X) : 1 ≤ x := by
  by_contra hc
  have : val X.inf < ((1 : ℝ) : EReal) := lt_of_le_of_lt hx.1.2 (by exact_mod_cast not_le.1 hc)
  rw [C18_acosh_throws hx.1.1 this] at h; cases h
theorem atanh_ok_le {fuel : ℕ} {X Z : Interval D} {x : ℝ} (h : atanh fuel X = .ok Z) (hx : x ∈ X) :
    -1 ≤ x ∧ x ≤ 1 := by
  constructor
  · by_contra hc
    have : val X.inf < ((-1 : ℝ) : EReal) := lt_of_le_of_lt hx.1.2 (by exact_mod_cast not_le.1 hc)
    rw [C18_atanh_throws hx.1.1 (Or.inl this)] at h; cases h
  · by_contra hc
    have h1 : ((1 : ℝ) : EReal) < val X.sup := lt_of_lt_of_le (by exact_mod_cast not_le.1 hc) hx.2.2
    unfold atanh at h
    obtain ⟨A, hA, h⟩ := bind_ok.1 h
    obtain ⟨B, hB, h⟩ := bind_ok.1 h
    have : (Rop.lt X.sup (lit (-1)) || Rop.lt one X.sup) = true := by
      rw [Bool.or_eq_true, RopSem.lt_iff, RopSem.lt_iff, is_neg_one.2, is_one.2]
      exact Or.inr ⟨is_one.1, hx.2.1, h1⟩
    unfold atanhPoint at hB
    rw [if_pos this] at hB; cases hB

/-! ## derivatives of the elementary functions -/

theorem hasDerivAt_tanh (x : ℝ) : HasDerivAt Real.tanh (1 / (Real.cosh x * Real.cosh x)) x := by
  have h := (Real.hasDerivAt_sinh x).div (Real.hasDerivAt_cosh x) (Real.cosh_pos x).ne'
  have e : (fun y => Real.sinh y / Real.cosh y) = Real.tanh := by
    funext y; rw [Real.tanh_eq_sinh_div_cosh]
  have e' : (Real.sinh / Real.cosh) = Real.tanh := e
  rw [e'] at h
  have h1 := Real.cosh_sq x
  rw [show Real.cosh x * Real.cosh x - Real.sinh x * Real.sinh x = 1 by nlinarith, sq] at h
  exact h

theorem hasDerivAt_artanh {x : ℝ} (h1 : -1 < x) (h2 : x < 1) : HasDerivAt Real.artanh (1 / (1 - x * x)) x := by
  have hp : 0 < 1 + x := by linarith
  have hm : 0 < 1 - x := by linarith
  have h : HasDerivAt (fun y => 1 / 2 * (Real.log (1 + y) - Real.log (1 - y))) (1 / 2 * (1 / (1 + x) - (-1) / (1 - x))) x := by
    refine HasDerivAt.const_mul _ (HasDerivAt.sub ?_ ?_)
    · exact ((hasDerivAt_id x).const_add 1).log hp.ne'
    · exact ((hasDerivAt_id x).const_sub 1).log hm.ne'
  have e : 1 / 2 * (1 / (1 + x) - (-1) / (1 - x)) = 1 / (1 - x * x) := by
    have : (1 : ℝ) - x * x = (1 + x) * (1 - x) := by ring
    rw [this]; field_simp; ring
  rw [e] at h
  refine h.congr_of_eventuallyEq ?_
  filter_upwards [isOpen_Ioo.mem_nhds (show x ∈ Set.Ioo (-1 : ℝ) 1 from ⟨h1, h2⟩)] with y hy
  have hp : 0 < 1 + y := by linarith [hy.1]
  have hm : 0 < 1 - y := by linarith [hy.2]
  rw [Real.artanh_eq_half_log ⟨hy.1.le, hy.2.le⟩, Real.log_div hp.ne' hm.ne']

/-! ## vectors -/

namespace Autodif

theorem vec1_ofFn {S : Type} {f : S → Res S} : ∀ {n : ℕ} {A : Fin n → S} {r : List S}, vec1 f (List.ofFn A) = .ok r →
    ∃ B : Fin n → S, r = List.ofFn B ∧ ∀ j, f (A j) = .ok (B j)
  | 0, A, r, h => by
    simp only [List.ofFn_zero, vec1] at h
    cases h
    exact ⟨A, by simp, fun j => j.elim0⟩
  | n + 1, A, r, h => by
    rw [List.ofFn_succ, vec1] at h
    obtain ⟨c, hc, h⟩ := bind_ok.1 h
    obtain ⟨t, ht, h⟩ := bind_ok.1 h
    cases h
    obtain ⟨B, rfl, hB⟩ := vec1_ofFn ht
    refine ⟨Fin.cons c B, by simp [List.ofFn_succ], fun j => ?_⟩
    refine Fin.cases ?_ (fun j => ?_) j
    · simpa using hc
    · simpa using hB j

theorem vec2_ofFn {S : Type} {f : S → S → Res S} : ∀ {n : ℕ} {A A' : Fin n → S} {r : List S},
    vec2 f (List.ofFn A) (List.ofFn A') = .ok r →
    ∃ B : Fin n → S, r = List.ofFn B ∧ ∀ j, f (A j) (A' j) = .ok (B j)
  | 0, A, A', r, h => by
    simp only [List.ofFn_zero, vec2] at h
    cases h
    exact ⟨A, by simp, fun j => j.elim0⟩
  | n + 1, A, A', r, h => by
    rw [List.ofFn_succ, List.ofFn_succ, vec2] at h
    obtain ⟨c, hc, h⟩ := bind_ok.1 h
    obtain ⟨t, ht, h⟩ := bind_ok.1 h
    cases h
    obtain ⟨B, rfl, hB⟩ := vec2_ofFn ht
    refine ⟨Fin.cons c B, by simp [List.ofFn_succ], fun j => ?_⟩
    refine Fin.cases ?_ (fun j => ?_) j
    · simpa using hc
    · simpa using hB j

theorem vec1_nil {S : Type} {f : S → Res S} {r : List S} (h : vec1 f [] = .ok r) : r = [] := by
  rw [vec1] at h; cases h; rfl

end Autodif
end Kv
