import Verif.Psa.JetExpr
import Mathlib.Analysis.SpecialFunctions.Trigonometric.InverseDeriv
import Mathlib.Analysis.SpecialFunctions.Trigonometric.ArctanDeriv
import Mathlib.Analysis.SpecialFunctions.Trigonometric.ComplexDeriv
import Mathlib.Analysis.SpecialFunctions.Arsinh
import Mathlib.Analysis.SpecialFunctions.Arcosh
import Mathlib.Analysis.SpecialFunctions.Artanh
import Mathlib.Analysis.SpecialFunctions.Pow.Deriv
import Mathlib.Analysis.SpecialFunctions.Sqrt
import Mathlib.Analysis.SpecialFunctions.Log.Deriv

/-! # Template functions are smooth where `SDom` holds -/

namespace Kv

theorem Un.contDiffAt {f : Un} {x : ℝ} (h : f.SDom x) {k : WithTop ℕ∞} : ContDiffAt ℝ k f.real x := by
  cases f with
  | neg => exact contDiff_neg.contDiffAt
  | exp => exact Real.contDiff_exp.contDiffAt
  | log => exact Real.contDiffAt_log.2 (ne_of_gt h)
  | sqrt => exact Real.contDiffAt_sqrt (ne_of_gt h)
  | sin => exact Real.contDiff_sin.contDiffAt
  | cos => exact Real.contDiff_cos.contDiffAt
  | tan => exact Real.contDiffAt_tan.2 h
  | asin => exact Real.contDiffAt_arcsin (ne_of_gt h.1) (ne_of_lt h.2)
  | acos => exact Real.contDiffAt_arccos (ne_of_gt h.1) (ne_of_lt h.2)
  | atan => exact Real.contDiff_arctan.contDiffAt
  | sinh => exact Real.contDiff_sinh.contDiffAt
  | cosh => exact Real.contDiff_cosh.contDiffAt
  | tanh =>
    have : ContDiffAt ℝ k (fun t => Real.sinh t / Real.cosh t) x :=
      Real.contDiff_sinh.contDiffAt.div Real.contDiff_cosh.contDiffAt (Real.cosh_pos x).ne'
    exact this.congr_of_eventuallyEq (Filter.Eventually.of_forall fun t => Real.tanh_eq_sinh_div_cosh t)
  | asinh => exact Real.contDiff_arsinh.contDiffAt
  | acosh => exact Real.contDiffAt_arcosh h
  | atanh =>
    have h1 : 0 < 1 + x := by have := h.1; linarith
    have h2 : 0 < 1 - x := by have := h.2; linarith
    have h3 : ContDiffAt ℝ k (fun t : ℝ => (1 + t) / (1 - t)) x :=
      (contDiffAt_const.add contDiffAt_id).div (contDiffAt_const.sub contDiffAt_id) h2.ne'
    have h4 := div_pos h1 h2
    exact (h3.sqrt h4.ne').log (Real.sqrt_pos.2 h4).ne'

namespace Expr
variable {n : ℕ}

theorem contDiffAt {ρ : ℕ → ℝ} {x : Fin n → ℝ} {k : WithTop ℕ∞} : ∀ {e : Expr n}, e.SDom ρ x → ContDiffAt ℝ k (fun x => e.real ρ x) x
  | .var i, _ => by
    simp only [real]
    exact (contDiff_apply ℝ ℝ i).contDiffAt
  | .par i, _ => contDiffAt_const
  | .cst c, _ => contDiffAt_const
  | .un f a, h => ContDiffAt.comp x (Un.contDiffAt h.2) (contDiffAt h.1)
  | .bin o a b, h => by
    have ha := contDiffAt (k := k) h.1
    have hb := contDiffAt (k := k) h.2.1
    have h0 := h.2.2
    cases o
    · exact ha.add hb
    · exact ha.sub hb
    · exact ha.mul hb
    · exact ha.div hb h0
  | .binC o a c, h => by
    have ha := contDiffAt (k := k) h.1
    have h0 := h.2
    cases o
    · exact ha.add contDiffAt_const
    · exact ha.sub contDiffAt_const
    · exact ha.mul contDiffAt_const
    · exact ha.div contDiffAt_const h0
  | .cBin o c b, h => by
    have hb := contDiffAt (k := k) h.1
    have h0 := h.2
    cases o
    · exact contDiffAt_const.add hb
    · exact contDiffAt_const.sub hb
    · exact contDiffAt_const.mul hb
    · exact contDiffAt_const.div hb h0
  | .powI a y, h => by
    have ha := contDiffAt (k := k) h.1
    simp only [real]
    rcases le_or_gt 0 y with hy | hy
    · refine (ha.pow y.natAbs).congr_of_eventuallyEq (Filter.Eventually.of_forall fun t => ?_)
      show _ = _ ^ _
      rw [← zpow_natCast, show ((y.natAbs : ℕ) : ℤ) = y by omega]
    · refine ((ha.pow y.natAbs).inv (pow_ne_zero _ (h.2 hy))).congr_of_eventuallyEq (Filter.Eventually.of_forall fun t => ?_)
      show _ = (_ ^ _)⁻¹
      rw [← zpow_natCast, ← zpow_neg, show -((y.natAbs : ℕ) : ℤ) = y by omega]
  | .pow a b, h => by
    have ha := contDiffAt (k := k) h.1
    have hb := contDiffAt (k := k) h.2.1
    exact ha.rpow hb h.2.2.ne'

theorem Un_SDom_open (f : Un) : IsOpen {t | f.SDom t} := by
  cases f with
  | log => exact isOpen_Ioi
  | sqrt => exact isOpen_Ioi
  | tan => exact isOpen_ne_fun Real.continuous_cos continuous_const
  | asin => exact isOpen_Ioo
  | acos => exact isOpen_Ioo
  | acosh => exact isOpen_Ioi
  | atanh => exact isOpen_Ioo
  | _ => exact isOpen_univ

/-- the template function stays smooth near a point where it is -/
theorem SDom.eventually {ρ : ℕ → ℝ} {x : Fin n → ℝ} : ∀ {e : Expr n}, e.SDom ρ x → ∀ᶠ y in nhds x, e.SDom ρ y
  | .var i, _ => Filter.Eventually.of_forall fun _ => trivial
  | .par i, _ => Filter.Eventually.of_forall fun _ => trivial
  | .cst c, _ => Filter.Eventually.of_forall fun _ => trivial
  | .un f a, h => by
    have hc := (contDiffAt (k := 0) h.1).continuousAt
    exact (SDom.eventually h.1).and (hc.eventually_mem ((Un_SDom_open f).mem_nhds h.2))
  | .bin o a b, h => by
    have hc := (contDiffAt (k := 0) h.2.1).continuousAt
    refine (SDom.eventually h.1).and ((SDom.eventually h.2.1).and ?_)
    cases o
    · exact Filter.Eventually.of_forall fun _ => trivial
    · exact Filter.Eventually.of_forall fun _ => trivial
    · exact Filter.Eventually.of_forall fun _ => trivial
    · exact hc.eventually_mem (isOpen_ne.mem_nhds h.2.2)
  | .binC o a c, h => (SDom.eventually h.1).and (Filter.Eventually.of_forall fun _ => h.2)
  | .cBin o c b, h => by
    have hc := (contDiffAt (k := 0) h.1).continuousAt
    refine (SDom.eventually h.1).and ?_
    cases o
    · exact Filter.Eventually.of_forall fun _ => trivial
    · exact Filter.Eventually.of_forall fun _ => trivial
    · exact Filter.Eventually.of_forall fun _ => trivial
    · exact hc.eventually_mem (isOpen_ne.mem_nhds h.2)
  | .powI a y, h => by
    have hc := (contDiffAt (k := 0) h.1).continuousAt
    refine (SDom.eventually h.1).and ?_
    by_cases hy : y < 0
    · exact (hc.eventually_mem (isOpen_ne.mem_nhds (h.2 hy))).mono fun _ h _ => h
    · exact Filter.Eventually.of_forall fun _ h => absurd h hy
  | .pow a b, h => by
    have hc := (contDiffAt (k := 0) h.1).continuousAt
    exact (SDom.eventually h.1).and ((SDom.eventually h.2.1).and (hc.eventually_mem (isOpen_Ioi.mem_nhds h.2.2)))

end Expr
end Kv
