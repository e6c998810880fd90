import Verif.Psa.Inverse

/-! # Power series arithmetic: evaluation of a template function -/

namespace Kv
open RopSem PowerSeries
open Rop (lit)
set_option linter.unusedSectionVars false

namespace Psa

/-- the power series of `a o b` -/
noncomputable def psBin : Bin → PowerSeries ℝ → PowerSeries ℝ → PowerSeries ℝ
  | .add, a, b => a + b
  | .sub, a, b => a - b
  | .mul, a, b => a * b
  | .div, a, b => divPs a b

noncomputable def psBinC : Bin → PowerSeries ℝ → ℝ → PowerSeries ℝ
  | .add, a, γ => a + C γ
  | .sub, a, γ => a - C γ
  | .mul, a, γ => C γ * a
  | .div, a, γ => C γ⁻¹ * a

noncomputable def psCBin : Bin → ℝ → PowerSeries ℝ → PowerSeries ℝ
  | .add, γ, b => b + C γ
  | .sub, γ, b => -b + C γ
  | .mul, γ, b => C γ * b
  | .div, γ, b => C γ * cps invD b

end Psa

namespace Expr
variable {n : ℕ}

/-- the value does not depend on the variables -/
def isC : Expr n → Bool
  | .var _ => false
  | .par _ => true
  | .cst _ => true
  | .un _ a => a.isC
  | .bin _ a b => a.isC && b.isC
  | .binC _ a _ => a.isC
  | .cBin _ _ b => b.isC
  | .powI a y => if y = 0 then true else a.isC
  | .pow a b => b.isC && a.isC

/-- the power series of the template function when the variables are the power series `c` -/
noncomputable def ps (ρ : ℕ → ℝ) (c : Fin n → PowerSeries ℝ) : Expr n → PowerSeries ℝ
  | .var i => c i
  | .par i => C (ρ i)
  | .cst k => C (dbl k)
  | .un f a => Psa.psUn f (a.ps ρ c)
  | .bin o a b => Psa.psBin o (a.ps ρ c) (b.ps ρ c)
  | .binC o a k => Psa.psBinC o (a.ps ρ c) (dbl k)
  | .cBin o k b => Psa.psCBin o (dbl k) (b.ps ρ c)
  | .powI a y => Psa.zpowPs (a.ps ρ c) y
  | .pow a b => Psa.powPs (a.ps ρ c) (b.ps ρ c)

/-- the template function is smooth at `x` -/
def SDom (ρ : ℕ → ℝ) (x : Fin n → ℝ) : Expr n → Prop
  | .var _ => True
  | .par _ => True
  | .cst _ => True
  | .un f a => a.SDom ρ x ∧ f.SDom (a.real ρ x)
  | .bin o a b => a.SDom ρ x ∧ b.SDom ρ x ∧ o.Dom (b.real ρ x)
  | .binC o a k => a.SDom ρ x ∧ o.Dom (dbl k)
  | .cBin o _ b => b.SDom ρ x ∧ o.Dom (b.real ρ x)
  | .powI a y => a.SDom ρ x ∧ (y < 0 → a.real ρ x ≠ 0)
  | .pow a b => a.SDom ρ x ∧ b.SDom ρ x ∧ 0 < a.real ρ x

/-- the arguments of logarithms are positive: of all, or of the constant ones -/
def LDom (all : Prop) (ρ : ℕ → ℝ) (x : Fin n → ℝ) : Expr n → Prop
  | .var _ => True
  | .par _ => True
  | .cst _ => True
  | .un f a => a.LDom all ρ x ∧ (f = .log → all ∨ a.isC = true → 0 < a.real ρ x)
  | .bin _ a b => a.LDom all ρ x ∧ b.LDom all ρ x
  | .binC _ a _ => a.LDom all ρ x
  | .cBin _ _ b => b.LDom all ρ x
  | .powI a _ => a.LDom all ρ x
  | .pow a b => a.LDom all ρ x ∧ b.LDom all ρ x ∧ (all ∨ a.isC = true → 0 < a.real ρ x)

/-- the inverse functions do not occur -/
def noInv : Expr n → Prop
  | .var _ => True
  | .par _ => True
  | .cst _ => True
  | .un f a => a.noInv ∧ f.isInv = false
  | .bin _ a b => a.noInv ∧ b.noInv
  | .binC _ a _ => a.noInv
  | .cBin _ _ b => b.noInv
  | .powI a _ => a.noInv
  | .pow a b => a.noInv ∧ b.noInv

theorem Dom.lDom {all : Prop} {ρ : ℕ → ℝ} {x : Fin n → ℝ} : ∀ {e : Expr n}, e.Dom ρ x → e.LDom all ρ x
  | .var _, _ => trivial
  | .par _, _ => trivial
  | .cst _, _ => trivial
  | .un f a, h => ⟨Dom.lDom h.1, fun hf _ => by subst hf; exact h.2⟩
  | .bin _ _ _, h => ⟨Dom.lDom h.1, Dom.lDom h.2.1⟩
  | .binC _ a _, h => Dom.lDom (e := a) h.1
  | .cBin _ _ b, h => Dom.lDom (e := b) h.1
  | .powI a _, h => Dom.lDom (e := a) h.1
  | .pow _ _, h => ⟨Dom.lDom h.1, Dom.lDom h.2.1, fun _ => h.2.2⟩

theorem real_isC {ρ : ℕ → ℝ} {x y : Fin n → ℝ} : ∀ {e : Expr n}, e.isC = true → e.real ρ x = e.real ρ y
  | .var _, h => by cases h
  | .par _, _ => rfl
  | .cst _, _ => rfl
  | .un f a, h => by simp only [real]; rw [real_isC (e := a) h]
  | .bin _ a b, h => by
    simp only [isC, Bool.and_eq_true] at h
    simp only [real]; rw [real_isC h.1, real_isC h.2]
  | .binC _ a _, h => by simp only [real]; rw [real_isC (e := a) h]
  | .cBin _ _ b, h => by simp only [real]; rw [real_isC (e := b) h]
  | .powI a y, h => by
    simp only [isC] at h
    split_ifs at h with h0
    · simp [real, h0]
    · simp only [real]; rw [real_isC (e := a) h]
  | .pow a b, h => by
    simp only [isC, Bool.and_eq_true] at h
    simp only [real]; rw [real_isC h.1, real_isC h.2]

/-- for the constant parts the point does not matter -/
theorem LDom.mono {ρ : ℕ → ℝ} {x : Fin n → ℝ} {all all' : Prop} (hi : all' → all) : ∀ {e : Expr n}, e.LDom all ρ x → e.LDom all' ρ x
  | .var _, _ => trivial
  | .par _, _ => trivial
  | .cst _, _ => trivial
  | .un f a, h => ⟨LDom.mono hi h.1, fun hf hc => h.2 hf (hc.imp hi id)⟩
  | .bin _ _ _, h => ⟨LDom.mono hi h.1, LDom.mono hi h.2⟩
  | .binC _ a _, h => LDom.mono hi (e := a) h
  | .cBin _ _ b, h => LDom.mono hi (e := b) h
  | .powI a _, h => LDom.mono hi (e := a) h
  | .pow _ _, h => ⟨LDom.mono hi h.1, LDom.mono hi h.2.1, fun hc => h.2.2 (hc.imp hi id)⟩

theorem LDom.move {ρ : ℕ → ℝ} {x y : Fin n → ℝ} : ∀ {e : Expr n}, e.LDom False ρ x → e.LDom False ρ y
  | .var _, _ => trivial
  | .par _, _ => trivial
  | .cst _, _ => trivial
  | .un f a, h => ⟨LDom.move h.1, fun hf hc => by rw [real_isC (y := x) (hc.resolve_left id)]; exact h.2 hf hc⟩
  | .bin _ _ _, h => ⟨LDom.move h.1, LDom.move h.2⟩
  | .binC _ a _, h => LDom.move (e := a) h
  | .cBin _ _ b, h => LDom.move (e := b) h
  | .powI a _, h => LDom.move (e := a) h
  | .pow _ _, h => ⟨LDom.move h.1, LDom.move h.2.1, fun hc => by rw [real_isC (y := x) (hc.resolve_left id)]; exact h.2.2 hc⟩

open Psa in
/-- the constant term is the value -/
theorem ps_zero {ρ : ℕ → ℝ} {c : Fin n → PowerSeries ℝ} : ∀ {e : Expr n}, e.SDom ρ (fun i => coeff 0 (c i)) →
    coeff 0 (e.ps ρ c) = e.real ρ (fun i => coeff 0 (c i))
  | .var i, _ => rfl
  | .par i, _ => by simp [ps, real]
  | .cst k, _ => by simp [ps, real]
  | .un f a, h => by
    have ih := ps_zero h.1
    simp only [ps, real]
    rw [← ih]
    have md : ∀ a b : PowerSeries ℝ, coeff 0 (divPs a b) = coeff 0 a / coeff 0 b := fun a b => by
      rw [divPs, coeff_zero_eq_constantCoeff_apply, map_mul, ← coeff_zero_eq_constantCoeff_apply,
        ← coeff_zero_eq_constantCoeff_apply, coeff_cps_zero, div_eq_mul_inv]
      simp [invD]
    cases f <;> simp only [psUn, coeff_cps_zero, coeff_comp_zero, invCo, iC, Un.real, md] <;>
      first
        | rfl
        | simp [sinD, cosD, sinhD, coshD, sqrtD, Real.tan_eq_sin_div_cos, Real.tanh_eq_sinh_div_cosh]
  | .bin o a b, h => by
    have iha := ps_zero h.1
    have ihb := ps_zero h.2.1
    simp only [ps, real]
    rw [← iha, ← ihb]
    cases o
    · simp [psBin, Bin.real]
    · simp [psBin, Bin.real]
    · simp [psBin, Bin.real]
    · simp only [psBin, Bin.real, divPs]
      rw [coeff_zero_eq_constantCoeff_apply, map_mul, ← coeff_zero_eq_constantCoeff_apply,
        ← coeff_zero_eq_constantCoeff_apply, coeff_cps_zero, div_eq_mul_inv]
      simp [invD]
  | .binC o a k, h => by
    have iha := ps_zero h.1
    simp only [ps, real]
    rw [← iha]
    cases o <;> simp [psBinC, Bin.real, div_eq_mul_inv, mul_comm]
  | .cBin o k b, h => by
    have iha := ps_zero h.1
    simp only [ps, real]
    rw [← iha]
    cases o
    · simp [psCBin, Bin.real, add_comm]
    · simp [psCBin, Bin.real]; ring
    · simp [psCBin, Bin.real]
    · simp only [psCBin, Bin.real]
      rw [PowerSeries.coeff_C_mul, coeff_cps_zero, div_eq_mul_inv]
      simp [invD]
  | .powI a y, h => by
    have iha := ps_zero h.1
    simp only [ps, real]
    rw [← iha, zpowPs]
    have e : ∀ m : ℕ, coeff 0 (a.ps ρ c ^ m) = coeff 0 (a.ps ρ c) ^ m := fun m => by
      rw [coeff_zero_eq_constantCoeff_apply, map_pow, ← coeff_zero_eq_constantCoeff_apply]
    split_ifs with hy
    · rw [e, ← zpow_natCast, show ((y.natAbs : ℕ) : ℤ) = y by omega]
    · rw [coeff_cps_zero, e]
      simp only [invD, pow_zero, Nat.factorial_zero, Nat.cast_one, mul_one, zero_add, pow_one, one_div]
      rw [← zpow_natCast, ← zpow_neg, show -((y.natAbs : ℕ) : ℤ) = y by omega]
  | .pow a b, h => by
    have iha := ps_zero h.1
    have ihb := ps_zero h.2.1
    simp only [ps, real, powPs]
    rw [coeff_cps_zero, expD, coeff_zero_eq_constantCoeff_apply, map_mul, ← coeff_zero_eq_constantCoeff_apply,
      ← coeff_zero_eq_constantCoeff_apply, coeff_cps_zero, iha, ihb, logD, Real.rpow_def_of_pos h.2.2, mul_comm]

open Psa PM ScalSem in
/-- evaluation in power series arithmetic -/
theorem evalP_spec {S : Type} [ScalSem S] (ρ : ℕ → ℝ) (c : Fin n → PowerSeries ℝ) : ∀ (e : Expr n), e.FinCst →
    ∃ T : ℕ → List (PowerSeries ℝ × Bool), ∀ {E : Env S} (_ : E.Ok) {p : ℕ → S} {x : Fin n → List S} {v : Fin n → ℝ},
      (∀ i, mem (ρ i) (p i)) → (∀ i, Sem E false (c i) (v i) (x i)) → (E.md = 2 → e.noInv) →
      e.LDom (E.s < 2) ρ (fun i => coeff 0 (c i)) →
      OpT E T e.isC (e.ps ρ c) (e.real ρ v) (e.SDom ρ (fun i => coeff 0 (c i)) ∧ (E.md = 2 → e.SDom ρ v)) (e.evalP p x)
  | .var i, _ => ⟨fun _ => [], fun {E} hE {p x v} _ hx _ _ => OpT.pure (hx i) ⟨trivial, fun _ => trivial⟩⟩
  | .par i, _ => ⟨fun _ => [], fun {E} hE {p x v} hp _ _ _ => OpT.pure (sem_const hE (hp i)) ⟨trivial, fun _ => trivial⟩⟩
  | .cst k, hf => ⟨fun _ => [], fun {E} hE {p x v} hp _ _ _ => OpT.pure (sem_const hE (ofC_mem hf)) ⟨trivial, fun _ => trivial⟩⟩
  | .un f a, hf => by
    obtain ⟨T1, h1⟩ := evalP_spec (S := S) ρ c a hf
    obtain ⟨T2, h2⟩ := un_spec (S := S) f a.isC (a.ps ρ c)
    refine ⟨fun m => T1 m ++ T2 m, fun {E} hE {p x v} hp hx hn hl => OpT.bind (h1 hE hp hx (fun h => (hn h).1) hl.1) fun z hz hX => ?_⟩
    have e0 := ps_zero hX.1
    refine (h2 hE hz (fun h => (hn h).2) (fun h1 h2 => by rw [e0]; exact hl.2 h1 h2)).imp fun hY => ?_
    rw [e0] at hY
    exact ⟨⟨hX.1, hY.1⟩, fun h => ⟨hX.2 h, hY.2 h⟩⟩
  | .bin o a b, hf => by
    obtain ⟨T1, h1⟩ := evalP_spec (S := S) ρ c a hf.1
    obtain ⟨T2, h2⟩ := evalP_spec (S := S) ρ c b hf.2
    have key : ∃ T3, ∀ {E : Env S} (_ : E.Ok) {va vb : ℝ} {y z : List S}, Sem E a.isC (a.ps ρ c) va y → Sem E b.isC (b.ps ρ c) vb z →
        OpT E T3 (a.isC && b.isC) (psBin o (a.ps ρ c) (b.ps ρ c)) (o.real va vb) (o.Dom (coeff 0 (b.ps ρ c)) ∧ (E.md = 2 → o.Dom vb))
          (Psa.bin o y z) := by
      cases o with
      | add => exact ⟨_, fun {E} hE {va vb y z} hy hz => (Op1.opT (add_spec hE hy hz)).imp fun _ => ⟨trivial, fun _ => trivial⟩⟩
      | sub => exact ⟨_, fun {E} hE {va vb y z} hy hz => (Op1.opT (sub_spec hE hy hz)).imp fun _ => ⟨trivial, fun _ => trivial⟩⟩
      | mul => exact ⟨_, fun {E} hE {va vb y z} hy hz => (Op1.opT (mul_spec hE hy hz)).imp fun _ => ⟨trivial, fun _ => trivial⟩⟩
      | div => exact ⟨_, fun {E} hE {va vb y z} hy hz => div_spec hE hy hz⟩
    obtain ⟨T3, h3⟩ := key
    refine ⟨fun m => T1 m ++ (T2 m ++ T3 m), fun {E} hE {p x v} hp hx hn hl =>
      OpT.bind (h1 hE hp hx (fun h => (hn h).1) hl.1) fun y hy hX =>
      OpT.bind (h2 hE hp hx (fun h => (hn h).2) hl.2) fun z hz hY => (h3 hE hy hz).imp fun hD => ?_⟩
    have e0 := ps_zero hY.1
    rw [e0] at hD
    exact ⟨⟨hX.1, hY.1, hD.1⟩, fun h => ⟨hX.2 h, hY.2 h, hD.2 h⟩⟩
  | .binC o a k, hf => by
    obtain ⟨T1, h1⟩ := evalP_spec (S := S) ρ c a hf.1
    have key : ∃ T3, ∀ {E : Env S} (_ : E.Ok) {va : ℝ} {y : List S}, Sem E a.isC (a.ps ρ c) va y →
        OpT E T3 a.isC (psBinC o (a.ps ρ c) (dbl k)) (o.real va (dbl k)) (o.Dom (dbl k)) (Psa.binC o y k) := by
      cases o with
      | add => exact ⟨_, fun {E} hE {va y} hy => OpT.lift fun z hz => ⟨addHeadC_sem hE hy hf.2 hz, trivial⟩⟩
      | sub => exact ⟨_, fun {E} hE {va y} hy => OpT.lift fun z hz => ⟨subHeadC_sem hE hy hf.2 hz, trivial⟩⟩
      | mul => exact ⟨_, fun {E} hE {va y} hy => ((Op1.opT (mulC_spec hE hy hf.2)).congr rfl rfl rfl (mul_comm _ _)).imp fun _ => trivial⟩
      | div =>
        refine ⟨_, fun {E} hE {va y} hy => OpT.lift fun z hz => ⟨?_, ?_⟩⟩
        · have := divV_sem hy (ofC_mem hf.2) hz
          simpa [psBinC, Bin.real, div_eq_mul_inv, mul_comm] using this
        · obtain ⟨q, hq, hrq⟩ := hy.rep
          have hpos := hy.pos hE
          unfold divV at hz
          obtain ⟨-, h2⟩ := tab_ok hz
          obtain ⟨w, hw, -⟩ := h2 0 (by omega)
          obtain ⟨w', hw', hw⟩ := bind_ok.1 hw
          exact (bin_mem hw (hq.at hw') (ofC_mem hf.2)).1
    obtain ⟨T3, h3⟩ := key
    exact ⟨fun m => T1 m ++ T3 m, fun {E} hE {p x v} hp hx hn hl =>
      OpT.bind (h1 hE hp hx hn hl) fun y hy hX => (h3 hE hy).imp fun hD => ⟨⟨hX.1, hD⟩, fun h => ⟨hX.2 h, hD⟩⟩⟩
  | .cBin o k b, hf => by
    obtain ⟨T1, h1⟩ := evalP_spec (S := S) ρ c b hf.1
    have key : ∃ T3, ∀ {E : Env S} (_ : E.Ok) {vb : ℝ} {y : List S}, Sem E b.isC (b.ps ρ c) vb y →
        OpT E T3 b.isC (psCBin o (dbl k) (b.ps ρ c)) (o.real (dbl k) vb) (o.Dom (coeff 0 (b.ps ρ c)) ∧ (E.md = 2 → o.Dom vb))
          (Psa.cBin o k y) := by
      cases o with
      | add => exact ⟨_, fun {E} hE {vb y} hy => (OpT.lift fun z hz => ⟨addHeadC_sem hE hy hf.2 hz, trivial, fun _ => trivial⟩).congr
          rfl rfl rfl (add_comm _ _)⟩
      | sub =>
        refine ⟨_, fun {E} hE {vb y} hy => (OpT.lift fun z hz => ?_).congr rfl rfl rfl (neg_add_eq_sub _ _)⟩
        obtain ⟨w, hw, hz⟩ := bind_ok.1 hz
        exact ⟨addHeadC_sem hE (neg_sem hy hw) hf.2 hz, trivial, fun _ => trivial⟩
      | mul => exact ⟨_, fun {E} hE {vb y} hy => (Op1.opT (cMul_spec hE hy hf.2)).imp fun _ => ⟨trivial, fun _ => trivial⟩⟩
      | div => exact ⟨_, fun {E} hE {vb y} hy => cDiv_spec hE hy hf.2⟩
    obtain ⟨T3, h3⟩ := key
    refine ⟨fun m => T1 m ++ T3 m, fun {E} hE {p x v} hp hx hn hl =>
      OpT.bind (h1 hE hp hx hn hl) fun y hy hX => (h3 hE hy).imp fun hD => ?_⟩
    rw [ps_zero hX.1] at hD
    exact ⟨⟨hX.1, hD.1⟩, fun h => ⟨hX.2 h, hD.2 h⟩⟩
  | .powI a y, hf => by
    obtain ⟨T1, h1⟩ := evalP_spec (S := S) ρ c a hf.1
    obtain ⟨T2, h2⟩ := powI_spec (S := S) a.isC (a.ps ρ c) y
    refine ⟨fun m => T1 m ++ T2 m, fun {E} hE {p x v} hp hx hn hl => OpT.bind (h1 hE hp hx hn hl) fun z hz hX =>
      (h2 hE hz).imp fun hY => ?_⟩
    rw [ps_zero hX.1] at hY
    exact ⟨⟨hX.1, fun h => (hY h).1⟩, fun h2 => ⟨hX.2 h2, fun h => (hY h).2 h2⟩⟩
  | .pow a b, hf => by
    obtain ⟨T1, h1⟩ := evalP_spec (S := S) ρ c a hf.1
    obtain ⟨T2, h2⟩ := evalP_spec (S := S) ρ c b hf.2
    refine ⟨fun m => T1 m ++ (T2 m ++ (ctr logD (a.ps ρ c) a.isC m ++ ([(b.ps ρ c * cps logD (a.ps ρ c), b.isC && a.isC)] ++
      ctr expD (b.ps ρ c * cps logD (a.ps ρ c)) (b.isC && a.isC) m))), fun {E} hE {p x v} hp hx hn hl =>
      OpT.bind (h1 hE hp hx (fun h => (hn h).1) hl.1) fun y hy hX =>
      OpT.bind (h2 hE hp hx (fun h => (hn h).2) hl.2.1) fun z hz hY => ?_⟩
    have e0 := ps_zero hX.1
    refine ((pow_spec hE hy hz (fun h => by rw [e0]; exact hl.2.2 h)).value (v' := a.real ρ v ^ b.real ρ v) fun hD hk => ?_).imp fun hD => ?_
    · have : 0 < a.real ρ v := by
        rcases hk with hk | hk
        · exact hD.2 hk
        · simp only [Bool.and_eq_true] at hk
          rw [← hy.con0 hk.2]; exact hD.1
      rw [Real.rpow_def_of_pos this, mul_comm]
    · rw [e0] at hD
      exact ⟨⟨hX.1, hY.1, hD.1⟩, fun h => ⟨hX.2 h, hY.2 h, hD.2 h⟩⟩

end Expr
end Kv
