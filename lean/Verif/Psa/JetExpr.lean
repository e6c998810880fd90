import Verif.Psa.Jet
import Verif.Autodif.Lemmas

/-! # Taylor coefficients of template functions -/

namespace Kv
open PowerSeries Asymptotics Filter Topology
open scoped Nat
open Psa

/-- the first `m` coefficients of `c` are the Taylor coefficients of `f` at 0 -/
def HasP (m : ℕ) (f : ℝ → ℝ) (c : PowerSeries ℝ) : Prop := HasT m f fun k => coeff k c

theorem HasT.mono {m M : ℕ} {f : ℝ → ℝ} {a : ℕ → ℝ} (h : HasT M f a) (hm : m ≤ M) : HasT m f a := by
  have h3 : (fun t : ℝ => t ^ M) =O[𝓝 0] fun t => t ^ m := by
    obtain ⟨j, rfl⟩ := Nat.exists_eq_add_of_le hm
    have hc : (fun t : ℝ => t ^ j) =O[𝓝 0] fun _ => (1 : ℝ) := by
      have : ContinuousAt (fun t : ℝ => t ^ j) 0 := by fun_prop
      exact this.isBigO_one ℝ
    simpa [pow_add] using (isBigO_refl (fun t : ℝ => t ^ m) (𝓝 0)).mul hc
  have h5 := poly' m M a hm
  unfold HasT at h h5 ⊢
  exact ((h.trans h3).add h5).congr (fun t => by ring) (fun _ => rfl)

namespace HasP
variable {m : ℕ} {f g : ℝ → ℝ} {a b : PowerSeries ℝ}

theorem congr (h : HasP m f a) (e : ∀ t, f t = g t) : HasP m g a := HasT.congr_fun h (Eventually.of_forall e)
theorem congr' (h : HasP m f a) (e : f =ᶠ[𝓝 0] g) : HasP m g a := HasT.congr_fun h e

theorem const (m : ℕ) (γ : ℝ) : HasP m (fun _ => γ) (C γ) :=
  (HasT.const m γ).congr_co fun k _ => by
    rw [PowerSeries.coeff_C]

theorem add (hf : HasP m f a) (hg : HasP m g b) : HasP m (fun t => f t + g t) (a + b) :=
  (HasT.add hf hg).congr_co fun k _ => by rw [map_add]

theorem neg (hf : HasP m f a) : HasP m (fun t => -f t) (-a) :=
  (HasT.neg hf).congr_co fun k _ => by rw [map_neg]

theorem sub (hf : HasP m f a) (hg : HasP m g b) : HasP m (fun t => f t - g t) (a - b) := by
  have := hf.add hg.neg
  rw [← sub_eq_add_neg] at this
  exact this.congr fun t => by ring

theorem mul (hf : HasP m f a) (hg : HasP m g b) : HasP m (fun t => f t * g t) (a * b) := HasT.mul hf hg

theorem smul (γ : ℝ) (hf : HasP m f a) : HasP m (fun t => γ * f t) (C γ * a) := (const m γ).mul hf

theorem pow (hf : HasP m f a) (i : ℕ) : HasP m (fun t => f t ^ i) (a ^ i) := HasT.pow hf i

theorem idPs (m : ℕ) (c0 : ℝ) : HasP m (fun t => c0 + t) (idPs c0) := by
  refine (const m c0).add ?_
  have h1 : HasT (m + 2) (fun t : ℝ => t) (fun k => coeff k (X : PowerSeries ℝ)) := by
    refine (HasT.poly (m + 2) _).congr_fun (Eventually.of_forall fun t => ?_)
    simp only
    rw [Finset.sum_eq_single 1]
    · simp
    · intro k _ hk
      rw [PowerSeries.coeff_X, if_neg hk, zero_mul]
    · intro h
      exact absurd (Finset.mem_range.2 (by omega)) h
  exact h1.mono (by omega)

theorem cps {F : ℕ → ℝ → ℝ} {D : Set ℝ} (hD : IsOpen D) (hF : ∀ k, ∀ t ∈ D, HasDerivAt (F k) (F (k + 1) t) t)
    (hf : HasP m f a) (hm : 1 ≤ m) (h0 : coeff 0 a ∈ D) : HasP m (fun t => F 0 (f t)) (Psa.cps F a) :=
  HasT.comp (F := F 0) hf hm (HasT.taylor hD hF h0 m)

theorem inv (hf : HasP m f a) (hm : 1 ≤ m) (h0 : coeff 0 a ≠ 0) : HasP m (fun t => (f t)⁻¹) (Psa.cps invD a) :=
  (hf.cps (F := invD) isOpen_ne (fun k _ ht => invD_hasDeriv k ht) hm h0).congr fun t => by simp [invD]

theorem sqrt (hf : HasP m f a) (hm : 1 ≤ m) (h0 : 0 < coeff 0 a) : HasP m (fun t => √(f t)) (Psa.cps sqrtD a) :=
  (hf.cps (F := sqrtD) isOpen_Ioi (fun k _ ht => sqrtD_hasDeriv k ht) hm h0).congr fun t => by simp [sqrtD]

theorem div (hf : HasP m f a) (hg : HasP m g b) (hm : 1 ≤ m) (h0 : coeff 0 b ≠ 0) :
    HasP m (fun t => f t / g t) (divPs a b) := (hf.mul (hg.inv hm h0)).congr fun t => by rw [div_eq_mul_inv]

theorem invFn {F F' : ℝ → ℝ} {D : Set ℝ} (hD : IsOpen D) (hF : ∀ t ∈ D, HasDerivAt F (F' t) t) {d : PowerSeries ℝ}
    (hd : HasP m (fun t => F' (coeff 0 a + t)) d) (hf : HasP m f a) (hm : 1 ≤ m) (h0 : coeff 0 a ∈ D) :
    HasP m (fun t => F (f t)) (comp (iC (F (coeff 0 a)) d) (a - C (coeff 0 a))) := by
  refine HasT.comp hf hm (HasT.mono (M := m + 1) ?_ (by omega))
  have h1 : ∀ᶠ t in 𝓝 (0 : ℝ), coeff 0 a + t ∈ D := by
    have : ContinuousAt (fun t : ℝ => coeff 0 a + t) 0 := by fun_prop
    exact this.eventually_mem (hD.mem_nhds (by simpa using h0))
  refine (HasT.integrate (h1.mono fun t ht => ?_) hd).congr_co fun k _ => ?_
  · exact HasDerivAt.comp_const_add (coeff 0 a) t (hF _ ht)
  · cases k with
    | zero => simp [iC]
    | succ k => simp [iC]

theorem un {u : Un} (hf : HasP m f a) (hm : 1 ≤ m) (h0 : u.SDom (coeff 0 a)) : HasP m (fun t => u.real (f t)) (psUn u a) := by
  have hs : HasP m (fun t => Real.sin (f t)) (Psa.cps sinD a) :=
    (hf.cps (F := sinD) isOpen_univ (fun k t _ => sinD_hasDeriv k t) hm trivial).congr fun t => by simp [sinD]
  have hc : HasP m (fun t => Real.cos (f t)) (Psa.cps cosD a) :=
    (hf.cps (F := cosD) isOpen_univ (fun k t _ => sinD_hasDeriv (k + 1) t) hm trivial).congr fun t => by simp [cosD, sinD]
  have hsh : HasP m (fun t => Real.sinh (f t)) (Psa.cps sinhD a) :=
    (hf.cps (F := sinhD) isOpen_univ (fun k t _ => sinhD_hasDeriv k t) hm trivial).congr fun t => by simp [sinhD]
  have hch : HasP m (fun t => Real.cosh (f t)) (Psa.cps coshD a) :=
    (hf.cps (F := coshD) isOpen_univ (fun k t _ => sinhD_hasDeriv (k + 1) t) hm trivial).congr fun t => by simp [coshD, sinhD]
  have hid := idPs m (coeff 0 a)
  have hsq := hid.mul hid
  have h1m : HasP m (fun t => 1 - (coeff 0 a + t) ^ 2) (-(Psa.idPs (coeff 0 a) * Psa.idPs (coeff 0 a)) + C 1) :=
    (hsq.neg.add (const m 1)).congr fun t => by ring
  have h1p : HasP m (fun t => 1 + (coeff 0 a + t) ^ 2) (Psa.idPs (coeff 0 a) * Psa.idPs (coeff 0 a) + C 1) :=
    (hsq.add (const m 1)).congr fun t => by ring
  have hm1 : HasP m (fun t => (coeff 0 a + t) ^ 2 - 1) (Psa.idPs (coeff 0 a) * Psa.idPs (coeff 0 a) - C 1) :=
    (hsq.sub (const m 1)).congr fun t => by ring
  have e1 : coeff 0 (-(Psa.idPs (coeff 0 a) * Psa.idPs (coeff 0 a)) + C 1) = 1 - coeff 0 a * coeff 0 a := by
    rw [map_add, map_neg, coeff_idPs_sq]; simp; ring
  have e2 : coeff 0 (Psa.idPs (coeff 0 a) * Psa.idPs (coeff 0 a) + C 1) = 1 + coeff 0 a * coeff 0 a := by
    rw [map_add, coeff_idPs_sq]; simp; ring
  have e3 : coeff 0 (Psa.idPs (coeff 0 a) * Psa.idPs (coeff 0 a) - C 1) = coeff 0 a * coeff 0 a - 1 := by
    rw [map_sub, coeff_idPs_sq]; simp
  have hsqrt : ∀ {c : PowerSeries ℝ}, 0 < coeff 0 c → coeff 0 (Psa.cps sqrtD c) ≠ 0 := fun {c} h => by
    rw [coeff_cps_zero]; simpa [sqrtD] using (Real.sqrt_pos.2 h).ne'
  have hcos : coeff 0 (Psa.cps cosD a) = Real.cos (coeff 0 a) := by
    rw [coeff_cps_zero]; simp [cosD, sinD]
  have hcosh : coeff 0 (Psa.cps coshD a) = Real.cosh (coeff 0 a) := by
    rw [coeff_cps_zero]; simp [coshD, sinhD]
  cases u with
  | neg => exact hf.neg
  | exp => exact hf.cps (F := expD) isOpen_univ (fun k t _ => Real.hasDerivAt_exp t) hm trivial
  | log => exact hf.cps (F := logD) (D := {0}ᶜ) isOpen_compl_singleton (fun k _ ht => logD_hasDeriv k ht) hm (ne_of_gt h0)
  | sqrt => exact hf.sqrt hm h0
  | sin => exact hs
  | cos => exact hc
  | tan => exact (hs.div hc hm (by rw [hcos]; exact h0)).congr fun t => (Real.tan_eq_sin_div_cos _).symm
  | sinh => exact hsh
  | cosh => exact hch
  | tanh => exact (hsh.div hch hm (by rw [hcosh]; exact (Real.cosh_pos _).ne')).congr fun t => (Real.tanh_eq_sinh_div_cosh _).symm
  | asin =>
    have hp : 0 < 1 - coeff 0 a * coeff 0 a := by have := h0.1; have := h0.2; nlinarith
    exact invFn (F := Real.arcsin) (D := Set.Ioo (-1) 1) isOpen_Ioo (fun t ht => Real.hasDerivAt_arcsin ht.1.ne' ht.2.ne)
      (((h1m.sqrt hm (by rw [e1]; exact hp)).inv hm (hsqrt (by rw [e1]; exact hp))).smul 1 |>.congr fun t => by simp) hf hm h0
  | acos =>
    have hp : 0 < 1 - coeff 0 a * coeff 0 a := by have := h0.1; have := h0.2; nlinarith
    exact invFn (F := Real.arccos) (D := Set.Ioo (-1) 1) isOpen_Ioo (fun t ht => Real.hasDerivAt_arccos ht.1.ne' ht.2.ne)
      (((h1m.sqrt hm (by rw [e1]; exact hp)).inv hm (hsqrt (by rw [e1]; exact hp))).smul (-1) |>.congr fun t => by simp) hf hm h0
  | atan =>
    have hp : 1 + coeff 0 a * coeff 0 a ≠ 0 := by nlinarith [mul_self_nonneg (coeff 0 a)]
    exact invFn (F := Real.arctan) (D := Set.univ) isOpen_univ (fun t _ => Real.hasDerivAt_arctan t)
      ((h1p.inv hm (by rw [e2]; exact hp)).smul 1 |>.congr fun t => by simp) hf hm trivial
  | asinh =>
    have hp : 0 < 1 + coeff 0 a * coeff 0 a := by nlinarith [mul_self_nonneg (coeff 0 a)]
    exact invFn (F := Real.arsinh) (D := Set.univ) isOpen_univ (fun t _ => Real.hasDerivAt_arsinh t)
      (((h1p.sqrt hm (by rw [e2]; exact hp)).inv hm (hsqrt (by rw [e2]; exact hp))).smul 1 |>.congr fun t => by simp) hf hm trivial
  | acosh =>
    have h0' : 1 < coeff 0 a := h0
    have hp : 0 < coeff 0 a * coeff 0 a - 1 := by nlinarith
    exact invFn (F := Real.arcosh) (D := Set.Ioi 1) isOpen_Ioi (fun t ht => Real.hasDerivAt_arcosh ht)
      (((hm1.sqrt hm (by rw [e3]; exact hp)).inv hm (hsqrt (by rw [e3]; exact hp))).smul 1 |>.congr fun t => by simp) hf hm h0'
  | atanh =>
    have hp : 0 < 1 - coeff 0 a * coeff 0 a := by have := h0.1; have := h0.2; nlinarith
    exact invFn (F := Real.artanh) (D := Set.Ioo (-1) 1) isOpen_Ioo (fun t ht => hasDerivAt_artanh ht.1 ht.2)
      ((h1m.inv hm (by rw [e1]; exact hp.ne')).smul 1 |>.congr fun t => by simp [pow_two]) hf hm h0

end HasP

/-- the formal power series of a template function holds its Taylor coefficients -/
theorem Expr.hasP {n m : ℕ} {ρ : ℕ → ℝ} {x : Fin n → ℝ → ℝ} {c : Fin n → PowerSeries ℝ} (hm : 1 ≤ m) (hx : ∀ i, HasP m (x i) (c i)) :
    ∀ {e : Expr n}, e.SDom ρ (fun i => coeff 0 (c i)) → HasP m (fun t => e.real ρ (fun i => x i t)) (e.ps ρ c)
  | .var i, _ => hx i
  | .par i, _ => HasP.const m _
  | .cst k, _ => HasP.const m _
  | .un f a, h => (hasP hm hx h.1).un hm (by rw [ps_zero h.1]; exact h.2)
  | .bin o a b, h => by
    have ha := hasP hm hx h.1
    have hb := hasP hm hx h.2.1
    have h0 := h.2.2
    cases o
    · exact ha.add hb
    · exact ha.sub hb
    · exact ha.mul hb
    · exact ha.div hb hm (by rw [ps_zero h.2.1]; exact h0)
  | .binC o a k, h => by
    have ha := hasP hm hx h.1
    cases o
    · exact ha.add (HasP.const m _)
    · exact ha.sub (HasP.const m _)
    · exact (ha.smul _).congr fun t => mul_comm _ _
    · exact (ha.smul _).congr fun t => by show _ = _ / _; rw [div_eq_mul_inv, mul_comm]
  | .cBin o k b, h => by
    have hb := hasP hm hx h.1
    have h0 := h.2
    cases o
    · exact (hb.add (HasP.const m _)).congr fun t => add_comm _ _
    · exact (hb.neg.add (HasP.const m _)).congr fun t => by show _ = _ - _; ring
    · exact hb.smul _
    · exact ((hb.inv hm (by rw [ps_zero h.1]; exact h0)).smul _).congr fun t => by show _ = _ / _; rw [div_eq_mul_inv]
  | .powI a y, h => by
    have ha := hasP hm hx h.1
    simp only [ps, real, zpowPs]
    split_ifs with hy
    · exact (ha.pow y.natAbs).congr fun t => by rw [← zpow_natCast, show ((y.natAbs : ℕ) : ℤ) = y by omega]
    · refine ((ha.pow y.natAbs).inv hm ?_).congr fun t => by
        rw [← zpow_natCast, ← zpow_neg, show -((y.natAbs : ℕ) : ℤ) = y by omega]
      rw [coeff_zero_eq_constantCoeff_apply, map_pow, ← coeff_zero_eq_constantCoeff_apply, ps_zero h.1]
      exact pow_ne_zero _ (h.2 (by omega))
  | .pow a b, h => by
    have ha := hasP hm hx h.1
    have hb := hasP hm hx h.2.1
    have hl := ha.un (u := .log) hm (by rw [ps_zero h.1]; exact h.2.2)
    refine ((hb.mul hl).un (u := .exp) hm trivial).congr' ?_
    have h0 : 0 < coeff 0 (a.ps ρ c) := by rw [ps_zero h.1]; exact h.2.2
    filter_upwards [(HasT.tendsto ha hm).eventually_mem (Ioi_mem_nhds h0)] with t ht
    simp only [Un.real, real]
    rw [Real.rpow_def_of_pos ht, mul_comm]

end Kv
