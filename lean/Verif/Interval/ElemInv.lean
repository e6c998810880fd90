import Verif.Interval.ElemLog
import Mathlib.Analysis.SpecialFunctions.Arsinh
import Mathlib.Analysis.SpecialFunctions.Arcosh
import Mathlib.Analysis.SpecialFunctions.Artanh
import Mathlib.Analysis.SpecialFunctions.Trigonometric.Arctan

/-! # Helper lemmas: inverse hyperbolic and inverse trigonometric functions -/

namespace Kv
open RopSem
open Rop (lit)

namespace Interval

/-! ## inverse hyperbolic functions -/

theorem logPoint_inf (fuel : ℕ) (up : Bool) :
    logPoint fuel (Rop.inf : D) up = .ok (if up then Rop.inf else Rop.maxv) := by
  unfold logPoint
  rw [sqrt_two_eq]
  have h : Rop.eq (Rop.inf : D) Rop.inf = true := eq_inf_iff.2 inf_val
  simp only [h, if_true]
  rfl

theorem log_inf (fuel : ℕ) :
    log fuel (⟨Rop.inf, Rop.inf⟩ : Interval D) = .ok ⟨Rop.maxv, Rop.inf⟩ := by
  unfold log
  rw [if_neg (by decide +kernel)]
  dsimp only
  rw [logPoint_inf, logPoint_inf]; rfl

theorem sqrt1px2_mem {x : D} {c : ℝ} {S : Interval D} (hx : Is x c) (h : sqrt1px2 x = .ok S) :
    Real.sqrt (1 + c ^ 2) ∈ S := by
  unfold sqrt1px2 at h
  have := sqrt_mem h (sAdd_mem (mulS_mem (point_mem hx) hx) (is_one (T := D)))
  rwa [← pow_two] at this

theorem sqrt_pos_arg (c : ℝ) : 0 < c + Real.sqrt (1 + c ^ 2) := by
  have h : |c| < Real.sqrt (1 + c ^ 2) := by
    rw [← Real.sqrt_sq_eq_abs]
    exact Real.sqrt_lt_sqrt (sq_nonneg c) (by linarith)
  have := neg_abs_le c
  linarith

theorem arsinh_neg_eq (c : ℝ) : Real.arsinh c = -Real.log (-c + Real.sqrt (1 + c ^ 2)) := by
  have := Real.arsinh_neg c
  unfold Real.arsinh at this ⊢
  rw [neg_sq] at this
  linarith

theorem asinhPoint_enc {fuel : ℕ} {x : D} {Z : Interval D} (hn : ¬ nan x)
    (h : asinhPoint fuel x = .ok Z) : PtEnc Real.arsinh (val x) Z := by
  have mono : Monotone Real.arsinh := Real.arsinh_strictMono.monotone
  unfold asinhPoint at h
  rcases D_cases x with h1 | rfl | rfl | ⟨q, hq, rfl⟩
  · exact absurd h1 hn
  · rw [if_neg (by decide +kernel), if_neg (by decide +kernel)] at h
    obtain ⟨S, hS, h⟩ := bind_ok.1 h
    have e : sqrt1px2 (Rop.inf : D) = .ok ⟨Rop.inf, Rop.inf⟩ := by decide +kernel
    rw [e] at hS; cases hS
    have e2 : sAdd (Rop.inf : D) ⟨Rop.inf, Rop.inf⟩ = ⟨Rop.inf, Rop.inf⟩ := by decide +kernel
    rw [e2, log_inf] at h
    cases h
    rw [inf_val.2]
    exact ⟨fun c hc => by simp at hc, fun c _ => hi_inf _⟩
  · rw [if_pos (by decide +kernel)] at h
    obtain ⟨S, hS, h⟩ := bind_ok.1 h
    have e : sqrt1px2 (Rop.neg Rop.inf : D) = .ok ⟨Rop.inf, Rop.inf⟩ := by decide +kernel
    rw [e] at hS; cases hS
    have e2 : sAdd (Rop.neg (Rop.neg Rop.inf) : D) ⟨Rop.inf, Rop.inf⟩ = ⟨Rop.inf, Rop.inf⟩ := by
      decide +kernel
    rw [e2, log_inf] at h
    obtain ⟨L, hL, h⟩ := bind_ok.1 h
    cases hL; cases h
    rw [val_neg_inf]
    exact ⟨fun c _ => ⟨not_nan_neg_inf, by show val (Rop.neg Rop.inf : D) ≤ _; rw [val_neg_inf]; exact bot_le⟩,
      fun c hc => by simp at hc⟩
  · have hx := Hw.is_fin hq
    generalize (q : ℝ) = c at hx
    refine PtEnc.of_mem mono hx.2 ?_
    split_ifs at h with h1 h2
    · obtain ⟨S, hS, h⟩ := bind_ok.1 h
      obtain ⟨L, hL, h⟩ := bind_ok.1 h
      cases h
      rw [arsinh_neg_eq]
      refine neg_mem (log_mem hL (sAdd_mem (sqrt1px2_mem hx hS) (is_neg hx)) ?_)
      have := sqrt_pos_arg (-c)
      rwa [neg_sq] at this
    · obtain ⟨S, hS, h⟩ := bind_ok.1 h
      obtain ⟨Q, hQ, h⟩ := bind_ok.1 h
      have hs := sqrt1px2_mem hx hS
      have s0 : 0 ≤ Real.sqrt (1 + c ^ 2) := Real.sqrt_nonneg _
      have s2 : Real.sqrt (1 + c ^ 2) ^ 2 = 1 + c ^ 2 := Real.sq_sqrt (by positivity)
      have hq2 := mulS_mem (sAdd_mem (sDiv_mem hQ (sAdd_mem hs (is_one (T := D))) hx) (is_one (T := D))) hx
      have e : (1 + c / (1 + Real.sqrt (1 + c ^ 2))) * c = c + Real.sqrt (1 + c ^ 2) - 1 := by
        have : 1 + Real.sqrt (1 + c ^ 2) ≠ 0 := by positivity
        field_simp
        nlinarith
      rw [e] at hq2
      have := log1p_mem h hq2 (by have := sqrt_pos_arg c; linarith)
      rwa [show 1 + (c + Real.sqrt (1 + c ^ 2) - 1) = c + Real.sqrt (1 + c ^ 2) by ring] at this
    · obtain ⟨S, hS, h⟩ := bind_ok.1 h
      exact log_mem h (sAdd_mem (sqrt1px2_mem hx hS) hx) (sqrt_pos_arg c)

/-- as `PtEnc`, for a function on a set -/
def PtEncOn (s : Set ℝ) (f : ℝ → ℝ) (v : EReal) (Z : Interval D) : Prop :=
  (∀ c ∈ s, v ≤ (c : EReal) → Lo Z.inf (f c)) ∧ (∀ c ∈ s, (c : EReal) ≤ v → Hi Z.sup (f c))

theorem PtEncOn.of_mem {s : Set ℝ} {f : ℝ → ℝ} (hf : MonotoneOn f s) {v : EReal} {c : ℝ} (hv : v = c)
    (hc : c ∈ s) {Z : Interval D} (h : f c ∈ Z) : PtEncOn s f v Z := by
  subst hv
  exact ⟨fun d hd hcd => h.1.mono (hf hc hd (EReal.coe_le_coe_iff.1 hcd)),
    fun d hd hcd => h.2.mono (hf hd hc (EReal.coe_le_coe_iff.1 hcd))⟩

theorem PtEncOn.join {s : Set ℝ} {f : ℝ → ℝ} {X A B : Interval D} {x : ℝ} (hx : x ∈ X) (hs : x ∈ s)
    (hA : PtEncOn s f (val X.inf) A) (hB : PtEncOn s f (val X.sup) B) :
    f x ∈ (⟨A.inf, B.sup⟩ : Interval D) :=
  ⟨hA.1 x hs hx.1.2, hB.2 x hs hx.2.2⟩

theorem arcosh_mono : MonotoneOn Real.arcosh (Set.Ici 1) := by
  intro a ha b hb hab
  simp only [Set.mem_Ici] at ha hb
  unfold Real.arcosh
  apply Real.log_le_log
  · have := Real.sqrt_nonneg (a ^ 2 - 1); linarith
  · have := Real.sqrt_le_sqrt (show a ^ 2 - 1 ≤ b ^ 2 - 1 by nlinarith); linarith

theorem acoshPoint_enc {fuel : ℕ} {x : D} {Z : Interval D} (hn : ¬ nan x)
    (h : acoshPoint fuel x = .ok Z) : PtEncOn (Set.Ici 1) Real.arcosh (val x) Z := by
  unfold acoshPoint at h
  rcases D_cases x with h1 | rfl | rfl | ⟨q, hq, rfl⟩
  · exact absurd h1 hn
  · rw [if_neg (by decide +kernel), if_neg (by decide +kernel), if_neg (by decide +kernel)] at h
    obtain ⟨S, hS, h⟩ := bind_ok.1 h
    have e : sqrt (subS (mulS (point (Rop.inf : D)) Rop.inf) one) = .ok ⟨Rop.inf, Rop.inf⟩ := by
      decide +kernel
    rw [e] at hS; cases hS
    have e2 : sAdd (Rop.inf : D) ⟨Rop.inf, Rop.inf⟩ = ⟨Rop.inf, Rop.inf⟩ := by decide +kernel
    rw [e2, log_inf] at h
    cases h
    rw [inf_val.2]
    exact ⟨fun c _ hc => by simp at hc, fun c _ _ => hi_inf _⟩
  · rw [if_pos (by decide +kernel)] at h; cases h
  · have hx := Hw.is_fin hq
    generalize (q : ℝ) = c at hx
    by_cases h1 : Rop.lt (Hw.fin q hq) (one : D) = true
    · rw [if_pos h1] at h; cases h
    rw [if_neg h1] at h
    rw [lt_of_is hx is_one, not_lt] at h1
    refine PtEncOn.of_mem arcosh_mono hx.2 h1 ?_
    by_cases h2 : Rop.eq (Hw.fin q hq) (one : D) = true
    · rw [if_pos h2] at h
      rw [eq_of_is hx is_one] at h2
      cases h
      rw [h2, Real.arcosh]
      norm_num
      exact point_mem is_zero
    rw [if_neg h2] at h
    by_cases h3 : Rop.le (Hw.fin q hq) (lit (3 / 2) : D) = true
    · rw [if_pos h3] at h
      obtain ⟨S, hS, h⟩ := bind_ok.1 h
      have i32 : Is (lit (3 / 2) : D) (3 / 2) := by
        have := is_cst (q := 3 / 2) 3 (-1) (by norm_num) (by norm_num) (by norm_num) (by norm_num)
        push_cast at this; exact this
      rw [le_of_is hx i32] at h3
      have hy := point_mem (sub_one_spec hx (by linarith) (by linarith))
      have hs := sqrt_mem hS (mul_mem hy (addS_mem (point_mem hx) is_one))
      have e : (c - 1) * (c + 1) = c ^ 2 - 1 := by ring
      rw [e] at hs
      have s0 := Real.sqrt_nonneg (c ^ 2 - 1)
      have := log1p_mem h (add_mem hy hs) (by linarith)
      unfold Real.arcosh
      rwa [show 1 + (c - 1 + Real.sqrt (c ^ 2 - 1)) = c + Real.sqrt (c ^ 2 - 1) by ring] at this
    · rw [if_neg h3] at h
      obtain ⟨S, hS, h⟩ := bind_ok.1 h
      have hs := sqrt_mem hS (subS_mem (mulS_mem (point_mem hx) hx) (is_one (T := D)))
      rw [← pow_two] at hs
      have s0 := Real.sqrt_nonneg (c ^ 2 - 1)
      exact log_mem h (sAdd_mem hs hx) (by linarith)

theorem artanh_eq (c : ℝ) (h1 : -1 < c) (h2 : c < 1) :
    Real.artanh c = 1 / 2 * Real.log ((1 + c) / (1 - c)) := by
  unfold Real.artanh
  rw [Real.log_sqrt (div_nonneg (by linarith) (by linarith))]; ring

theorem artanh_mono : MonotoneOn Real.artanh (Set.Ioo (-1) 1) := by
  intro a ha b hb hab
  rw [artanh_eq a ha.1 ha.2, artanh_eq b hb.1 hb.2]
  have h1 := ha.1; have h2 := ha.2; have h3 := hb.1; have h4 := hb.2
  have : (1 + a) / (1 - a) ≤ (1 + b) / (1 - b) := by
    rw [div_le_div_iff₀ (by linarith) (by linarith)]; nlinarith
  have := Real.log_le_log (div_pos (by linarith) (by linarith)) this
  linarith

theorem atanhPoint_enc {fuel : ℕ} {x : D} {Z : Interval D} (hn : ¬ nan x)
    (h : atanhPoint fuel x = .ok Z) : PtEncOn (Set.Ioo (-1) 1) Real.artanh (val x) Z := by
  unfold atanhPoint at h
  by_cases h1 : (Rop.lt x (lit (-1)) || Rop.lt one x) = true
  · rw [if_pos h1] at h; cases h
  rw [if_neg h1] at h
  have hr : ((-1 : ℝ) : EReal) ≤ val x ∧ val x ≤ ((1 : ℝ) : EReal) := by
    rw [Bool.or_eq_true, not_or, lt_iff, lt_iff, is_one.2, is_neg_one.2] at h1
    constructor
    · by_contra hc; exact h1.1 ⟨hn, is_neg_one.1, not_le.1 hc⟩
    · by_contra hc; exact h1.2 ⟨is_one.1, hn, not_le.1 hc⟩
  obtain ⟨c, hx⟩ : ∃ c : ℝ, Is x c := by
    rcases cases_val hn with hx | hx | hx
    · have := hr.2; rw [hx] at this; exact absurd this (not_le.2 (EReal.coe_lt_top _))
    · have := hr.1; rw [hx] at this; exact absurd this (not_le.2 (EReal.bot_lt_coe _))
    · exact hx
  have r1 : -1 ≤ c := by have := hr.1; rw [hx.2] at this; exact EReal.coe_le_coe_iff.1 this
  have r2 : c ≤ 1 := by have := hr.2; rw [hx.2] at this; exact EReal.coe_le_coe_iff.1 this
  by_cases h2 : Rop.eq x (lit (-1)) = true
  · rw [if_pos h2] at h
    rw [eq_of_is hx is_neg_one] at h2
    cases h
    rw [hx.2, h2]
    refine ⟨fun d _ _ => ⟨not_nan_neg_inf, by rw [val_neg_inf]; exact bot_le⟩, fun d hd hdc => ?_⟩
    have : d ≤ -1 := by exact_mod_cast hdc
    exact absurd hd.1 (not_lt.2 this)
  rw [if_neg h2] at h
  rw [eq_of_is hx is_neg_one] at h2
  by_cases h3 : Rop.eq x one = true
  · rw [if_pos h3] at h
    rw [eq_of_is hx is_one] at h3
    cases h
    rw [hx.2, h3]
    refine ⟨fun d hd hdc => ?_, fun d _ _ => hi_inf _⟩
    have : 1 ≤ d := by exact_mod_cast hdc
    exact absurd hd.2 (not_lt.2 this)
  rw [if_neg h3] at h
  rw [eq_of_is hx is_one] at h3
  have r1 : -1 < c := lt_of_le_of_ne r1 (Ne.symm h2)
  have r2 : c < 1 := lt_of_le_of_ne r2 h3
  refine PtEncOn.of_mem artanh_mono hx.2 ⟨r1, r2⟩ ?_
  rw [artanh_eq c r1 r2]
  have qpos : 0 < (1 + c) / (1 - c) := div_pos (by linarith) (by linarith)
  by_cases h4 : Rop.lt x (lit (-1 / 2)) = true
  · rw [if_pos h4] at h
    rw [lt_of_is hx is_neg_half] at h4
    obtain ⟨Q, hQ, h⟩ := bind_ok.1 h
    obtain ⟨L, hL, h⟩ := bind_ok.1 h
    cases h
    have hq := sDiv_mem hQ (sSub_mem (point_mem hx) is_one) (one_add_spec hx (by linarith) (by linarith))
    exact sMul_mem (log_mem hL hq qpos) is_half
  rw [if_neg h4] at h
  rw [lt_of_is hx is_neg_half] at h4
  by_cases h5 : Rop.le x half = true
  · rw [if_pos h5] at h
    rw [le_of_is hx is_half] at h5
    obtain ⟨Q, hQ, h⟩ := bind_ok.1 h
    obtain ⟨L, hL, h⟩ := bind_ok.1 h
    cases h
    have m1 : (2 : ℝ) ≤ (binary64.maxQ : ℝ) := by
      have h1 := two_pow_le_maxQ (F := binary64)
      have h2 : (2 : ℚ) ^ 1 ≤ 2 ^ binary64.p := pow_le_pow_right₀ (by norm_num) (by decide)
      have : (2 : ℚ) ≤ binary64.maxQ := by linarith
      exact_mod_cast this
    have h2x : Is (Rop.mul two x) (2 * c) := by
      rcases two_mul_spec hx rep64_two with h | ⟨_, h⟩ | ⟨_, h⟩
      · exact h
      · linarith
      · linarith
    have hq := sDiv_mem hQ (sSub_mem (point_mem hx) is_one) h2x
    have e : 1 + 2 * c / (1 - c) = (1 + c) / (1 - c) := by
      have : 1 - c ≠ 0 := by linarith
      field_simp; ring
    have := sMul_mem (log1p_mem hL hq (by linarith)) (is_half (T := D))
    rwa [e] at this
  · rw [if_neg h5] at h
    rw [le_of_is hx is_half] at h5
    obtain ⟨Q, hQ, h⟩ := bind_ok.1 h
    obtain ⟨L, hL, h⟩ := bind_ok.1 h
    cases h
    have hq := divS_mem hQ (sAdd_mem (point_mem hx) is_one) (one_sub_spec hx (by linarith) (by linarith))
    exact sMul_mem (log_mem hL hq qpos) is_half

/-! ## arctangent -/

theorem is_sqrt2p1 : Is (lit Cst.sqrt2p1 : D) (Cst.sqrt2p1 : ℚ) :=
  is_cst 2718162824974067 (-50) (by norm_num) (by norm_num) (by norm_num) (by norm_num [Cst.sqrt2p1])
theorem is_neg_sqrt2p1 : Is (lit (-Cst.sqrt2p1) : D) ((-Cst.sqrt2p1 : ℚ)) :=
  is_cst (-2718162824974067) (-50) (by norm_num) (by norm_num) (by norm_num) (by norm_num [Cst.sqrt2p1])
theorem is_sqrt2m1 : Is (lit Cst.sqrt2m1 : D) (Cst.sqrt2m1 : ℚ) :=
  is_cst 1865452045155277 (-52) (by norm_num) (by norm_num) (by norm_num) (by norm_num [Cst.sqrt2m1])
theorem is_neg_sqrt2m1 : Is (lit (-Cst.sqrt2m1) : D) ((-Cst.sqrt2m1 : ℚ)) :=
  is_cst (-1865452045155277) (-52) (by norm_num) (by norm_num) (by norm_num) (by norm_num [Cst.sqrt2m1])
theorem is_quarter : Is (lit (1 / 4) : D) (1 / 4) := by
  have := is_cst (q := 1 / 4) 1 (-2) (by norm_num) (by norm_num) (by norm_num) (by norm_num)
  push_cast at this; exact this
theorem is_three_quarter : Is (lit (3 / 4) : D) (3 / 4) := by
  have := is_cst (q := 3 / 4) 3 (-2) (by norm_num) (by norm_num) (by norm_num) (by norm_num)
  push_cast at this; exact this

theorem arctan_shift_up {z : ℝ} (h : z < 1) :
    Real.arctan ((1 + z) / (1 - z)) = Real.arctan z + Real.pi / 4 := by
  have := Real.arctan_add (x := z) (y := 1) (by linarith)
  rw [Real.arctan_one] at this
  rw [this]; congr 1; rw [add_comm, mul_one]

theorem arctan_shift_down {z : ℝ} (h : -1 < z) :
    Real.arctan ((z - 1) / (z + 1)) = Real.arctan z - Real.pi / 4 := by
  have := Real.arctan_add (x := z) (y := -1) (by linarith)
  rw [Real.arctan_neg, Real.arctan_one] at this
  rw [sub_eq_add_neg (Real.arctan z), this]; congr 1; congr 1; ring

theorem atanPoint_enc {fuel : ℕ} {x : D} {Z : Interval D} (hn : ¬ nan x)
    (h : atanPoint fuel x = .ok Z) : PtEnc Real.arctan (val x) Z := by
  unfold atanPoint at h
  obtain ⟨P, hP, h⟩ := bind_ok.1 h
  have hpi := constPi_mem hP
  dsimp only at h
  rcases D_cases x with h1 | rfl | rfl | ⟨q, hq, rfl⟩
  · exact absurd h1 hn
  · rw [if_neg (by decide +kernel), if_neg (by decide +kernel), if_neg (by decide +kernel),
      if_neg (by decide +kernel)] at h
    obtain ⟨Q, hQ, h⟩ := bind_ok.1 h
    obtain ⟨A, hA, h⟩ := bind_ok.1 h
    cases h
    have e : sDiv one (point (Rop.inf : D)) = .ok (point (lit 0)) := by decide +kernel
    rw [e] at hQ; cases hQ
    have := sub_mem (mulS_mem hpi is_half) (atanOrigin_mem hA (point_mem is_zero))
    rw [inf_val.2]
    refine ⟨fun c hc => by simp at hc, fun c _ => this.2.mono ?_⟩
    rw [Real.arctan_zero]
    have := Real.arctan_lt_pi_div_two c
    linarith
  · rw [if_pos (by decide +kernel)] at h
    obtain ⟨Q, hQ, h⟩ := bind_ok.1 h
    obtain ⟨A, hA, h⟩ := bind_ok.1 h
    cases h
    have e : sDiv one (point (Rop.neg Rop.inf : D)) = .ok (point (lit 0)) := by decide +kernel
    rw [e] at hQ; cases hQ
    have := sub_mem (mulS_mem (neg_mem hpi) is_half) (atanOrigin_mem hA (point_mem is_zero))
    rw [val_neg_inf]
    refine ⟨fun c _ => this.1.mono ?_, fun c hc => by simp at hc⟩
    rw [Real.arctan_zero]
    have := Real.neg_pi_div_two_lt_arctan c
    linarith
  · have hx := Hw.is_fin hq
    generalize (q : ℝ) = c at hx
    refine PtEnc.of_mem Real.arctan_strictMono.monotone hx.2 ?_
    have hI := point_mem hx
    by_cases h1 : Rop.lt (Hw.fin q hq) (lit (-Cst.sqrt2p1)) = true
    · rw [if_pos h1] at h
      rw [lt_of_is hx is_neg_sqrt2p1] at h1
      obtain ⟨Q, hQ, h⟩ := bind_ok.1 h
      obtain ⟨A, hA, h⟩ := bind_ok.1 h
      cases h
      have hc : c < 0 := h1.trans (by norm_num [Cst.sqrt2p1])
      have := sub_mem (mulS_mem (neg_mem hpi) is_half) (atanOrigin_mem hA (sDiv_mem hQ hI is_one))
      convert this using 1
      rw [one_div c, Real.arctan_inv_of_neg hc]; ring
    rw [if_neg h1] at h
    by_cases h2 : Rop.lt (Hw.fin q hq) (lit (-Cst.sqrt2m1)) = true
    · rw [if_pos h2] at h
      rw [lt_of_is hx is_neg_sqrt2m1] at h2
      obtain ⟨Q, hQ, h⟩ := bind_ok.1 h
      obtain ⟨A, hA, h⟩ := bind_ok.1 h
      cases h
      have hc : c < 0 := h2.trans (by norm_num [Cst.sqrt2m1])
      have := add_mem (mulS_mem (neg_mem hpi) is_quarter)
        (atanOrigin_mem hA (div_mem hQ (sAdd_mem hI is_one) (sSub_mem hI is_one)))
      convert this using 1
      rw [arctan_shift_up (by linarith)]; ring
    rw [if_neg h2] at h
    by_cases h3 : Rop.lt (Hw.fin q hq) (lit Cst.sqrt2m1) = true
    · rw [if_pos h3] at h
      exact atanOrigin_mem h hI
    rw [if_neg h3] at h
    rw [lt_of_is hx is_sqrt2m1, not_lt] at h3
    have hc : 0 < c := lt_of_lt_of_le (by norm_num [Cst.sqrt2m1]) h3
    by_cases h4 : Rop.lt (Hw.fin q hq) (lit Cst.sqrt2p1) = true
    · rw [if_pos h4] at h
      obtain ⟨Q, hQ, h⟩ := bind_ok.1 h
      obtain ⟨A, hA, h⟩ := bind_ok.1 h
      cases h
      have := add_mem (mulS_mem hpi is_quarter)
        (atanOrigin_mem hA (div_mem hQ (subS_mem hI is_one) (addS_mem hI is_one)))
      convert this using 1
      rw [arctan_shift_down (by linarith)]; ring
    · rw [if_neg h4] at h
      obtain ⟨Q, hQ, h⟩ := bind_ok.1 h
      obtain ⟨A, hA, h⟩ := bind_ok.1 h
      cases h
      have := sub_mem (mulS_mem hpi is_half) (atanOrigin_mem hA (sDiv_mem hQ hI is_one))
      convert this using 1
      rw [one_div c, Real.arctan_inv_of_pos hc]; ring

theorem atan_mem {fuel : ℕ} {X Z : Interval D} {x : ℝ} (h : atan fuel X = .ok Z) (hx : x ∈ X) :
    Real.arctan x ∈ Z := by
  unfold atan at h
  obtain ⟨a, ha, h⟩ := bind_ok.1 h
  obtain ⟨b, hb, h⟩ := bind_ok.1 h
  cases h
  exact PtEnc.join hx (atanPoint_enc hx.1.1 ha) (atanPoint_enc hx.2.1 hb)

/-! ## arcsine and arccosine -/

theorem is_sqrt6d3 : Is (lit Cst.sqrt6d3 : D) (Cst.sqrt6d3 : ℚ) :=
  is_cst 7354347395230781 (-53) (by norm_num) (by norm_num) (by norm_num) (by norm_num [Cst.sqrt6d3])

theorem asinArg_mem {x : D} {c : ℝ} {Q : Interval D} (hx : Is x c) (h1 : -1 < c) (h2 : c < 1)
    (h : asinArg x = .ok Q) : c / Real.sqrt (1 - c ^ 2) ∈ Q := by
  unfold asinArg at h
  have hI := point_mem hx
  by_cases h3 : Rop.lt (Rop.abs x) (lit Cst.sqrt6d3) = true
  · rw [if_pos h3] at h
    obtain ⟨S, hS, h⟩ := bind_ok.1 h
    have := sqrt_mem hS (sSub_mem (mulS_mem hI hx) (is_one (T := D)))
    rw [← pow_two] at this
    exact sDiv_mem h this hx
  rw [if_neg h3] at h
  have habs : Is (Rop.abs x) |c| := by
    obtain ⟨q, hq, rfl, rfl⟩ := Hw.is_iff.1 hx
    have e : Rop.abs (Hw.fin q hq) = if 0 ≤ q then Hw.fin q hq else Hw.fin (-q) hq.neg := rfl
    rw [e]
    split_ifs with h0
    · rw [abs_of_nonneg (by exact_mod_cast h0)]; exact Hw.is_fin hq
    · rw [abs_of_neg (by exact_mod_cast not_le.1 h0)]
      have := Hw.is_fin hq.neg
      push_cast at this
      exact this
  rw [lt_of_is habs is_sqrt6d3, not_lt] at h3
  have h3 : 1 / 2 ≤ |c| := le_trans (by norm_num [Cst.sqrt6d3]) h3
  have e : (1 + c) * (1 - c) = 1 - c ^ 2 := by ring
  by_cases h4 : Rop.lt (lit 0) x = true
  · rw [if_pos h4] at h
    rw [lt_of_is is_zero hx] at h4
    rw [abs_of_pos h4] at h3
    obtain ⟨S, hS, h⟩ := bind_ok.1 h
    have := sqrt_mem hS (mulS_mem (sAdd_mem hI is_one) (one_sub_spec hx h3 (by linarith)))
    rw [e] at this
    exact sDiv_mem h this hx
  · rw [if_neg h4] at h
    rw [lt_of_is is_zero hx, not_lt] at h4
    rw [abs_of_nonpos h4] at h3
    obtain ⟨S, hS, h⟩ := bind_ok.1 h
    have := sqrt_mem hS (sMul_mem (sSub_mem hI is_one) (one_add_spec hx (by linarith) (by linarith)))
    rw [e] at this
    exact sDiv_mem h this hx

/-- an argument that passes the domain test of `asin`, `acos` -/
theorem unit_arg {x : D} (hn : ¬ nan x) (h1 : ¬ (Rop.lt x (lit (-1)) || Rop.lt one x) = true) :
    ∃ c : ℝ, Is x c ∧ -1 ≤ c ∧ c ≤ 1 := by
  have hr : ((-1 : ℝ) : EReal) ≤ val x ∧ val x ≤ ((1 : ℝ) : EReal) := by
    rw [Bool.or_eq_true, not_or, lt_iff, lt_iff, is_one.2, is_neg_one.2] at h1
    constructor
    · by_contra hc; exact h1.1 ⟨hn, is_neg_one.1, not_le.1 hc⟩
    · by_contra hc; exact h1.2 ⟨is_one.1, hn, not_le.1 hc⟩
  rcases cases_val hn with hx | hx | ⟨c, hx⟩
  · have := hr.2; rw [hx] at this; exact absurd this (not_le.2 (EReal.coe_lt_top _))
  · have := hr.1; rw [hx] at this; exact absurd this (not_le.2 (EReal.bot_lt_coe _))
  · have r1 : -1 ≤ c := by have := hr.1; rw [hx.2] at this; exact EReal.coe_le_coe_iff.1 this
    have r2 : c ≤ 1 := by have := hr.2; rw [hx.2] at this; exact EReal.coe_le_coe_iff.1 this
    exact ⟨c, hx, r1, r2⟩

theorem asinPoint_mem {fuel : ℕ} {x : D} {Z : Interval D} (hn : ¬ nan x)
    (h : asinPoint fuel x = .ok Z) : ∃ c : ℝ, Is x c ∧ -1 ≤ c ∧ c ≤ 1 ∧ Real.arcsin c ∈ Z := by
  unfold asinPoint at h
  obtain ⟨P, hP, h⟩ := bind_ok.1 h
  have hpi := mulS_mem (constPi_mem hP) is_half
  dsimp only at h
  by_cases h1 : (Rop.lt x (lit (-1)) || Rop.lt one x) = true
  · rw [if_pos h1] at h; cases h
  rw [if_neg h1] at h
  obtain ⟨c, hx, r1, r2⟩ := unit_arg hn h1
  refine ⟨c, hx, r1, r2, ?_⟩
  by_cases h2 : Rop.eq x one = true
  · rw [if_pos h2] at h
    rw [eq_of_is hx is_one] at h2
    cases h
    rw [h2, Real.arcsin_one]
    convert hpi using 1; ring
  rw [if_neg h2] at h
  rw [eq_of_is hx is_one] at h2
  by_cases h3 : Rop.eq x (lit (-1)) = true
  · rw [if_pos h3] at h
    rw [eq_of_is hx is_neg_one] at h3
    cases h
    rw [h3, Real.arcsin_neg_one]
    convert neg_mem hpi using 1; ring
  rw [if_neg h3] at h
  rw [eq_of_is hx is_neg_one] at h3
  obtain ⟨Q, hQ, h⟩ := bind_ok.1 h
  have l1 : -1 < c := lt_of_le_of_ne r1 (Ne.symm h3)
  have l2 : c < 1 := lt_of_le_of_ne r2 h2
  rw [Real.arcsin_eq_arctan ⟨l1, l2⟩]
  exact atan_mem h (asinArg_mem hx l1 l2 hQ)

theorem pihMAtan_mem {fuel : ℕ} {I Z : Interval D} {z : ℝ} (hz : z ∈ I)
    (h : pihMAtan fuel I = .ok Z) : Real.pi / 2 - Real.arctan z ∈ Z := by
  unfold pihMAtan at h
  obtain ⟨P, hP, h⟩ := bind_ok.1 h
  have hpi := constPi_mem hP
  by_cases h1 : Rop.lt I.inf (lit (-Cst.sqrt2p1)) = true
  · rw [if_pos h1] at h
    obtain ⟨Q, hQ, h⟩ := bind_ok.1 h
    obtain ⟨A, hA, h⟩ := bind_ok.1 h
    cases h
    have hc : z < 0 := by
      have hne : val I.inf < 0 := by
        rw [lt_iff, is_neg_sqrt2p1.2] at h1
        refine h1.2.2.trans ?_
        have : ((-Cst.sqrt2p1 : ℚ) : ℝ) < 0 := by norm_num [Cst.sqrt2p1]
        exact_mod_cast this
      unfold sDiv at hQ
      by_cases hd : (Rop.lt (lit 0) I.inf || Rop.lt I.sup (lit 0)) = true
      · rw [Bool.or_eq_true, lt_zero_left, lt_zero_right] at hd
        rcases hd with hd | hd
        · exact absurd hd.2 (not_lt.2 hne.le)
        · have := lt_of_le_of_lt hz.2.2 hd.2; exact_mod_cast this
      · rw [if_neg hd] at hQ; cases hQ
    have := add_mem hpi (atanOrigin_mem hA (sDiv_mem hQ hz is_one))
    convert this using 1
    rw [one_div z, Real.arctan_inv_of_neg hc]; ring
  rw [if_neg h1] at h
  by_cases h2 : Rop.lt I.inf (lit (-Cst.sqrt2m1)) = true
  · rw [if_pos h2] at h
    obtain ⟨Q, hQ, h⟩ := bind_ok.1 h
    obtain ⟨A, hA, h⟩ := bind_ok.1 h
    cases h
    have hden := sSub_mem hz (is_one (T := D))
    have hc : z < 1 := by
      -- the denominator contains a positive number, so it is positive
      obtain ⟨a, ha⟩ : ∃ a : ℝ, Is I.inf a := by
        rcases cases_val hz.1.1 with hx | hx | hx
        · exact absurd hx hz.1.ne_top
        · exfalso; apply h1
          rw [lt_iff, is_neg_sqrt2p1.2, hx]
          exact ⟨hz.1.1, is_neg_sqrt2p1.1, EReal.bot_lt_coe _⟩
        · exact hx
      have a0 : a < 0 := by
        rw [lt_of_is ha is_neg_sqrt2m1] at h2
        exact h2.trans (by norm_num [Cst.sqrt2m1])
      have haI : a ∈ I := ⟨ha.lo, hz.2.mono (by have := hz.1.2; rw [ha.2] at this; exact_mod_cast this)⟩
      have ha1 := sSub_mem haI (is_one (T := D))
      unfold div at hQ
      by_cases hp : Rop.lt (lit 0) (sSub one I).inf = true
      · rw [lt_zero_left] at hp
        have := lt_of_lt_of_le hp.2 hden.1.2
        have : 0 < 1 - z := by exact_mod_cast this
        linarith
      · rw [if_neg hp] at hQ
        by_cases hp2 : Rop.lt (sSub one I).sup (lit 0) = true
        · rw [lt_zero_right] at hp2
          have := lt_of_le_of_lt ha1.2.2 hp2.2
          have : 1 - a < 0 := by exact_mod_cast this
          linarith
        · rw [if_neg hp2] at hQ; cases hQ
    have := sub_mem (mulS_mem hpi is_three_quarter)
      (atanOrigin_mem hA (div_mem hQ (sAdd_mem hz is_one) hden))
    convert this using 1
    rw [arctan_shift_up hc]; ring
  rw [if_neg h2] at h
  by_cases h3 : Rop.lt I.inf (lit Cst.sqrt2m1) = true
  · rw [if_pos h3] at h
    obtain ⟨A, hA, h⟩ := bind_ok.1 h
    cases h
    have := sub_mem (mulS_mem hpi is_half) (atanOrigin_mem hA hz)
    convert this using 1; ring
  rw [if_neg h3] at h
  have hc : 0 < z := by
    have h4 : ((Cst.sqrt2m1 : ℚ) : ℝ) ≤ val I.inf := by
      rw [lt_iff, is_sqrt2m1.2] at h3
      by_contra hc; exact h3 ⟨hz.1.1, is_sqrt2m1.1, not_le.1 hc⟩
    have := h4.trans hz.1.2
    have : ((Cst.sqrt2m1 : ℚ) : ℝ) ≤ z := by exact_mod_cast this
    exact lt_of_lt_of_le (by norm_num [Cst.sqrt2m1]) this
  by_cases h4 : Rop.lt I.inf (lit Cst.sqrt2p1) = true
  · rw [if_pos h4] at h
    obtain ⟨Q, hQ, h⟩ := bind_ok.1 h
    obtain ⟨A, hA, h⟩ := bind_ok.1 h
    cases h
    have := sub_mem (mulS_mem hpi is_quarter)
      (atanOrigin_mem hA (div_mem hQ (subS_mem hz is_one) (addS_mem hz is_one)))
    convert this using 1
    rw [arctan_shift_down (by linarith)]; ring
  · rw [if_neg h4] at h
    obtain ⟨Q, hQ, h⟩ := bind_ok.1 h
    have := atanOrigin_mem h (sDiv_mem hQ hz is_one)
    convert this using 1
    rw [one_div z, Real.arctan_inv_of_pos hc]

theorem acosPoint_mem {fuel : ℕ} {x : D} {Z : Interval D} (hn : ¬ nan x)
    (h : acosPoint fuel x = .ok Z) : ∃ c : ℝ, Is x c ∧ -1 ≤ c ∧ c ≤ 1 ∧ Real.arccos c ∈ Z := by
  unfold acosPoint at h
  obtain ⟨P, hP, h⟩ := bind_ok.1 h
  have hpi := constPi_mem hP
  by_cases h1 : (Rop.lt x (lit (-1)) || Rop.lt one x) = true
  · rw [if_pos h1] at h; cases h
  rw [if_neg h1] at h
  obtain ⟨c, hx, r1, r2⟩ := unit_arg hn h1
  refine ⟨c, hx, r1, r2, ?_⟩
  by_cases h2 : Rop.eq x one = true
  · rw [if_pos h2] at h
    rw [eq_of_is hx is_one] at h2
    cases h
    rw [h2, Real.arccos_one]
    exact point_mem is_zero
  rw [if_neg h2] at h
  rw [eq_of_is hx is_one] at h2
  by_cases h3 : Rop.eq x (lit (-1)) = true
  · rw [if_pos h3] at h
    rw [eq_of_is hx is_neg_one] at h3
    cases h
    rw [h3, Real.arccos_neg_one]
    exact hpi
  rw [if_neg h3] at h
  rw [eq_of_is hx is_neg_one] at h3
  obtain ⟨Q, hQ, h⟩ := bind_ok.1 h
  have l1 : -1 < c := lt_of_le_of_ne r1 (Ne.symm h3)
  have l2 : c < 1 := lt_of_le_of_ne r2 h2
  rw [Real.arccos, Real.arcsin_eq_arctan ⟨l1, l2⟩]
  exact pihMAtan_mem (asinArg_mem hx l1 l2 hQ) h

end Interval
end Kv
