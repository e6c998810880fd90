import Verif.Complex.Model
import Verif.Interval.ElemAtan2
import Verif.Props.Elem
import Verif.Props.Arith
import Mathlib.Analysis.SpecialFunctions.Complex.Log

/-! # Lemmas for complex intervals -/

namespace Kv
open RopSem Kv.Interval
open Rop (lit)

instance : Membership ℂ Cx := ⟨fun Z z => z.re ∈ Z.re ∧ z.im ∈ Z.im⟩

/-- the value of a scalar argument -/
def Sc.Has : Sc → ℝ → Prop
  | .dbl k, c => Is k c
  | .ivl a, c => c ∈ a

namespace Cx

theorem mem_def {Z : Cx} {z : ℂ} : z ∈ Z ↔ z.re ∈ Z.re ∧ z.im ∈ Z.im := Iff.rfl

theorem mem_of {Z : Cx} {z : ℂ} {u v : ℝ} (h1 : u ∈ Z.re) (h2 : v ∈ Z.im) (e1 : z.re = u) (e2 : z.im = v) : z ∈ Z :=
  ⟨e1 ▸ h1, e2 ▸ h2⟩

section
variable {X Y Z : Cx} {x y z : ℂ} {k : Sc} {c : ℝ} {a : Interval D} {r : ℝ}

theorem addK_mem (ha : r ∈ a) (hk : k.Has c) : r + c ∈ addK a k := by
  cases k with
  | dbl k => exact addS_mem ha hk
  | ivl b => exact add_mem ha hk
theorem kAdd_mem (ha : r ∈ a) (hk : k.Has c) : c + r ∈ kAdd k a := by
  cases k with
  | dbl k => exact sAdd_mem ha hk
  | ivl b => exact add_mem hk ha
theorem subK_mem (ha : r ∈ a) (hk : k.Has c) : r - c ∈ subK a k := by
  cases k with
  | dbl k => exact subS_mem ha hk
  | ivl b => exact sub_mem ha hk
theorem kSub_mem (ha : r ∈ a) (hk : k.Has c) : c - r ∈ kSub k a := by
  cases k with
  | dbl k => exact sSub_mem ha hk
  | ivl b => exact sub_mem hk ha
theorem mulK_mem (ha : r ∈ a) (hk : k.Has c) : r * c ∈ mulK a k := by
  cases k with
  | dbl k => exact mulS_mem ha hk
  | ivl b => exact mul_mem ha hk
theorem kMul_mem (ha : r ∈ a) (hk : k.Has c) : c * r ∈ kMul k a := by
  cases k with
  | dbl k => exact sMul_mem ha hk
  | ivl b => exact mul_mem hk ha
theorem divK_mem {b : Interval D} (h : divK a k = .ok b) (ha : r ∈ a) (hk : k.Has c) : r / c ∈ b ∧ c ≠ 0 := by
  cases k with
  | dbl k => exact ⟨divS_mem h ha hk, fun h0 => by rw [divK, (C03_divS_error_iff a hk).2 h0] at h; cases h⟩
  | ivl d =>
    refine ⟨div_mem h ha hk, fun h0 => ?_⟩
    rw [divK, (C03_div_error_iff a (y := c) hk).2 (h0 ▸ hk)] at h; cases h
theorem negK_has (hk : k.Has c) : (negK k).Has (-c) := by
  cases k with
  | dbl k => exact is_neg hk
  | ivl b => exact neg_mem (X := b) hk
theorem ofK_mem (hk : k.Has c) : c ∈ ofK k := by
  cases k with
  | dbl k => exact point_mem hk
  | ivl b => exact hk
theorem ofSc_mem (hk : k.Has c) : (c : ℂ) ∈ ofSc k := mem_of (ofK_mem hk) (point_mem is_zero) (by simp) (by simp)

theorem cAdd_mem (hx : x ∈ X) (hy : y ∈ Y) : x + y ∈ cAdd X Y := ⟨add_mem hx.1 hy.1, add_mem hx.2 hy.2⟩
theorem cAddK_mem (hx : x ∈ X) (hk : k.Has c) : x + c ∈ cAddK X k := mem_of (addK_mem hx.1 hk) (hx.2) (by simp) (by simp)
theorem kAddC_mem (hx : x ∈ X) (hk : k.Has c) : c + x ∈ kAddC k X := mem_of (kAdd_mem hx.1 hk) (hx.2) (by simp) (by simp)
theorem cSub_mem (hx : x ∈ X) (hy : y ∈ Y) : x - y ∈ cSub X Y := ⟨sub_mem hx.1 hy.1, sub_mem hx.2 hy.2⟩
theorem cSubK_mem (hx : x ∈ X) (hk : k.Has c) : x - c ∈ cSubK X k := mem_of (subK_mem hx.1 hk) (hx.2) (by simp) (by simp)
theorem kSubC_mem (hx : x ∈ X) (hk : k.Has c) : c - x ∈ kSubC k X := mem_of (kSub_mem hx.1 hk) (neg_mem hx.2) (by simp) (by simp)
theorem cNeg_mem (hx : x ∈ X) : -x ∈ cNeg X := ⟨neg_mem hx.1, neg_mem hx.2⟩
theorem cMul_mem (hx : x ∈ X) (hy : y ∈ Y) : x * y ∈ cMul X Y := by
  refine ⟨?_, ?_⟩
  · rw [Complex.mul_re]; exact sub_mem (mul_mem hx.1 hy.1) (mul_mem hx.2 hy.2)
  · rw [Complex.mul_im]; exact add_mem (mul_mem hx.1 hy.2) (mul_mem hx.2 hy.1)
theorem cMulK_mem (hx : x ∈ X) (hk : k.Has c) : x * c ∈ cMulK X k := mem_of (mulK_mem hx.1 hk) (mulK_mem hx.2 hk) (by simp) (by simp)
theorem kMulC_mem (hx : x ∈ X) (hk : k.Has c) : c * x ∈ kMulC k X := mem_of (kMul_mem hx.1 hk) (kMul_mem hx.2 hk) (by simp) (by simp)

theorem div_ok_ne {a b d : Interval D} {t : ℝ} (h : Interval.div a b = .ok d) (ht : t ∈ b) : t ≠ 0 := fun h0 => by
  rw [(C03_div_error_iff a ht).2 (h0 ▸ ht)] at h; cases h

theorem cDiv_mem (h : cDiv X Y = .ok Z) (hx : x ∈ X) (hy : y ∈ Y) : x / y ∈ Z ∧ y ≠ 0 := by
  obtain ⟨a, ha, h⟩ := bind_ok.1 h
  obtain ⟨b, hb, h⟩ := bind_ok.1 h
  cases h
  have ht := add_mem (mul_mem hy.1 hy.1) (mul_mem hy.2 hy.2)
  have h0 := div_ok_ne ha ht
  have e : Complex.normSq y = y.re * y.re + y.im * y.im := Complex.normSq_apply y
  refine ⟨⟨?_, ?_⟩, fun hz => h0 (by rw [hz]; simp)⟩
  · rw [Complex.div_re, e, ← add_div, mul_comm x.re, mul_comm x.im]
    exact div_mem ha (add_mem (mul_mem hy.1 hx.1) (mul_mem hy.2 hx.2)) ht
  · rw [Complex.div_im, e, ← sub_div, mul_comm x.im]
    exact div_mem hb (sub_mem (mul_mem hy.1 hx.2) (mul_mem hx.1 hy.2)) ht

theorem cDivK_mem (h : cDivK X k = .ok Z) (hx : x ∈ X) (hk : k.Has c) : x / c ∈ Z ∧ c ≠ 0 := by
  obtain ⟨a, ha, h⟩ := bind_ok.1 h
  obtain ⟨b, hb, h⟩ := bind_ok.1 h
  cases h
  refine ⟨⟨?_, ?_⟩, (divK_mem ha hx.1 hk).2⟩
  · rw [Complex.div_ofReal_re]; exact (divK_mem ha hx.1 hk).1
  · rw [Complex.div_ofReal_im]; exact (divK_mem hb hx.2 hk).1

theorem kDivC_mem (h : kDivC k X = .ok Z) (hx : x ∈ X) (hk : k.Has c) : c / x ∈ Z ∧ x ≠ 0 := by
  obtain ⟨a, ha, h⟩ := bind_ok.1 h
  obtain ⟨b, hb, h⟩ := bind_ok.1 h
  cases h
  have ht := add_mem (mul_mem hx.1 hx.1) (mul_mem hx.2 hx.2)
  have h0 := div_ok_ne ha ht
  have e : Complex.normSq x = x.re * x.re + x.im * x.im := Complex.normSq_apply x
  refine ⟨⟨?_, ?_⟩, fun hz => h0 (by rw [hz]; simp)⟩
  · rw [Complex.div_re, e, Complex.ofReal_re, Complex.ofReal_im, zero_mul, zero_div, add_zero, mul_comm c]
    exact div_mem ha (mulK_mem hx.1 hk) ht
  · rw [Complex.div_im, e, Complex.ofReal_re, Complex.ofReal_im, zero_mul, zero_div, zero_sub, ← neg_div, ← neg_mul]
    exact div_mem hb (kMul_mem hx.2 (negK_has hk)) ht

theorem I_mem : Complex.I ∈ Cx.I := mem_of (point_mem is_zero) (point_mem is_one) (by simp) (by simp)

theorem conj_mem (hx : x ∈ X) : (starRingEnd ℂ) x ∈ conj X := mem_of hx.1 (neg_mem hx.2) (by simp) (by simp)

theorem abs_mem (h : abs X = .ok a) (hx : x ∈ X) : ‖x‖ ∈ a := by
  obtain ⟨p, hp, h⟩ := bind_ok.1 h
  obtain ⟨q, hq, h⟩ := bind_ok.1 h
  have h1 := powInt_mem hp hx.1
  have h2 := powInt_mem hq hx.2
  have := sqrt_mem h (add_mem h1 h2)
  rwa [show x.re ^ (2 : ℤ) + x.im ^ (2 : ℤ) = Complex.normSq x by rw [Complex.normSq_apply, zpow_two, zpow_two], ← Complex.norm_def] at this

theorem ang_lt {u v : ℝ} : -Real.pi < ang u v := by
  have hp := Real.pi_pos
  have b1 : ∀ t : ℝ, -(Real.pi / 2) < Real.arctan t := Real.neg_pi_div_two_lt_arctan
  have b2 : ∀ t : ℝ, Real.arctan t < Real.pi / 2 := Real.arctan_lt_pi_div_two
  unfold ang
  split_ifs
  · linarith [b1 (v / u), b2 (v / u)]
  · linarith [b1 (u / v), b2 (u / v)]
  · linarith [b1 (u / v), b2 (u / v)]
  · linarith

theorem ang_arg (h : x ≠ 0) : ang x.re x.im = Complex.arg x := by
  have hne : x.re ≠ 0 ∨ x.im ≠ 0 := by
    by_contra hc; push Not at hc; exact h (Complex.ext hc.1 hc.2)
  have ha := ang_isAngle hne
  have e : Real.sqrt (x.re ^ 2 + x.im ^ 2) = ‖x‖ := by rw [Complex.norm_def, Complex.normSq_apply, sq, sq]
  have hx : x = (‖x‖ : ℂ) * (Complex.cos (ang x.re x.im : ℝ) + Complex.sin (ang x.re x.im : ℝ) * Complex.I) := by
    unfold IsAngle at ha
    rw [e] at ha
    apply Complex.ext
    · simp [← Complex.ofReal_cos, ← Complex.ofReal_sin]; exact ha.1
    · simp [← Complex.ofReal_cos, ← Complex.ofReal_sin]; exact ha.2
  conv_rhs => rw [hx]
  exact (Complex.arg_mul_cos_add_sin_mul_I (norm_pos_iff.2 h) ⟨ang_lt, ang_abs.2⟩).symm

/-- the box crosses the negative real axis below `x` -/
def Crosses (X : Cx) (x : ℂ) : Prop := x.re < 0 ∧ x.im < 0 ∧ (0 : ℝ) ∈ X.im

/-- `arg` contains the argument in `(-π, π]`, or that plus `2π` -/
theorem arg_mem {fuel : ℕ} (h : arg fuel X = .ok a) (hx : x ∈ X) :
    ∃ θ ∈ a, (x ≠ 0 → θ = Complex.arg x ∨ θ = 2 * Real.pi + Complex.arg x) ∧ (x ≠ 0 → ¬ Crosses X x → θ = Complex.arg x) := by
  obtain ⟨θ, hθ, h⟩ := atan2_ang h hx.2 hx.1
  refine ⟨θ, hθ, fun h0 => ?_, fun h0 hc => ?_⟩
  · rw [ang_arg h0] at h
    exact h.imp_right (·.1)
  · rw [ang_arg h0] at h
    rcases h with h | ⟨-, h1, h2, h3⟩
    · exact h
    · exact absurd ⟨h2, h1, h3⟩ hc

theorem exp_polar {θ : ℝ} (h : x ≠ 0 → θ = Complex.arg x ∨ θ = 2 * Real.pi + Complex.arg x) : x = ‖x‖ * Complex.exp (θ * Complex.I) := by
  by_cases h0 : x = 0
  · simp [h0]
  rcases h h0 with e | e
  · rw [e, Complex.norm_mul_exp_arg_mul_I]
  · rw [e, Complex.ofReal_add, add_mul, Complex.exp_add, show ((2 * Real.pi : ℝ) : ℂ) * Complex.I = 2 * Real.pi * Complex.I by push_cast; ring,
      Complex.exp_two_pi_mul_I, one_mul, Complex.norm_mul_exp_arg_mul_I]

theorem log_mem {fuel : ℕ} (h : log fuel X = .ok Z) (hx : x ∈ X) (h0 : x ≠ 0) :
    ∃ w ∈ Z, Complex.exp w = x ∧ (¬ Crosses X x → w = Complex.log x) := by
  obtain ⟨m, hm, h⟩ := bind_ok.1 h
  obtain ⟨l, hl, h⟩ := bind_ok.1 h
  obtain ⟨a, ha, h⟩ := bind_ok.1 h
  cases h
  obtain ⟨θ, hθ, h1, h2⟩ := arg_mem ha hx
  have hlog := Interval.log_mem hl (abs_mem hm hx) (norm_pos_iff.2 h0)
  refine ⟨⟨Real.log ‖x‖, θ⟩, ⟨hlog, hθ⟩, ?_, fun hc => ?_⟩
  · have : (⟨Real.log ‖x‖, θ⟩ : ℂ) = (Real.log ‖x‖ : ℂ) + θ * Complex.I := by apply Complex.ext <;> simp
    rw [this, Complex.exp_add, ← Complex.ofReal_exp, Real.exp_log (norm_pos_iff.2 h0)]
    exact (exp_polar h1).symm
  · apply Complex.ext
    · rw [Complex.log_re]
    · rw [Complex.log_im]; exact h2 h0 hc

theorem sqrt_mem {fuel : ℕ} (h : sqrt fuel X = .ok Z) (hx : x ∈ X) :
    ∃ w ∈ Z, w ^ 2 = x ∧ (¬ Crosses X x → w = x ^ (1 / 2 : ℂ)) := by
  obtain ⟨m, hm, h⟩ := bind_ok.1 h
  obtain ⟨r, hr, h⟩ := bind_ok.1 h
  obtain ⟨a, ha, h⟩ := bind_ok.1 h
  obtain ⟨c, hc, h⟩ := bind_ok.1 h
  obtain ⟨s, hs, h⟩ := bind_ok.1 h
  cases h
  obtain ⟨θ, hθ, h1, h2⟩ := arg_mem ha hx
  have hr' := Interval.sqrt_mem hr (abs_mem hm hx)
  have half : Is (lit (1 / 2) : D) (1 / 2) := is_half
  have hA := mulS_mem hθ half
  have hw : (⟨Real.sqrt ‖x‖ * Real.cos (θ * (1 / 2)), Real.sqrt ‖x‖ * Real.sin (θ * (1 / 2))⟩ : ℂ) = (Real.sqrt ‖x‖ : ℂ) * Complex.exp ((θ * (1 / 2) : ℝ) * Complex.I) := by
    apply Complex.ext
    · rw [Complex.re_ofReal_mul, Complex.exp_ofReal_mul_I_re]
    · rw [Complex.im_ofReal_mul, Complex.exp_ofReal_mul_I_im]
  refine ⟨⟨Real.sqrt ‖x‖ * Real.cos (θ * (1 / 2)), Real.sqrt ‖x‖ * Real.sin (θ * (1 / 2))⟩, ⟨mul_mem hr' (cos_mem hc hA), mul_mem hr' (sin_mem hs hA)⟩, ?_, fun hcr => ?_⟩
  · rw [hw, mul_pow, ← Complex.ofReal_pow, Real.sq_sqrt (norm_nonneg _), ← Complex.exp_nat_mul,
      show ((2 : ℕ) : ℂ) * ((θ * (1 / 2) : ℝ) * Complex.I) = θ * Complex.I by push_cast; ring]
    exact (exp_polar h1).symm
  · rw [hw]
    by_cases h0 : x = 0
    · simp [h0]
    rw [h2 h0 hcr, Complex.cpow_def_of_ne_zero h0, Complex.log, add_mul, Complex.exp_add]
    congr 1
    · rw [Real.sqrt_eq_rpow, Real.rpow_def_of_pos (norm_pos_iff.2 h0)]
      push_cast; rfl
    · push_cast; ring_nf

theorem powLoop_mem {n : ℕ} : ∀ {R P : Cx} {r p : ℂ}, r ∈ R → p ∈ P → r * p ^ n ∈ powLoop n R P := by
  induction n using Nat.strong_induction_on with
  | _ n ih =>
    intro R P r p hr hp
    rw [powLoop]
    split_ifs with h0 h1
    · simpa [h0] using hr
    · have := ih (n / 2) (by omega) (cMul_mem hr hp) (cMul_mem hp hp)
      rwa [show r * p * (p * p) ^ (n / 2) = r * p ^ n by
        rw [← pow_two, ← pow_mul, mul_assoc, ← pow_succ']; congr 2; omega] at this
    · have := ih (n / 2) (by omega) hr (cMul_mem hp hp)
      rwa [show r * (p * p) ^ (n / 2) = r * p ^ n by
        rw [← pow_two, ← pow_mul]; congr 2; omega] at this

theorem one_mem : (1 : ℂ) ∈ ofSc (.dbl (lit 1)) := by
  have := ofSc_mem (k := .dbl (lit 1)) (c := 1) is_one
  simpa using this

theorem powInt_mem {n : ℤ} (h : powInt X n = .ok Z) (hx : x ∈ X) : x ^ n ∈ Z ∧ (n < 0 → x ≠ 0) := by
  unfold powInt at h
  split_ifs at h with h0 h1 h2
  · cases h; subst h0; exact ⟨by simpa using one_mem, by simp⟩
  · have hp := powLoop_mem (n := n.natAbs) one_mem hx
    rw [one_mul] at hp
    have := kDivC_mem h hp (c := 1) is_one
    have e : ((1 : ℝ) : ℂ) / x ^ n.natAbs = x ^ n := by
      obtain ⟨m, rfl⟩ : ∃ m : ℕ, n = -m := ⟨n.natAbs, by omega⟩
      simp
    rw [e] at this
    exact ⟨this.1, fun _ hx0 => this.2 (by rw [hx0]; exact zero_pow (by omega))⟩
  · cases h
    have hp := powLoop_mem (n := n.natAbs) one_mem hx
    rw [one_mul] at hp
    obtain ⟨m, rfl⟩ : ∃ m : ℕ, n = m := ⟨n.natAbs, by omega⟩
    exact ⟨by simpa using hp, fun h => absurd h h2⟩

theorem exp_mem {fuel : ℕ} (h : exp fuel X = .ok Z) (hx : x ∈ X) : Complex.exp x ∈ Z := by
  obtain ⟨e, he, h⟩ := bind_ok.1 h
  obtain ⟨c, hc, h⟩ := bind_ok.1 h
  obtain ⟨s, hs, h⟩ := bind_ok.1 h
  cases h
  refine ⟨?_, ?_⟩
  · rw [Complex.exp_re]; exact mul_mem (Interval.exp_mem he hx.1) (cos_mem hc hx.2)
  · rw [Complex.exp_im]; exact mul_mem (Interval.exp_mem he hx.1) (sin_mem hs hx.2)

theorem sin_re : (Complex.sin x).re = Real.sin x.re * Real.cosh x.im := by
  rw [Complex.sin_eq]; simp [← Complex.ofReal_sin, ← Complex.ofReal_cos, ← Complex.ofReal_sinh, ← Complex.ofReal_cosh]
theorem sin_im : (Complex.sin x).im = Real.cos x.re * Real.sinh x.im := by
  rw [Complex.sin_eq]; simp [← Complex.ofReal_sin, ← Complex.ofReal_cos, ← Complex.ofReal_sinh, ← Complex.ofReal_cosh]
theorem cos_re : (Complex.cos x).re = Real.cos x.re * Real.cosh x.im := by
  rw [Complex.cos_eq]; simp [← Complex.ofReal_sin, ← Complex.ofReal_cos, ← Complex.ofReal_sinh, ← Complex.ofReal_cosh]
theorem cos_im : (Complex.cos x).im = - Real.sin x.re * Real.sinh x.im := by
  rw [Complex.cos_eq]; simp [← Complex.ofReal_sin, ← Complex.ofReal_cos, ← Complex.ofReal_sinh, ← Complex.ofReal_cosh]
theorem sinh_eq : Complex.sinh x = Complex.sinh x.re * Complex.cos x.im + Complex.cosh x.re * Complex.sin x.im * Complex.I := by
  conv_lhs => rw [← Complex.re_add_im x, Complex.sinh_add, Complex.cosh_mul_I, Complex.sinh_mul_I, ← mul_assoc]
theorem cosh_eq : Complex.cosh x = Complex.cosh x.re * Complex.cos x.im + Complex.sinh x.re * Complex.sin x.im * Complex.I := by
  conv_lhs => rw [← Complex.re_add_im x, Complex.cosh_add, Complex.cosh_mul_I, Complex.sinh_mul_I, ← mul_assoc]
theorem sinh_re : (Complex.sinh x).re = Real.sinh x.re * Real.cos x.im := by
  rw [sinh_eq]; simp [← Complex.ofReal_sin, ← Complex.ofReal_cos, ← Complex.ofReal_sinh, ← Complex.ofReal_cosh]
theorem sinh_im : (Complex.sinh x).im = Real.cosh x.re * Real.sin x.im := by
  rw [sinh_eq]; simp [← Complex.ofReal_sin, ← Complex.ofReal_cos, ← Complex.ofReal_sinh, ← Complex.ofReal_cosh]
theorem cosh_re : (Complex.cosh x).re = Real.cosh x.re * Real.cos x.im := by
  rw [cosh_eq]; simp [← Complex.ofReal_sin, ← Complex.ofReal_cos, ← Complex.ofReal_sinh, ← Complex.ofReal_cosh]
theorem cosh_im : (Complex.cosh x).im = Real.sinh x.re * Real.sin x.im := by
  rw [cosh_eq]; simp [← Complex.ofReal_sin, ← Complex.ofReal_cos, ← Complex.ofReal_sinh, ← Complex.ofReal_cosh]

/-- the formula used by `tan` -/
theorem tan_formula {u v : ℝ} (hd : Real.cos (2 * x.re) + Real.cosh (2 * x.im) ≠ 0)
    (hu : u = Real.sin (2 * x.re) / (Real.cos (2 * x.re) + Real.cosh (2 * x.im)))
    (hv : v = Real.sinh (2 * x.im) / (Real.cos (2 * x.re) + Real.cosh (2 * x.im))) : Complex.tan x = ⟨u, v⟩ ∧ Complex.cos x ≠ 0 := by
  rw [eq_div_iff hd] at hu hv
  rw [Real.cos_two_mul, Real.sin_two_mul, Real.cosh_two_mul] at *
  rw [Real.sinh_two_mul] at hv
  have e1 := Real.sin_sq_add_cos_sq x.re
  have e2 := Real.cosh_sq x.im
  generalize hs : Real.sin x.re = s at *
  generalize hc : Real.cos x.re = c at *
  generalize hsh : Real.sinh x.im = sh at *
  generalize hch : Real.cosh x.im = ch at *
  have hcos : Complex.cos x ≠ 0 := by
    intro h0
    have r := cos_re (x := x)
    have i := cos_im (x := x)
    rw [h0, hc, hch, Complex.zero_re] at r
    rw [h0, hs, hsh, Complex.zero_im] at i
    apply hd
    have : c ^ 2 * ch ^ 2 = 0 := by rw [← mul_pow, ← r]; ring
    have : s ^ 2 * sh ^ 2 = 0 := by rw [← mul_pow, show s * sh = 0 by linarith]; ring
    nlinarith
  refine ⟨?_, hcos⟩
  rw [Complex.tan_eq_sin_div_cos, div_eq_iff hcos]
  have key : ∀ d : ℝ, d ≠ 0 → ∀ a b : ℝ, a * d = b * d → a = b := fun d hd a b h => mul_right_cancel₀ hd h
  apply Complex.ext
  · rw [Complex.mul_re, sin_re, cos_re, cos_im, hs, hc, hsh, hch]
    apply key _ hd
    have : (u * (c * ch) - v * (-s * sh)) * (2 * c ^ 2 - 1 + (ch ^ 2 + sh ^ 2)) = (2 * s * c) * (c * ch) + (2 * sh * ch) * (s * sh) := by rw [← hu, ← hv]; ring
    rw [this]
    linear_combination (s * ch) * e2
  · rw [Complex.mul_im, sin_im, cos_re, cos_im, hs, hc, hsh, hch]
    apply key _ hd
    have : (u * (-s * sh) + v * (c * ch)) * (2 * c ^ 2 - 1 + (ch ^ 2 + sh ^ 2)) = (2 * s * c) * (-s * sh) + (2 * sh * ch) * (c * ch) := by rw [← hu, ← hv]; ring
    rw [this]
    linear_combination (2 * c * sh) * e1 - (c * sh) * e2

end
end Cx
end Kv
