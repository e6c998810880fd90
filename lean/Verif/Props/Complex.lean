import Verif.Complex.Lemmas
import Verif.Solver.LinLemmas

/-!
# C40: complex intervals

`z ∈ Z` says that the real and the imaginary part of `z` are in those of `Z`.  A theorem about `f(Z)` speaks about every call
which returns.  `arg` may return angles above `π` when the box crosses the negative real axis; then `log`, `sqrt` and the
functions made from them contain some logarithm, root, .. of each point (on the side below the axis not the principal one).
-/

namespace Kv
open RopSem Kv.Interval
open Rop (lit)

variable {X Y Z : Cx} {x y : ℂ} {k : Sc} {c : ℝ} {fuel : ℕ}

/-- C40: the ring operations, with two complex operands or one real operand (a double or an interval). -/
theorem C40_ring (hx : x ∈ X) (hy : y ∈ Y) (hk : k.Has c) :
    x + y ∈ Cx.cAdd X Y ∧ x - y ∈ Cx.cSub X Y ∧ x * y ∈ Cx.cMul X Y ∧ -x ∈ Cx.cNeg X ∧
    x + c ∈ Cx.cAddK X k ∧ c + x ∈ Cx.kAddC k X ∧ x - c ∈ Cx.cSubK X k ∧ c - x ∈ Cx.kSubC k X ∧ x * c ∈ Cx.cMulK X k ∧ c * x ∈ Cx.kMulC k X ∧
    (c : ℂ) ∈ Cx.ofSc k ∧ Complex.I ∈ Cx.I ∧ (starRingEnd ℂ) x ∈ Cx.conj X :=
  ⟨Cx.cAdd_mem hx hy, Cx.cSub_mem hx hy, Cx.cMul_mem hx hy, Cx.cNeg_mem hx, Cx.cAddK_mem hx hk, Cx.kAddC_mem hx hk, Cx.cSubK_mem hx hk, Cx.kSubC_mem hx hk,
    Cx.cMulK_mem hx hk, Cx.kMulC_mem hx hk, Cx.ofSc_mem hk, Cx.I_mem, Cx.conj_mem hx⟩

/-- C40: division; if it returns, the divisor does not contain 0. -/
theorem C40_div (h : Cx.cDiv X Y = .ok Z) (hx : x ∈ X) (hy : y ∈ Y) : x / y ∈ Z ∧ y ≠ 0 := Cx.cDiv_mem h hx hy

theorem C40_div_real (h : Cx.cDivK X k = .ok Z) (hx : x ∈ X) (hk : k.Has c) : x / c ∈ Z ∧ c ≠ 0 := Cx.cDivK_mem h hx hk

theorem C40_real_div (h : Cx.kDivC k X = .ok Z) (hx : x ∈ X) (hk : k.Has c) : c / x ∈ Z ∧ x ≠ 0 := Cx.kDivC_mem h hx hk

/-- C40: the integer power. -/
theorem C40_pow_int {n : ℤ} (h : Cx.powInt X n = .ok Z) (hx : x ∈ X) : x ^ n ∈ Z ∧ (n < 0 → x ≠ 0) := Cx.powInt_mem h hx

/-- C40: the absolute value. -/
theorem C40_abs {a : Interval D} (h : Cx.abs X = .ok a) (hx : x ∈ X) : ‖x‖ ∈ a := Cx.abs_mem h hx

/-- the box reaches from below `x`, which is left of the imaginary axis and below the real axis, up to the real axis -/
def CrossesCut (X : Cx) (x : ℂ) : Prop := x.re < 0 ∧ x.im < 0 ∧ (0 : ℝ) ∈ X.im

/-- C40: the argument, up to a multiple of `2π`; it is the principal one if the box does not cross the negative real axis. -/
theorem C40_arg {a : Interval D} (h : Cx.arg fuel X = .ok a) (hx : x ∈ X) (h0 : x ≠ 0) :
    (x.arg ∈ a ∨ 2 * Real.pi + x.arg ∈ a) ∧ (¬ CrossesCut X x → x.arg ∈ a) := by
  obtain ⟨θ, hθ, h1, h2⟩ := Cx.arg_mem h hx
  refine ⟨?_, fun hc => h2 h0 hc ▸ hθ⟩
  rcases h1 h0 with e | e
  · exact .inl (e ▸ hθ)
  · exact .inr (e ▸ hθ)

theorem C40_exp (h : Cx.exp fuel X = .ok Z) (hx : x ∈ X) : Complex.exp x ∈ Z := Cx.exp_mem h hx

/-- C40: `log` contains a logarithm of each point, the principal one if the box does not cross the cut. -/
theorem C40_log (h : Cx.log fuel X = .ok Z) (hx : x ∈ X) (h0 : x ≠ 0) :
    (∃ w ∈ Z, Complex.exp w = x) ∧ (¬ CrossesCut X x → Complex.log x ∈ Z) := by
  obtain ⟨w, hw, h1, h2⟩ := Cx.log_mem h hx h0
  exact ⟨⟨w, hw, h1⟩, fun hc => h2 hc ▸ hw⟩

/-- C40: `sqrt` contains a square root of each point, the principal one if the box does not cross the cut. -/
theorem C40_sqrt (h : Cx.sqrt fuel X = .ok Z) (hx : x ∈ X) : (∃ w ∈ Z, w ^ 2 = x) ∧ (¬ CrossesCut X x → x ^ (1 / 2 : ℂ) ∈ Z) := by
  obtain ⟨w, hw, h1, h2⟩ := Cx.sqrt_mem h hx
  exact ⟨⟨w, hw, h1⟩, fun hc => h2 hc ▸ hw⟩

/-- C40: `pow` contains `exp(y L)` for a logarithm `L` of each `x`, the principal value if the box does not cross the cut. -/
theorem C40_pow (h : Cx.pow fuel X Y = .ok Z) (hx : x ∈ X) (hy : y ∈ Y) (h0 : x ≠ 0) :
    (∃ L, Complex.exp L = x ∧ Complex.exp (y * L) ∈ Z) ∧ (¬ CrossesCut X x → x ^ y ∈ Z) := by
  obtain ⟨l, hl, h⟩ := bind_ok.1 h
  obtain ⟨w, hw, h1, h2⟩ := Cx.log_mem hl hx h0
  have := Cx.exp_mem h (Cx.cMul_mem hy hw)
  refine ⟨⟨w, h1, this⟩, fun hc => ?_⟩
  rwa [h2 hc, mul_comm, ← Complex.cpow_def_of_ne_zero h0] at this

theorem C40_sin (h : Cx.sin fuel X = .ok Z) (hx : x ∈ X) : Complex.sin x ∈ Z := by
  obtain ⟨s, hs, h⟩ := bind_ok.1 h
  obtain ⟨ch, hch, h⟩ := bind_ok.1 h
  obtain ⟨c, hc, h⟩ := bind_ok.1 h
  obtain ⟨sh, hsh, h⟩ := bind_ok.1 h
  cases h
  exact Cx.mem_of (mul_mem (sin_mem hs hx.1) (cosh_mem hch hx.2)) (mul_mem (cos_mem hc hx.1) (C18_sinh hx.2 hsh)) Cx.sin_re Cx.sin_im

theorem C40_cos (h : Cx.cos fuel X = .ok Z) (hx : x ∈ X) : Complex.cos x ∈ Z := by
  obtain ⟨c, hc, h⟩ := bind_ok.1 h
  obtain ⟨ch, hch, h⟩ := bind_ok.1 h
  obtain ⟨s, hs, h⟩ := bind_ok.1 h
  obtain ⟨sh, hsh, h⟩ := bind_ok.1 h
  cases h
  exact Cx.mem_of (mul_mem (cos_mem hc hx.1) (cosh_mem hch hx.2)) (mul_mem (neg_mem (sin_mem hs hx.1)) (C18_sinh hx.2 hsh)) Cx.cos_re Cx.cos_im

theorem C40_tan (h : Cx.tan fuel X = .ok Z) (hx : x ∈ X) : Complex.tan x ∈ Z ∧ Complex.cos x ≠ 0 := by
  obtain ⟨c, hc, h⟩ := bind_ok.1 h
  obtain ⟨ch, hch, h⟩ := bind_ok.1 h
  obtain ⟨s, hs, h⟩ := bind_ok.1 h
  obtain ⟨re, hre, h⟩ := bind_ok.1 h
  obtain ⟨sh, hsh, h⟩ := bind_ok.1 h
  obtain ⟨im, him, h⟩ := bind_ok.1 h
  cases h
  have hu := sMul_mem hx.1 is_two
  have hv := sMul_mem hx.2 is_two
  have hd := add_mem (cos_mem hc hu) (cosh_mem hch hv)
  have := Cx.tan_formula (x := x) (Cx.div_ok_ne hre hd) rfl rfl
  rw [this.1]
  exact ⟨⟨div_mem hre (sin_mem hs hu) hd, div_mem him (C18_sinh hv hsh) hd⟩, this.2⟩

theorem C40_sinh (h : Cx.sinh fuel X = .ok Z) (hx : x ∈ X) : Complex.sinh x ∈ Z := by
  obtain ⟨sh, hsh, h⟩ := bind_ok.1 h
  obtain ⟨c, hc, h⟩ := bind_ok.1 h
  obtain ⟨ch, hch, h⟩ := bind_ok.1 h
  obtain ⟨s, hs, h⟩ := bind_ok.1 h
  cases h
  exact Cx.mem_of (mul_mem (C18_sinh hx.1 hsh) (cos_mem hc hx.2)) (mul_mem (cosh_mem hch hx.1) (sin_mem hs hx.2)) Cx.sinh_re Cx.sinh_im

theorem C40_cosh (h : Cx.cosh fuel X = .ok Z) (hx : x ∈ X) : Complex.cosh x ∈ Z := by
  obtain ⟨ch, hch, h⟩ := bind_ok.1 h
  obtain ⟨c, hc, h⟩ := bind_ok.1 h
  obtain ⟨sh, hsh, h⟩ := bind_ok.1 h
  obtain ⟨s, hs, h⟩ := bind_ok.1 h
  cases h
  exact Cx.mem_of (mul_mem (cosh_mem hch hx.1) (cos_mem hc hx.2)) (mul_mem (C18_sinh hx.1 hsh) (sin_mem hs hx.2)) Cx.cosh_re Cx.cosh_im

theorem C40_tanh (h : Cx.tanh fuel X = .ok Z) (hx : x ∈ X) : Complex.tanh x ∈ Z ∧ Complex.cosh x ≠ 0 := by
  obtain ⟨ch, hch, h⟩ := bind_ok.1 h
  obtain ⟨c, hc, h⟩ := bind_ok.1 h
  obtain ⟨sh, hsh, h⟩ := bind_ok.1 h
  obtain ⟨re, hre, h⟩ := bind_ok.1 h
  obtain ⟨s, hs, h⟩ := bind_ok.1 h
  obtain ⟨im, him, h⟩ := bind_ok.1 h
  cases h
  have hu := sMul_mem hx.1 is_two
  have hv := sMul_mem hx.2 is_two
  have hd := add_mem (cosh_mem hch hu) (cos_mem hc hv)
  have e : Real.cos (2 * (x * Complex.I).re) + Real.cosh (2 * (x * Complex.I).im) = Real.cosh (2 * x.re) + Real.cos (2 * x.im) := by
    rw [add_comm]; simp
  have h0 := Cx.div_ok_ne hre hd
  have := Cx.tan_formula (x := x * Complex.I) (by rw [e]; exact h0) rfl rfl
  rw [e, Complex.tan_mul_I, Complex.cos_mul_I] at this
  refine ⟨?_, this.2⟩
  have h1 := congrArg Complex.im this.1
  have h2 := congrArg Complex.re this.1
  simp at h1 h2
  refine Cx.mem_of (div_mem hre (C18_sinh hu hsh) hd) (div_mem him (sin_mem hs hv) hd) h1 ?_
  rw [neg_div, neg_inj] at h2
  exact h2

/-- C40: the inverse functions contain a value with the right image for each point. -/
theorem C40_asin (h : Cx.asin fuel X = .ok Z) (hx : x ∈ X) : ∃ w ∈ Z, Complex.sin w = x := by
  obtain ⟨s, hs, h⟩ := bind_ok.1 h
  obtain ⟨l, hl, h⟩ := bind_ok.1 h
  cases h
  obtain ⟨r, hr, hr2, -⟩ := Cx.sqrt_mem hs (Cx.kSubC_mem (c := 1) (Cx.cMul_mem hx hx) is_one)
  have hu := Cx.cAdd_mem (Cx.cMul_mem Cx.I_mem hx) hr
  have hI := Complex.I_sq
  have hm : (Complex.I * x + r) * (r - Complex.I * x) = 1 := by
    push_cast at hr2
    linear_combination hr2 - x ^ 2 * hI
  have h0 : Complex.I * x + r ≠ 0 := fun h => by rw [h, zero_mul] at hm; exact zero_ne_one hm
  obtain ⟨w, hw, he, -⟩ := Cx.log_mem hl hu h0
  refine ⟨_, Cx.cMul_mem (Cx.cNeg_mem Cx.I_mem) hw, ?_⟩
  have hinv : Complex.exp (-w) = r - Complex.I * x := by
    rw [Complex.exp_neg, he]; exact inv_eq_of_mul_eq_one_right hm
  rw [Complex.sin, show -(-Complex.I * w) * Complex.I = Complex.I ^ 2 * w by ring, show (-Complex.I * w) * Complex.I = -Complex.I ^ 2 * w by ring, hI,
    show (-1 : ℂ) * w = -w by ring, show -(-1 : ℂ) * w = w by ring, he, hinv]
  linear_combination (-x) * hI

theorem C40_acos (h : Cx.acos fuel X = .ok Z) (hx : x ∈ X) : ∃ w ∈ Z, Complex.cos w = x := by
  obtain ⟨s, hs, h⟩ := bind_ok.1 h
  obtain ⟨l, hl, h⟩ := bind_ok.1 h
  cases h
  obtain ⟨r, hr, hr2, -⟩ := Cx.sqrt_mem hs (Cx.kSubC_mem (c := 1) (Cx.cMul_mem hx hx) is_one)
  have hu := Cx.cAdd_mem hx (Cx.cMul_mem Cx.I_mem hr)
  have hI := Complex.I_sq
  have hm : (x + Complex.I * r) * (x - Complex.I * r) = 1 := by
    push_cast at hr2
    linear_combination hr2 - r ^ 2 * hI
  have h0 : x + Complex.I * r ≠ 0 := fun h => by rw [h, zero_mul] at hm; exact zero_ne_one hm
  obtain ⟨w, hw, he, -⟩ := Cx.log_mem hl hu h0
  refine ⟨_, Cx.cMul_mem (Cx.cNeg_mem Cx.I_mem) hw, ?_⟩
  have hinv : Complex.exp (-w) = x - Complex.I * r := by
    rw [Complex.exp_neg, he]; exact inv_eq_of_mul_eq_one_right hm
  rw [Complex.cos, show -(-Complex.I * w) * Complex.I = Complex.I ^ 2 * w by ring, show (-Complex.I * w) * Complex.I = -Complex.I ^ 2 * w by ring, hI,
    show (-1 : ℂ) * w = -w by ring, show -(-1 : ℂ) * w = w by ring, he, hinv]
  ring

theorem C40_asinh (h : Cx.asinh fuel X = .ok Z) (hx : x ∈ X) : ∃ w ∈ Z, Complex.sinh w = x := by
  obtain ⟨s, hs, h⟩ := bind_ok.1 h
  obtain ⟨r, hr, hr2, -⟩ := Cx.sqrt_mem hs (Cx.cAddK_mem (c := 1) (Cx.cMul_mem hx hx) is_one)
  have hm : (x + r) * (r - x) = 1 := by
    push_cast at hr2
    linear_combination hr2
  have h0 : x + r ≠ 0 := fun h => by rw [h, zero_mul] at hm; exact zero_ne_one hm
  obtain ⟨w, hw, he, -⟩ := Cx.log_mem h (Cx.cAdd_mem hx hr) h0
  refine ⟨w, hw, ?_⟩
  have hinv : Complex.exp (-w) = r - x := by
    rw [Complex.exp_neg, he]; exact inv_eq_of_mul_eq_one_right hm
  rw [Complex.sinh, he, hinv]
  ring

theorem C40_acosh (h : Cx.acosh fuel X = .ok Z) (hx : x ∈ X) : ∃ w ∈ Z, Complex.cosh w = x := by
  obtain ⟨s, hs, h⟩ := bind_ok.1 h
  obtain ⟨r, hr, hr2, -⟩ := Cx.sqrt_mem hs (Cx.cSubK_mem (c := 1) (Cx.cMul_mem hx hx) is_one)
  have hm : (x + r) * (x - r) = 1 := by
    push_cast at hr2
    linear_combination -hr2
  have h0 : x + r ≠ 0 := fun h => by rw [h, zero_mul] at hm; exact zero_ne_one hm
  obtain ⟨w, hw, he, -⟩ := Cx.log_mem h (Cx.cAdd_mem hx hr) h0
  refine ⟨w, hw, ?_⟩
  have hinv : Complex.exp (-w) = x - r := by
    rw [Complex.exp_neg, he]; exact inv_eq_of_mul_eq_one_right hm
  rw [Complex.cosh, he, hinv]
  ring

theorem C40_atan (h : Cx.atan fuel X = .ok Z) (hx : x ∈ X) (h1 : x ≠ -Complex.I) : x ≠ Complex.I ∧ ∃ w ∈ Z, Complex.tan w = x := by
  obtain ⟨q, hq, h⟩ := bind_ok.1 h
  obtain ⟨l, hl, h⟩ := bind_ok.1 h
  cases h
  obtain ⟨hd, hne⟩ := Cx.cDiv_mem hq (Cx.cAdd_mem Cx.I_mem hx) (Cx.cSub_mem Cx.I_mem hx)
  have hne' : Complex.I + x ≠ 0 := fun h => h1 (by linear_combination h)
  obtain ⟨w, hw, he, -⟩ := Cx.log_mem hl hd (div_ne_zero hne' hne)
  refine ⟨fun h => hne (by rw [h, sub_self]), _, Cx.cMul_mem (Cx.cMulK_mem (c := 1 / 2) Cx.I_mem is_half) hw, ?_⟩
  have hI := Complex.I_sq
  set v : ℂ := Complex.I * ((1 / 2 : ℝ) : ℂ) * w with hv
  have e1 : Complex.exp (v * Complex.I) * Complex.exp (v * Complex.I) * (Complex.I + x) = Complex.I - x := by
    rw [← Complex.exp_add, show v * Complex.I + v * Complex.I = -w by rw [hv]; push_cast; linear_combination w * hI, Complex.exp_neg, he, inv_div,
      div_mul_cancel₀ _ hne']
  have e2 : Complex.exp (-v * Complex.I) * Complex.exp (v * Complex.I) = 1 := by rw [← Complex.exp_add]; simp
  have hE : Complex.exp (v * Complex.I) ≠ 0 := Complex.exp_ne_zero _
  have hcos : Complex.cos v ≠ 0 := by
    intro h0
    rw [Complex.cos, div_eq_zero_iff] at h0
    rcases h0 with h0 | h0
    · have : Complex.exp (v * Complex.I) * Complex.exp (v * Complex.I) = -1 := by linear_combination Complex.exp (v * Complex.I) * h0 - e2
      rw [this] at e1
      have : (2 : ℂ) * Complex.I = 0 := by linear_combination -e1
      simp at this
    · norm_num at h0
  rw [Complex.tan_eq_sin_div_cos, div_eq_iff hcos, Complex.sin, Complex.cos]
  apply mul_right_cancel₀ hE
  linear_combination (-1 / 2 : ℂ) * e1 + (1 / 2) * (Complex.I - x) * e2

theorem C40_atanh (h : Cx.atanh fuel X = .ok Z) (hx : x ∈ X) (h1 : x ≠ -1) : x ≠ 1 ∧ ∃ w ∈ Z, Complex.tanh w = x := by
  obtain ⟨q, hq, h⟩ := bind_ok.1 h
  obtain ⟨l, hl, h⟩ := bind_ok.1 h
  cases h
  obtain ⟨hd, hne⟩ := Cx.cDiv_mem hq (Cx.kAddC_mem (c := 1) hx is_one) (Cx.kSubC_mem (c := 1) hx is_one)
  rw [Complex.ofReal_one] at hd hne
  have hne' : 1 + x ≠ 0 := fun h => h1 (by linear_combination h)
  obtain ⟨w, hw, he, -⟩ := Cx.log_mem hl hd (div_ne_zero hne' hne)
  refine ⟨fun h => hne (by rw [h, sub_self]), _, Cx.kMulC_mem (c := 1 / 2) hw is_half, ?_⟩
  set v : ℂ := ((1 / 2 : ℝ) : ℂ) * w with hv
  have e1 : Complex.exp v * Complex.exp v * (1 - x) = 1 + x := by
    rw [← Complex.exp_add, show v + v = w by rw [hv]; push_cast; ring, he, div_mul_cancel₀ _ hne]
  have e2 : Complex.exp (-v) * Complex.exp v = 1 := by rw [← Complex.exp_add]; simp
  have hE : Complex.exp v ≠ 0 := Complex.exp_ne_zero _
  have hcos : Complex.cosh v ≠ 0 := by
    intro h0
    rw [Complex.cosh, div_eq_zero_iff] at h0
    rcases h0 with h0 | h0
    · have : Complex.exp v * Complex.exp v = -1 := by linear_combination Complex.exp v * h0 - e2
      rw [this] at e1
      have : (2 : ℂ) = 0 := by linear_combination -e1
      norm_num at this
    · norm_num at h0
  rw [Complex.tanh_eq_sinh_div_cosh, div_eq_iff hcos, Complex.sinh, Complex.cosh]
  apply mul_right_cancel₀ hE
  linear_combination (1 / 2 : ℂ) * e1 - (1 / 2) * (1 + x) * e2

/-- C50 sharpened: `atan2` contains the angle in `(-π, π]` unless the box lies left of the imaginary axis, and the point below the real axis
while the box reaches that axis. -/
theorem C50_principal {A B C : Interval D} {u v : ℝ} (hv : v ∈ B) (hu : u ∈ A) (hne : (⟨u, v⟩ : ℂ) ≠ 0) (h : Interval.atan2 fuel B A = .ok C)
    (hc : ¬ (u < 0 ∧ v < 0 ∧ (0 : ℝ) ∈ B)) : Complex.arg ⟨u, v⟩ ∈ C :=
  (C40_arg (X := ⟨A, B⟩) (x := ⟨u, v⟩) h ⟨hu, hv⟩ hne).2 hc

/-! Concrete cases. -/

/-- `[1,2] + [1,2] i` -/
def box12 : Cx := ⟨⟨lit 1, lit 2⟩, ⟨lit 1, lit 2⟩⟩

/-- `[-2,-1] + [-1,1] i`, across the cut -/
def boxCut : Cx := ⟨⟨lit (-2), lit (-1)⟩, ⟨lit (-1), lit 1⟩⟩

/-- `[1/8,1/4] + [1/8,1/4] i` -/
def boxSmall : Cx := ⟨⟨lit (1 / 8), lit (1 / 4)⟩, ⟨lit (1 / 8), lit (1 / 4)⟩⟩

/-- `[2,9/4] + [0,1/4] i` -/
def boxRight : Cx := ⟨⟨lit 2, lit (9 / 4)⟩, ⟨lit 0, lit (1 / 4)⟩⟩

example : (1 + Complex.I : ℂ) ∈ box12 := Cx.mem_of (u := 1) (v := 1) (mem_of_is is_one (by decide +kernel)) (mem_of_is is_one (by decide +kernel)) (by simp) (by simp)

set_option maxRecDepth 100000 in
/-- the operations return on these boxes -/
example : (Cx.cDiv box12 box12).isOk = true ∧ (Cx.powInt boxRight (-3)).isOk = true ∧ (Cx.abs box12).isOk = true ∧ (Cx.kDivC (.dbl (lit 1)) box12).isOk = true ∧
    (Cx.cDivK box12 (.dbl (lit 3))).isOk = true := by decide +kernel
set_option maxRecDepth 100000 in
example : (Cx.exp 100 box12).isOk = true ∧ (Cx.log 100 boxCut).isOk = true ∧ (Cx.sqrt 100 boxCut).isOk = true := by decide +kernel
set_option maxRecDepth 100000 in
example : (Cx.pow 100 box12 box12).isOk = true := by decide +kernel
set_option maxRecDepth 100000 in
example : (Cx.sin 100 box12).isOk = true ∧ (Cx.cos 100 box12).isOk = true ∧ (Cx.tan 100 boxSmall).isOk = true := by decide +kernel
set_option maxRecDepth 100000 in
example : (Cx.sinh 100 box12).isOk = true ∧ (Cx.cosh 100 box12).isOk = true ∧ (Cx.tanh 100 boxSmall).isOk = true := by decide +kernel
set_option maxRecDepth 100000 in
example : (Cx.asin 100 boxSmall).isOk = true ∧ (Cx.acos 100 boxSmall).isOk = true ∧ (Cx.atan 100 boxSmall).isOk = true := by decide +kernel
set_option maxRecDepth 100000 in
example : (Cx.asinh 100 boxSmall).isOk = true ∧ (Cx.acosh 100 boxSmall).isOk = true ∧ (Cx.atanh 100 boxSmall).isOk = true := by decide +kernel

set_option maxRecDepth 100000 in
theorem boxCut_log : (match Cx.log 100 boxCut with
    | .ok Z => Rop.lt (lit 0) Z.im.inf
    | _ => false) = true := by decide +kernel

/-- The exception for the cut is needed: `log` of a box across the cut does not contain the principal logarithm of `-1-i`. -/
theorem C40_log_not_principal : ∃ Z, Cx.log 100 boxCut = .ok Z ∧ (-1 - Complex.I : ℂ) ∈ boxCut ∧ Complex.log (-1 - Complex.I) ∉ Z := by
  have h := boxCut_log
  split at h
  · rename_i Z heq
    refine ⟨Z, heq, ?_, fun hm => ?_⟩
    · have h1 : (-1 : ℝ) ∈ boxCut.re := mem_of_is is_neg_one (by decide +kernel)
      have h2 : (-1 : ℝ) ∈ boxCut.im := mem_of_is is_neg_one (by decide +kernel)
      exact Cx.mem_of h1 h2 (by simp) (by simp)
    · have h1 := hm.2.1.2
      rw [lt_iff, (is_zero (T := D)).2] at h
      have h2 := lt_of_lt_of_le h.2.2 h1
      rw [EReal.coe_lt_coe_iff, Complex.log_im] at h2
      have : (-1 - Complex.I : ℂ).im < 0 := by simp
      exact absurd (Complex.arg_neg_iff.2 this) (not_lt.2 h2.le)
  · cases h

/-- Division throws `domain_error` although the divisor `[-3,3] + i` does not contain 0: `y.re*y.re` is computed as `[-9,9]`. -/
theorem C40_div_false_alarm : Cx.cDiv box12 ⟨⟨lit (-3), lit 3⟩, ⟨lit 1, lit 1⟩⟩ = .error .domainError ∧ ∀ y : ℂ, y ∈ (⟨⟨lit (-3), lit 3⟩, ⟨lit 1, lit 1⟩⟩ : Cx) → y ≠ 0 := by
  refine ⟨by decide +kernel, fun y hy h => ?_⟩
  have := hy.2.1.2
  rw [h, (is_one (T := D)).2] at this
  exact absurd this (by norm_num)

end Kv
