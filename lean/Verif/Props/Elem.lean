import Verif.Interval.ElemSin
import Verif.Interval.ElemAtan2

/-!
# C14–C19, C50: the elementary functions enclose their real counterparts

All statements are about `interval<double>` with directed rounding.  `fuel` bounds the number of
iterations of each loop; the theorems hold for every value of it, so they say: *whenever the call
returns, the result is an enclosure*.  The real functions on the right are those of Mathlib.
-/

namespace Kv
open RopSem Kv.Interval
open Rop (lit)

/-! ## C14 -/

/-- C14: `exp`. -/
theorem C14_exp {fuel : ℕ} {X Z : Interval D} {x : ℝ} (hx : x ∈ X) (h : exp fuel X = .ok Z) :
    Real.exp x ∈ Z := by
  unfold exp at h
  obtain ⟨A, hA, h⟩ := bind_ok.1 h
  obtain ⟨B, hB, h⟩ := bind_ok.1 h
  cases h
  exact PtEnc.join hx (expPoint_enc hx.1.1 hA) (expPoint_enc hx.2.1 hB)

/-- C14: `expm1`. -/
theorem C14_expm1 {fuel : ℕ} {X Z : Interval D} {x : ℝ} (hx : x ∈ X) (h : expm1 fuel X = .ok Z) :
    Real.exp x - 1 ∈ Z := by
  unfold expm1 at h
  obtain ⟨A, hA, h⟩ := bind_ok.1 h
  obtain ⟨B, hB, h⟩ := bind_ok.1 h
  cases h
  exact PtEnc.join (f := fun c => Real.exp c - 1) hx (expm1Point_enc hx.1.1 hA)
    (expm1Point_enc hx.2.1 hB)

/-- `exp` and `expm1` do return: an ordinary argument, the whole line, an overflowing one -/
example : (exp 100 ⟨lit 1, lit 2⟩ : Res (Interval D)).isOk = true := by decide +kernel
example : (exp 100 ⟨Rop.neg Rop.inf, Rop.inf⟩ : Res (Interval D)) = .ok ⟨lit 0, Rop.inf⟩ := by
  decide +kernel
set_option maxRecDepth 100000 in
example : (exp 100 ⟨lit 700, lit 710⟩ : Res (Interval D)).isOk = true := by decide +kernel
example : (expm1 100 ⟨lit (-1 / 4), lit 2⟩ : Res (Interval D)).isOk = true := by decide +kernel
/-- and the result is not the trivial enclosure -/
example : ∃ Z, (exp 100 (point (lit 1)) : Res (Interval D)) = .ok Z ∧ Rop.lt (width Z) (lit (1 / 2 ^ 46)) = true := by
  refine ⟨⟨lit (191282078589627 / 2 ^ 46), lit (6121026514868081 / 2 ^ 51)⟩, ?_, ?_⟩ <;> decide +kernel

/-! ## C15 -/

/-- C15: `log` on the positive part of the argument. -/
theorem C15_log {fuel : ℕ} {X Z : Interval D} {x : ℝ} (hx : x ∈ X) (h0 : 0 < x)
    (h : log fuel X = .ok Z) : Real.log x ∈ Z := log_mem h hx h0

/-- C15: `log1p`. -/
theorem C15_log1p {fuel : ℕ} {X Z : Interval D} {x : ℝ} (hx : x ∈ X) (h0 : -1 < x)
    (h : log1p fuel X = .ok Z) : Real.log (1 + x) ∈ Z := log1p_mem h hx h0

/-- C15: `pow(interval, interval)` is `x^y` on the positive part of the base. -/
theorem C15_pow {fuel : ℕ} {X Y Z : Interval D} {x y : ℝ} (hx : x ∈ X) (hy : y ∈ Y) (h0 : 0 < x)
    (h : pow fuel X Y = .ok Z) : x ^ y ∈ Z := pow_mem h hx hy h0

/-- C15: a negative lower endpoint makes `log` throw. -/
theorem C15_log_throws {fuel : ℕ} {X : Interval D} (hn : ¬ nan X.inf) (h : val X.inf < 0) :
    log fuel X = .error .domainError := by
  unfold log; rw [if_pos]; rw [lt_iff, lit_zero.2]; exact ⟨hn, lit_zero.1, h⟩

/-- C15: a lower endpoint below `-1` makes `log1p` throw. -/
theorem C15_log1p_throws {fuel : ℕ} {X : Interval D} (hn : ¬ nan X.inf)
    (h : val X.inf < ((-1 : ℝ) : EReal)) : log1p fuel X = .error .domainError := by
  unfold log1p; rw [if_pos]; rw [lt_iff, is_neg_one.2]; exact ⟨hn, is_neg_one.1, h⟩

/-- C15: a negative lower endpoint of the base makes `pow` throw. -/
theorem C15_pow_throws {fuel : ℕ} {X Y : Interval D} (hn : ¬ nan X.inf) (h : val X.inf < 0) :
    pow fuel X Y = .error .domainError := by
  unfold pow; rw [C15_log_throws hn h]; rfl

set_option maxRecDepth 100000 in
example : (log 100 ⟨lit 1, lit 10⟩ : Res (Interval D)).isOk = true := by decide +kernel
set_option maxRecDepth 100000 in
example : (log 100 ⟨lit 0, Rop.inf⟩ : Res (Interval D)) = .ok ⟨Rop.neg Rop.inf, Rop.inf⟩ := by
  decide +kernel
set_option maxRecDepth 100000 in
example : (log1p 100 ⟨lit (-1 / 2), lit (1 / 8)⟩ : Res (Interval D)).isOk = true := by decide +kernel
set_option maxRecDepth 100000 in
example : (pow 100 (point (lit 2)) ⟨lit (1 / 2), lit 3⟩ : Res (Interval D)).isOk = true := by
  decide +kernel
example : ¬ nan (lit (-1) : D) ∧ val (lit (-1) : D) < 0 := by
  refine ⟨is_neg_one.1, ?_⟩
  rw [is_neg_one.2]; exact_mod_cast (by norm_num : (-1 : ℝ) < 0)

/-! ## C16 -/

/-- C16: `sin`. -/
theorem C16_sin {fuel : ℕ} {X Z : Interval D} {x : ℝ} (hx : x ∈ X) (h : sin fuel X = .ok Z) :
    Real.sin x ∈ Z := sin_mem h hx

/-- C16: `cos`. -/
theorem C16_cos {fuel : ℕ} {X Z : Interval D} {x : ℝ} (hx : x ∈ X) (h : cos fuel X = .ok Z) :
    Real.cos x ∈ Z := cos_mem h hx

set_option maxRecDepth 100000 in
example : (sin 100 ⟨lit 1, lit 2⟩ : Res (Interval D)).isOk = true := by decide +kernel
set_option maxRecDepth 100000 in
example : (sin 100 ⟨lit 1, lit 9⟩ : Res (Interval D)) = .ok ⟨lit (-1), lit 1⟩ := by decide +kernel
set_option maxRecDepth 100000 in
example : (cos 100 ⟨lit 100, lit 101⟩ : Res (Interval D)).isOk = true := by decide +kernel

/-! ## C17 -/

/-- C17: `tan`.  (If `X` contains a pole the code returns the whole line.) -/
theorem C17_tan {fuel : ℕ} {X Z : Interval D} {x : ℝ} (hx : x ∈ X) (h : tan fuel X = .ok Z) :
    Real.tan x ∈ Z := tan_mem h hx

/-- C17: `atan`. -/
theorem C17_atan {fuel : ℕ} {X Z : Interval D} {x : ℝ} (hx : x ∈ X) (h : atan fuel X = .ok Z) :
    Real.arctan x ∈ Z := atan_mem h hx

/-- C17: `asin`; if it returns, all of `X` lies in `[-1, 1]`. -/
theorem C17_asin {fuel : ℕ} {X Z : Interval D} {x : ℝ} (hx : x ∈ X) (h : asin fuel X = .ok Z) :
    -1 ≤ x ∧ x ≤ 1 ∧ Real.arcsin x ∈ Z := by
  unfold asin at h
  obtain ⟨A, hA, h⟩ := bind_ok.1 h
  obtain ⟨B, hB, h⟩ := bind_ok.1 h
  cases h
  obtain ⟨a, ha, a1, a2, ha'⟩ := asinPoint_mem hx.1.1 hA
  obtain ⟨b, hb, b1, b2, hb'⟩ := asinPoint_mem hx.2.1 hB
  have h1 : a ≤ x := by have := hx.1.2; rw [ha.2] at this; exact EReal.coe_le_coe_iff.1 this
  have h2 : x ≤ b := by have := hx.2.2; rw [hb.2] at this; exact EReal.coe_le_coe_iff.1 this
  exact ⟨a1.trans h1, h2.trans b2, ha'.1.mono (Real.monotone_arcsin h1),
    hb'.2.mono (Real.monotone_arcsin h2)⟩

/-- C17: `acos`; if it returns, all of `X` lies in `[-1, 1]`. -/
theorem C17_acos {fuel : ℕ} {X Z : Interval D} {x : ℝ} (hx : x ∈ X) (h : acos fuel X = .ok Z) :
    -1 ≤ x ∧ x ≤ 1 ∧ Real.arccos x ∈ Z := by
  unfold acos at h
  obtain ⟨A, hA, h⟩ := bind_ok.1 h
  obtain ⟨B, hB, h⟩ := bind_ok.1 h
  cases h
  obtain ⟨a, ha, a1, a2, ha'⟩ := acosPoint_mem hx.2.1 hA
  obtain ⟨b, hb, b1, b2, hb'⟩ := acosPoint_mem hx.1.1 hB
  have h1 : b ≤ x := by have := hx.1.2; rw [hb.2] at this; exact EReal.coe_le_coe_iff.1 this
  have h2 : x ≤ a := by have := hx.2.2; rw [ha.2] at this; exact EReal.coe_le_coe_iff.1 this
  exact ⟨b1.trans h1, h2.trans a2, ha'.1.mono (Real.antitone_arccos h2),
    hb'.2.mono (Real.antitone_arccos h1)⟩

/-- C17: a lower endpoint outside `[-1, 1]` makes `asin` throw.  (`40 ≤ fuel` lets the constant
`pi`, which is computed first, be returned.) -/
theorem C17_asin_throws {fuel : ℕ} {X : Interval D} (hf : 40 ≤ fuel) (hn : ¬ nan X.inf)
    (h : val X.inf < ((-1 : ℝ) : EReal) ∨ ((1 : ℝ) : EReal) < val X.inf) :
    asin fuel X = .error .domainError := by
  have : (Rop.lt X.inf (lit (-1)) || Rop.lt one X.inf) = true := by
    rw [Bool.or_eq_true, lt_iff, lt_iff, is_neg_one.2, is_one.2]
    rcases h with h | h
    · exact Or.inl ⟨hn, is_neg_one.1, h⟩
    · exact Or.inr ⟨is_one.1, hn, h⟩
  have key : asinPoint fuel X.inf = .error .domainError := by
    unfold asinPoint
    rw [constPi_mono hf constPi_40]
    exact if_pos this
  unfold asin; rw [key]; rfl

/-- C17: an upper endpoint outside `[-1, 1]` makes `acos` throw. -/
theorem C17_acos_throws {fuel : ℕ} {X : Interval D} (hf : 40 ≤ fuel) (hn : ¬ nan X.sup)
    (h : val X.sup < ((-1 : ℝ) : EReal) ∨ ((1 : ℝ) : EReal) < val X.sup) :
    acos fuel X = .error .domainError := by
  have : (Rop.lt X.sup (lit (-1)) || Rop.lt one X.sup) = true := by
    rw [Bool.or_eq_true, lt_iff, lt_iff, is_neg_one.2, is_one.2]
    rcases h with h | h
    · exact Or.inl ⟨hn, is_neg_one.1, h⟩
    · exact Or.inr ⟨is_one.1, hn, h⟩
  have key : acosPoint fuel X.sup = .error .domainError := by
    unfold acosPoint
    rw [constPi_mono hf constPi_40]
    exact if_pos this
  unfold acos; rw [key]; rfl

/-- C17: with any endpoint outside `[-1, 1]`, `asin` and `acos` return nothing. -/
theorem C17_asin_acos_domain {fuel : ℕ} {X Z : Interval D} {x : ℝ} (hx : x ∈ X) (h : x < -1 ∨ 1 < x) :
    asin fuel X ≠ .ok Z ∧ acos fuel X ≠ .ok Z := by
  refine ⟨fun h' => ?_, fun h' => ?_⟩
  · obtain ⟨h1, h2, -⟩ := C17_asin hx h'; rcases h with h | h <;> linarith
  · obtain ⟨h1, h2, -⟩ := C17_acos hx h'; rcases h with h | h <;> linarith

set_option maxRecDepth 100000 in
example : (tan 100 ⟨lit 1, lit (3 / 2)⟩ : Res (Interval D)).isOk = true := by decide +kernel
set_option maxRecDepth 100000 in
example : (tan 100 ⟨lit 1, lit 2⟩ : Res (Interval D)) =
    .ok ⟨Rop.neg Rop.inf, Rop.inf⟩ := by decide +kernel
set_option maxRecDepth 100000 in
example : (atan 100 ⟨lit 1, lit 2⟩ : Res (Interval D)).isOk = true := by decide +kernel
set_option maxRecDepth 100000 in
example : (asin 100 ⟨lit (-1), lit (1 / 2)⟩ : Res (Interval D)).isOk = true := by decide +kernel
set_option maxRecDepth 100000 in
example : (acos 100 ⟨lit (-1), lit (1 / 2)⟩ : Res (Interval D)).isOk = true := by decide +kernel
set_option maxRecDepth 100000 in
example : (asin 100 ⟨lit 0, lit 2⟩ : Res (Interval D)) = .error .domainError := by decide +kernel

/-! ## C18 -/

/-- C18: `sinh`. -/
theorem C18_sinh {fuel : ℕ} {X Z : Interval D} {x : ℝ} (hx : x ∈ X) (h : sinh fuel X = .ok Z) :
    Real.sinh x ∈ Z := by
  unfold sinh at h
  obtain ⟨A, hA, h⟩ := bind_ok.1 h
  obtain ⟨B, hB, h⟩ := bind_ok.1 h
  cases h
  exact PtEnc.join hx (sinhPoint_enc hx.1.1 hA) (sinhPoint_enc hx.2.1 hB)

/-- C18: `cosh`. -/
theorem C18_cosh {fuel : ℕ} {X Z : Interval D} {x : ℝ} (hx : x ∈ X) (h : cosh fuel X = .ok Z) :
    Real.cosh x ∈ Z := cosh_mem h hx

/-- C18: `tanh`. -/
theorem C18_tanh {fuel : ℕ} {X Z : Interval D} {x : ℝ} (hx : x ∈ X) (h : tanh fuel X = .ok Z) :
    Real.tanh x ∈ Z := by
  unfold tanh at h
  obtain ⟨A, hA, h⟩ := bind_ok.1 h
  obtain ⟨B, hB, h⟩ := bind_ok.1 h
  cases h
  exact PtEnc.join hx (tanhPoint_enc hx.1.1 hA) (tanhPoint_enc hx.2.1 hB)

/-- C18: `asinh`. -/
theorem C18_asinh {fuel : ℕ} {X Z : Interval D} {x : ℝ} (hx : x ∈ X) (h : asinh fuel X = .ok Z) :
    Real.arsinh x ∈ Z := by
  unfold asinh at h
  obtain ⟨A, hA, h⟩ := bind_ok.1 h
  obtain ⟨B, hB, h⟩ := bind_ok.1 h
  cases h
  exact PtEnc.join hx (asinhPoint_enc hx.1.1 hA) (asinhPoint_enc hx.2.1 hB)

/-- C18: `acosh` on `[1, ∞)`. -/
theorem C18_acosh {fuel : ℕ} {X Z : Interval D} {x : ℝ} (hx : x ∈ X) (h1 : 1 ≤ x)
    (h : acosh fuel X = .ok Z) : Real.arcosh x ∈ Z := by
  unfold acosh at h
  obtain ⟨A, hA, h⟩ := bind_ok.1 h
  obtain ⟨B, hB, h⟩ := bind_ok.1 h
  cases h
  exact PtEncOn.join hx (Set.mem_Ici.2 h1) (acoshPoint_enc hx.1.1 hA) (acoshPoint_enc hx.2.1 hB)

/-- C18: `atanh` on `(-1, 1)`. -/
theorem C18_atanh {fuel : ℕ} {X Z : Interval D} {x : ℝ} (hx : x ∈ X) (h1 : -1 < x) (h2 : x < 1)
    (h : atanh fuel X = .ok Z) : Real.artanh x ∈ Z := by
  unfold atanh at h
  obtain ⟨A, hA, h⟩ := bind_ok.1 h
  obtain ⟨B, hB, h⟩ := bind_ok.1 h
  cases h
  exact PtEncOn.join (s := Set.Ioo (-1) 1) hx ⟨h1, h2⟩ (atanhPoint_enc hx.1.1 hA) (atanhPoint_enc hx.2.1 hB)

/-- C18: a lower endpoint below `1` makes `acosh` throw. -/
theorem C18_acosh_throws {fuel : ℕ} {X : Interval D} (hn : ¬ nan X.inf)
    (h : val X.inf < ((1 : ℝ) : EReal)) : acosh fuel X = .error .domainError := by
  unfold acosh acoshPoint; rw [if_pos]; · rfl
  rw [lt_iff, is_one.2]; exact ⟨hn, is_one.1, h⟩

/-- C18: a lower endpoint outside `[-1, 1]` makes `atanh` throw. -/
theorem C18_atanh_throws {fuel : ℕ} {X : Interval D} (hn : ¬ nan X.inf)
    (h : val X.inf < ((-1 : ℝ) : EReal) ∨ ((1 : ℝ) : EReal) < val X.inf) :
    atanh fuel X = .error .domainError := by
  unfold atanh atanhPoint; rw [if_pos]; · rfl
  rw [Bool.or_eq_true, lt_iff, lt_iff, is_neg_one.2, is_one.2]
  rcases h with h | h
  · exact Or.inl ⟨hn, is_neg_one.1, h⟩
  · exact Or.inr ⟨is_one.1, hn, h⟩

set_option maxRecDepth 100000 in
example : (sinh 100 ⟨lit (1 / 4), lit 2⟩ : Res (Interval D)).isOk = true := by decide +kernel
set_option maxRecDepth 100000 in
example : (cosh 100 ⟨lit (-1), lit 2⟩ : Res (Interval D)).isOk = true := by decide +kernel
set_option maxRecDepth 100000 in
example : (tanh 100 ⟨lit (-1), lit (1 / 4)⟩ : Res (Interval D)).isOk = true := by decide +kernel
set_option maxRecDepth 100000 in
example : (asinh 100 ⟨lit (-1), lit 2⟩ : Res (Interval D)).isOk = true := by decide +kernel
set_option maxRecDepth 100000 in
example : (acosh 100 ⟨lit 1, lit 2⟩ : Res (Interval D)).isOk = true := by decide +kernel
set_option maxRecDepth 100000 in
example : (atanh 100 ⟨lit (-1 / 2), lit 1⟩ : Res (Interval D)).isOk = true := by decide +kernel

/-! ## C19 -/

/-- C19: the constants `pi`, `e`, `ln2` of `constants<interval<double>>` enclose. -/
theorem C19_constants_enclose {fuel : ℕ} {Z : Interval D} :
    (constPi fuel = .ok Z → Real.pi ∈ Z) ∧ (constE fuel = .ok Z → Real.exp 1 ∈ Z) ∧
    (constLn2 fuel = .ok Z → Real.log 2 ∈ Z) :=
  ⟨constPi_mem, constE_mem, constLn2_mem⟩

set_option maxRecDepth 100000 in
/-- C19: their computations terminate, with intervals a few ulps wide. -/
theorem C19_constants_return :
    (constPi 40 : Res (Interval D)) =
      .ok ⟨lit (3537118876014213 / 2 ^ 50), lit (7074237752028445 / 2 ^ 51)⟩ ∧
    (constE 40 : Res (Interval D)) =
      .ok ⟨lit (191282078589627 / 2 ^ 46), lit (6121026514868081 / 2 ^ 51)⟩ ∧
    (constLn2 100 : Res (Interval D)) =
      .ok ⟨lit (780414346020667 / 2 ^ 50), lit (6243314768165381 / 2 ^ 53)⟩ := by
  decide +kernel

/-! ## C50 -/

/-- C50: `atan2(Y, X)` contains an argument of every point of the box other than the origin
(`IsAngle θ x y` says that `(x, y)` has polar angle `θ`). -/
theorem C50_atan2 {fuel : ℕ} {X Y Z : Interval D} {x y : ℝ} (hy : y ∈ Y) (hx : x ∈ X)
    (hne : x ≠ 0 ∨ y ≠ 0) (h : atan2 fuel Y X = .ok Z) : ∃ θ ∈ Z, IsAngle θ x y :=
  atan2_mem h hy hx hne

set_option maxRecDepth 100000 in
/-- across the branch cut -/
example : (atan2 100 ⟨lit (-1), lit 1⟩ ⟨lit (-2), lit (-1)⟩ : Res (Interval D)).isOk = true := by
  decide +kernel
set_option maxRecDepth 100000 in
example : (atan2 100 ⟨lit 1, lit 2⟩ ⟨lit (-2), lit 1⟩ : Res (Interval D)).isOk = true := by
  decide +kernel

end Kv
