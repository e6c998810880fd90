import Verif.Props.GammaRun

/-!
# A run of `lgamma` over an interval with a pole inside (gamma.hpp:171-199)
-/

namespace Kv
open PM RopSem GammaFn
open Rop (lit)

/-- step sizes for the example -/
def exGammaPw (a _ : D) : D :=
  if Rop.lt a (lit (1 / 2 ^ 50)) then lit (1 / 2) else if Rop.lt a (lit (1 / 512)) then lit (1 / 32) else if Rop.lt a (lit (1 / 128)) then lit (1 / 8)
  else if Rop.lt a (lit (1 / 32)) then lit (1 / 4) else if Rop.lt a (lit (1 / 8)) then lit (1 / 2) else lit 1

/-- `digamma_zero` for the example: the zeros of `Γ'` between -2 and -1 and between -1 and 0 are -1.57349847.. and -0.50408300.. -/
def exGammaDz (d : D) : PM (Interval D) (Interval D) :=
  if Rop.lt d (lit (-1)) then pure ⟨lit (-15734985 / 10 ^ 7), lit (-15734984 / 10 ^ 7)⟩ else pure ⟨lit (-50409 / 10 ^ 5), lit (-50408 / 10 ^ 5)⟩

/-- `lg` is 1/32 instead of `std::log(2.)`: the integrals are shorter and the enclosures of `Γ` wider, but correct (C79_partial and C79_point
do not depend on it); `m2` is an interval of width 1e-7 instead of the one of the code -/
def exGammaPole : GammaPar :=
  ⟨30, lit (1 / 32), exGammaPw, 1, exGammaDz, ⟨lit (14616321 / 10 ^ 7), lit (14616322 / 10 ^ 7)⟩⟩

/-- from `-2 + 2^-20` to `-1 + 2^-20` -/
def exGammaX : Interval D := ⟨lit (-2097151 / 2 ^ 20), lit (-1048575 / 2 ^ 20)⟩

theorem is_gm_lo : Is (lit (-2097151 / 2 ^ 20) : D) (-2097151 / 2 ^ 20) := by
  have := Interval.is_cst (q := -2097151 / 2 ^ 20) (-2097151) (-20) (by norm_num) (by norm_num) (by norm_num) (by norm_num)
  push_cast at this; exact this
theorem is_gm_hi : Is (lit (-1048575 / 2 ^ 20) : D) (-1048575 / 2 ^ 20) := by
  have := Interval.is_cst (q := -1048575 / 2 ^ 20) (-1048575) (-20) (by norm_num) (by norm_num) (by norm_num) (by norm_num)
  push_cast at this; exact this

theorem exGammaPole_run : intInfAbove ((letI := scalI exGammaPole.fuel; lgamma exGammaPole exGammaX) (st0 1)) 1 = true := by decide +kernel

theorem exGammaX_mem : (-3 / 2 : ℝ) ∈ exGammaX := (GammaFn.mem_of_is (X := exGammaX) is_gm_lo is_gm_hi).2 ⟨by norm_num, by norm_num⟩

/-- C79 fails for an interval with a pole inside: the value at the zero of the derivative in the first part is overwritten (line 184), all
numbers of the result are above 1, but `log |Γ(-3/2)|` is below -/
theorem C79_pole_inside_violated : ∃ Z st', (letI := scalI exGammaPole.fuel; lgamma exGammaPole exGammaX) (st0 1) = (.ok Z, st') ∧
    (-3 / 2 : ℝ) ∈ exGammaX ∧ Real.log |Real.Gamma (-3 / 2)| ∉ Z := by
  obtain ⟨Z, st', h, h1⟩ := intInfAbove_iff Interval.is_one exGammaPole_run
  refine ⟨Z, st', h, exGammaX_mem, fun hm => ?_⟩
  have h2 := h1 _ hm
  have h3 := Real.Gamma_add_one (s := -3 / 2) (by norm_num)
  rw [show (-3 / 2 : ℝ) + 1 = -1 / 2 by norm_num, gamma_neg_half] at h3
  have h4 : Real.Gamma (-3 / 2) = 4 / 3 * Real.sqrt Real.pi := by linarith
  have h5 : Real.sqrt Real.pi ≤ 2 := Real.sqrt_le_iff.2 ⟨by norm_num, by linarith [Real.pi_lt_d2]⟩
  have h6 : Real.log |Real.Gamma (-3 / 2)| ≤ Real.log (Real.exp 1) := by
    rw [h4, abs_of_nonneg (by positivity)]
    refine Real.log_le_log (by have := Real.sqrt_pos.2 Real.pi_pos; positivity) ?_
    linarith [Real.exp_one_gt_d9]
  rw [Real.log_exp] at h6
  linarith

end Kv
