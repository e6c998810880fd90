import Verif.Props.Beta
import Verif.Props.GammaRun

namespace Kv
open PM RopSem
open Rop (lit)

/-- parameters for an example: order 1, steps of length 1 -/
def exBeta : BetaPar := ⟨30, fun _ _ => lit 1, 1⟩

theorem exBeta_ok : exBeta.Ok where
  order := by decide
  pw := fun _ _ _ => NN.lit (by norm_num)

theorem exBeta_run : intSupBelow ((letI := scalI exBeta.fuel; beta exBeta (Interval.point (lit (-1 / 2))) (Interval.point (lit (3 / 2)))) (st0 1)) (-2) = true := by
  decide +kernel

theorem beta_neg_half : Real.Gamma (-1 / 2) * Real.Gamma (3 / 2) / Real.Gamma (-1 / 2 + 3 / 2) = -Real.pi := by
  rw [gamma_neg_half, gamma_three_half, show (-1 / 2 + 3 / 2 : ℝ) = 1 by norm_num, Real.Gamma_one]
  have := Real.mul_self_sqrt Real.pi_pos.le
  linarith

theorem is_bt_neg_2 : Is (lit (-2) : D) (-2) := by
  have := Interval.is_cst (q := -2) (-1) 1 (by norm_num) (by norm_num) (by norm_num) (by norm_num)
  push_cast at this; exact this

/-- C80 for `B(-1/2, 3/2) = -π`: the result is below -2 -/
example : ∃ Z st', (letI := scalI exBeta.fuel; beta exBeta (Interval.point (lit (-1 / 2))) (Interval.point (lit (3 / 2)))) (st0 1) = (.ok Z, st') ∧
    -Real.pi ∈ Z ∧ ∀ y ∈ Z, y < -2 := by
  obtain ⟨Z, st', h, hZ⟩ := intSupBelow_iff is_bt_neg_2 exBeta_run
  refine ⟨Z, st', h, ?_, hZ⟩
  rw [← beta_neg_half]
  exact (C80 exBeta_ok ((GammaFn.point_is is_gm_neg_1_2).2 rfl) ((GammaFn.point_is is_gm_3_2).2 rfl) h).2.2

end Kv
