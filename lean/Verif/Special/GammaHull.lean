import Verif.Special.GammaLemmas
import Mathlib.Analysis.SpecialFunctions.Gamma.BohrMollerup
import Mathlib.Analysis.SpecialFunctions.Gamma.Deriv

/-!
# Helper lemmas: `gamma` and `lgamma` over intervals
-/

namespace Kv
open PM RopSem
open Rop (lit)
set_option linter.unusedVariables false

namespace GammaFn

variable {P : GammaPar} {X Z m : Interval D} {x : ℝ} {st st' : PSt (Interval D)}

/-- the left operand of `hull` is contained in any case -/
theorem hull_left {X Y : Interval D} (hx : x ∈ X) : x ∈ Interval.hull X Y := by
  unfold Interval.hull
  constructor
  · show Lo (if Rop.lt Y.inf X.inf then Y.inf else X.inf) x
    split_ifs with h
    · have h1 := (RopSem.lt_iff _ _).1 h
      exact ⟨h1.1, h1.2.2.le.trans hx.1.2⟩
    · exact hx.1
  · show Hi (if Rop.lt X.sup Y.sup then Y.sup else X.sup) x
    split_ifs with h
    · have h1 := (RopSem.lt_iff _ _).1 h
      exact ⟨h1.2.1, hx.2.2.trans h1.2.2.le⟩
    · exact hx.2

/-- finite ends of an interval with a finite point -/
theorem mem_of_is {u v : ℝ} (hu : Is X.inf u) (hv : Is X.sup v) : x ∈ X ↔ u ≤ x ∧ x ≤ v := by
  constructor
  · rintro ⟨⟨-, h1⟩, ⟨-, h2⟩⟩
    rw [hu.2] at h1; rw [hv.2] at h2
    exact ⟨by exact_mod_cast h1, by exact_mod_cast h2⟩
  · rintro ⟨h1, h2⟩
    exact ⟨hu.lo.mono h1, hv.hi.mono h2⟩

theorem mem_between' {I : Interval D} {a b z : ℝ} (ha : a ∈ I) (hb : b ∈ I) (hz : z ∈ Set.uIcc a b) : z ∈ I := by
  rcases le_total a b with h | h
  · rw [Set.uIcc_of_le h] at hz; exact ⟨ha.1.mono hz.1, hb.2.mono hz.2⟩
  · rw [Set.uIcc_of_ge h] at hz; exact ⟨hb.1.mono hz.1, ha.2.mono hz.2⟩

theorem hull_point {point : Interval D → PM (Interval D) (Interval D)} {G : ℝ → ℝ} {R : Set ℝ}
    (hpt : ∀ X Z c x st st', point X st = (.ok Z, st') → Is X.inf c → x ∈ X → x ≤ ⌊c⌋ + 1 → x ∈ R → G x ∈ Z)
    (hx : Is X.inf x) (hx' : Is X.sup x) (hR : x ∈ R)
    (h : gammaHull point X m st = (.ok Z, st')) : G x ∈ Z := by
  unfold gammaHull at h
  obtain ⟨A, st1, hA, h1⟩ := bind_run h
  obtain ⟨B, st2, hB, h2⟩ := bind_run h1
  have ha := hpt _ _ x x _ _ hA hx ((point_is hx).2 rfl) (Int.lt_floor_add_one x).le hR
  by_cases ho : Interval.overlap X m = true
  · rw [if_pos ho] at h2
    obtain ⟨C, st3, hC, h3⟩ := bind_run h2
    obtain ⟨rfl, rfl⟩ := pure_run h3
    exact hull_left (hull_left ha)
  · rw [if_neg ho] at h2
    obtain ⟨rfl, rfl⟩ := pure_run h2
    exact hull_left ha

theorem gammaHull_mem {point : Interval D → PM (Interval D) (Interval D)} {F G : ℝ → ℝ} {R : Set ℝ} {γ : ℝ}
    (hF : ConvexOn ℝ R F) (hG : ∀ p ∈ R, ∀ q ∈ R, ∀ y ∈ R, F y ∈ Set.uIcc (F p) (F q) → G y ∈ Set.uIcc (G p) (G q))
    (hpt : ∀ X Z c x st st', point X st = (.ok Z, st') → Is X.inf c → x ∈ X → x ≤ ⌊c⌋ + 1 → x ∈ R → G x ∈ Z)
    (hfin : ∀ X Z st st', point X st = (.ok Z, st') → ¬ nan X.inf → ∃ c, Is X.inf c)
    (hγ : γ ∈ R) (hγm : γ ∈ m) (hmin : ∀ y ∈ R, F γ ≤ F y) (hfl : ∀ y ∈ m, ⌊y⌋ = ⌊γ⌋)
    (hx : x ∈ X) (hR : ∀ y ∈ X, y ∈ R) (h : gammaHull point X m st = (.ok Z, st')) : G x ∈ Z := by
  unfold gammaHull at h
  obtain ⟨A, st1, hA, h1⟩ := bind_run h
  obtain ⟨B, st2, hB, h2⟩ := bind_run h1
  obtain ⟨u, hu⟩ := hfin _ _ _ _ hA hx.1.1
  obtain ⟨v, hv⟩ := hfin _ _ _ _ hB hx.2.1
  replace hu : Is X.inf u := hu
  replace hv : Is X.sup v := hv
  have hux := (mem_of_is hu hv).1 hx
  have huX : u ∈ X := (mem_of_is hu hv).2 ⟨le_rfl, hux.1.trans hux.2⟩
  have hvX : v ∈ X := (mem_of_is hu hv).2 ⟨hux.1.trans hux.2, le_rfl⟩
  have ha := hpt _ _ u u _ _ hA hu ((point_is hu).2 rfl) (Int.lt_floor_add_one u).le (hR u huX)
  have hb := hpt _ _ v v _ _ hB hv ((point_is hv).2 rfl) (Int.lt_floor_add_one v).le (hR v hvX)
  have ha' := Interval.hull_mem_left ha hb
  have hb' := Interval.hull_mem_right ha hb
  have hmax := convex_between hF (hR u huX) (hR v hvX) hux.1 hux.2
  by_cases ho : Interval.overlap X m = true
  · rw [if_pos ho] at h2
    obtain ⟨C, st3, hC, h3⟩ := bind_run h2
    obtain ⟨rfl, rfl⟩ := pure_run h3
    obtain ⟨c, hc⟩ := hfin _ _ _ _ hC hγm.1.1
    have hcγ : c ≤ γ := by have := hγm.1.2; rw [hc.2] at this; exact_mod_cast this
    have hcm : c ∈ m := ⟨hc.lo, hγm.2.mono hcγ⟩
    have hg := hpt _ _ c γ _ _ hC hc hγm (by rw [hfl c hcm]; exact (Int.lt_floor_add_one γ).le) hγ
    have hg' := Interval.hull_mem_right ha' hg
    rcases le_total (F u) (F v) with hl | hl
    · rw [max_eq_right hl] at hmax
      exact mem_between' hg' (hull_left hb') (hG γ hγ v (hR v hvX) x (hR x hx) (Set.Icc_subset_uIcc ⟨hmin x (hR x hx), hmax⟩))
    · rw [max_eq_left hl] at hmax
      exact mem_between' hg' (hull_left ha') (hG γ hγ u (hR u huX) x (hR x hx) (Set.Icc_subset_uIcc ⟨hmin x (hR x hx), hmax⟩))
  · rw [if_neg ho] at h2
    obtain ⟨rfl, rfl⟩ := pure_run h2
    have hγX : γ ∉ X := fun hh => ho (Allsol.overlap_of_mem hh hγm)
    have hout : γ < u ∨ v < γ := by
      by_contra hcon
      rw [not_or, not_lt, not_lt] at hcon
      exact hγX ((mem_of_is hu hv).2 hcon)
    have hlow := convex_outside hF (hR x hx) hux.1 hux.2 hγ hmin hout
    refine mem_between' ha' hb' (hG u (hR u huX) v (hR v hvX) x (hR x hx) ?_)
    rw [Set.mem_uIcc]
    rcases le_total (F u) (F v) with hl | hl
    · rw [max_eq_right hl] at hmax; rw [min_eq_left hl] at hlow
      exact Or.inl ⟨hlow, hmax⟩
    · rw [max_eq_left hl] at hmax; rw [min_eq_right hl] at hlow
      exact Or.inr ⟨hlow, hmax⟩

/-! ## the regions -/

/-- the interval between the poles around `c`: all positive numbers if `0 < c` -/
noncomputable def region (c : ℝ) : Set ℝ := if 0 < c then Set.Ioi 0 else Set.Ioo ⌊c⌋ (⌊c⌋ + 1)

/-- `Y` contains a zero `γ` of `Γ'` in `R`, and no integer above the integral part of `γ` -/
def IsCrit (R : Set ℝ) (Y : Interval D) : Prop := ∃ γ ∈ Y, γ ∈ R ∧ deriv Real.Gamma γ = 0 ∧ ∀ y ∈ Y, ⌊y⌋ = ⌊γ⌋

/-- what is assumed about `digamma_zero`: called with a number, it returns an interval which contains 0 (its sign of an error) or the zero of
`Γ'` between the poles around this number; and about the constant `m2` -/
structure _root_.Kv.GammaPar.Crit (P : GammaPar) : Prop where
  dz : ∀ d c st Y st', Is d c → P.dz d st = (.ok Y, st') → Interval.zeroIn Y = false → IsCrit (region c) Y
  m2 : IsCrit (Set.Ioi 0) P.m2

/-- the regions on which `Γ` has no pole -/
structure Reg (R : Set ℝ) : Prop where
  pole : ∀ y ∈ R, ∀ n : ℕ, y ≠ -n
  conv : ConvexOn ℝ R fun y => Real.log (Real.Gamma y)
  sign : (∀ y ∈ R, 0 < Real.Gamma y) ∨ ∀ y ∈ R, Real.Gamma y < 0

theorem reg_pos : Reg (Set.Ioi 0) where
  pole y hy n hn := by
    have : (0 : ℝ) ≤ n := n.cast_nonneg
    rw [hn] at hy
    have : (0 : ℝ) < -n := hy
    linarith
  conv := Real.convexOn_log_Gamma
  sign := Or.inl fun y hy => Real.Gamma_pos_of_pos hy

theorem reg_neg {z : ℤ} (hz : z < 0) : Reg (Set.Ioo (z : ℝ) (z + 1)) := by
  obtain ⟨k, rfl⟩ : ∃ k : ℕ, z = -(k : ℤ) := ⟨(-z).toNat, by omega⟩
  obtain ⟨h1, h2⟩ := sign_convex k
  have e : ((-(k : ℤ) : ℤ) : ℝ) = -(k : ℝ) := by push_cast; rfl
  rw [e]
  refine ⟨fun y hy n hn => ?_, h2, ?_⟩
  · rw [hn] at hy
    have a1 : (n : ℝ) < k := by linarith [hy.1]
    have a2 : (k : ℝ) < n + 1 := by linarith [hy.2]
    have a1' : n < k := by exact_mod_cast a1
    have a2' : k < n + 1 := by exact_mod_cast a2
    omega
  · rcases neg_one_pow_eq_or ℝ k with h3 | h3
    · left; intro y hy; have := h1 y hy; rwa [h3, one_mul] at this
    · right; intro y hy; have := h1 y hy; rw [h3] at this; linarith

theorem Reg.min {R : Set ℝ} (hR : Reg R) {γ : ℝ} (hγ : γ ∈ R) (hd : deriv Real.Gamma γ = 0) :
    ∀ y ∈ R, Real.log (Real.Gamma γ) ≤ Real.log (Real.Gamma y) := by
  have hdiff := Real.differentiableAt_Gamma fun n => hR.pole γ hγ n
  have hne : Real.Gamma γ ≠ 0 := Real.Gamma_ne_zero fun n => hR.pole γ hγ n
  refine min_of_deriv hR.conv hγ (hdiff.log hne) ?_
  rw [deriv.log hdiff hne, hd, zero_div]

theorem Reg.mono {R : Set ℝ} (hR : Reg R) : ∀ p ∈ R, ∀ q ∈ R, ∀ y ∈ R,
    Real.log (Real.Gamma y) ∈ Set.uIcc (Real.log (Real.Gamma p)) (Real.log (Real.Gamma q)) → Real.Gamma y ∈ Set.uIcc (Real.Gamma p) (Real.Gamma q) := by
  intro p hp q hq y hy h
  rw [Set.mem_uIcc] at h ⊢
  rcases hR.sign with hs | hs
  · rw [Real.log_le_log_iff (hs p hp) (hs y hy), Real.log_le_log_iff (hs y hy) (hs q hq), Real.log_le_log_iff (hs q hq) (hs y hy),
      Real.log_le_log_iff (hs y hy) (hs p hp)] at h
    exact h
  · rw [← Real.log_neg_eq_log (Real.Gamma y), ← Real.log_neg_eq_log (Real.Gamma p), ← Real.log_neg_eq_log (Real.Gamma q)] at h
    have hs' : ∀ y ∈ R, 0 < -Real.Gamma y := fun y hy => neg_pos.2 (hs y hy)
    rw [Real.log_le_log_iff (hs' p hp) (hs' y hy), Real.log_le_log_iff (hs' y hy) (hs' q hq), Real.log_le_log_iff (hs' q hq) (hs' y hy),
      Real.log_le_log_iff (hs' y hy) (hs' p hp)] at h
    simp only [neg_le_neg_iff] at h
    tauto

/-! ## decisions of `gamma` and `lgamma` -/

theorem floor_eq_is (hx : x ∈ X) (h : Rop.eq (Rop.floor X.inf) (Rop.floor X.sup) = true) : ∃ u v, Is X.inf u ∧ Is X.sup v ∧ ⌊u⌋ = ⌊v⌋ := by
  rcases inf_cases hx.1.1 with ⟨u, hu⟩ | h1 | h1
  · rcases inf_cases hx.2.1 with ⟨v, hv⟩ | h2 | h2
    · rw [Interval.eq_of_is (is_floor hu) (is_floor hv)] at h
      exact ⟨u, v, hu, hv, by exact_mod_cast h⟩
    · obtain ⟨q, hq, e, -⟩ := is_fin (is_floor hu)
      rw [e, h2, floor_inf] at h
      exact absurd h Bool.false_ne_true
    · have := hx.2.2
      rw [h2] at this
      exact absurd (le_bot_iff.1 this) (EReal.coe_ne_bot x)
  · have := hx.1.2
    rw [h1] at this
    exact absurd (top_le_iff.1 this) (EReal.coe_ne_top x)
  · exfalso
    rw [h1, floor_ninf] at h
    rcases inf_cases hx.2.1 with ⟨v, hv⟩ | h2 | h2
    · obtain ⟨q, hq, e, -⟩ := is_fin (is_floor hv)
      rw [e] at h
      exact Bool.false_ne_true h
    · rw [h2, floor_inf] at h
      exact Bool.false_ne_true h
    · have := hx.2.2
      rw [h2] at this
      exact absurd (le_bot_iff.1 this) (EReal.coe_ne_bot x)

theorem mem_whole (x : ℝ) : x ∈ (Interval.whole : Interval D) :=
  ⟨⟨fun h => (by cases h), bot_le⟩, ⟨fun h => (by cases h), le_top⟩⟩

end GammaFn
end Kv
