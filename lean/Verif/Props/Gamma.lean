import Verif.Special.GammaHull

/-!
# Properties of `gamma` and `lgamma` (/repo/kv/gamma.hpp)
-/

namespace Kv
open PM RopSem GammaFn
open Rop (lit)
set_option linter.unusedVariables false

variable {P : GammaPar} {X Z : Interval D} {x : ℝ} {st st' : PSt (Interval D)}

namespace GammaFn

/-- the hypothesis about the zero of the derivative is used for intervals with different ends only -/
theorem hull_or {point : Interval D → PM (Interval D) (Interval D)} {G : ℝ → ℝ} {R : Set ℝ} {m : Interval D} (hR : Reg R)
    (hG : ∀ p ∈ R, ∀ q ∈ R, ∀ y ∈ R, Real.log (Real.Gamma y) ∈ Set.uIcc (Real.log (Real.Gamma p)) (Real.log (Real.Gamma q)) → G y ∈ Set.uIcc (G p) (G q))
    (hpt : ∀ X Z c x st st', point X st = (.ok Z, st') → Is X.inf c → x ∈ X → x ≤ ⌊c⌋ + 1 → x ∈ R → G x ∈ Z)
    (hfin : ∀ X Z st st', point X st = (.ok Z, st') → ¬ nan X.inf → ∃ c, Is X.inf c)
    (hm : (∃ c, Is X.inf c ∧ Is X.sup c) ∨ IsCrit R m) (hx : x ∈ X) (hXR : ∀ y ∈ X, y ∈ R)
    (h : gammaHull point X m st = (.ok Z, st')) : G x ∈ Z := by
  rcases hm with ⟨c, h1, h2⟩ | ⟨γ, h1, h2, h3, h4⟩
  · have := (mem_of_is h1 h2).1 hx
    obtain rfl : x = c := le_antisymm this.2 this.1
    exact hull_point hpt h1 h2 (hXR x hx) h
  · exact gammaHull_mem hR.conv hG hpt hfin h2 h1 (hR.min h2 h3) h4 hx hXR h

theorem lt_zero_inf (hx : x ∈ X) (h : Rop.lt (lit 0) X.inf = true) : ∀ y ∈ X, y ∈ Set.Ioi (0 : ℝ) := fun y hy => by
  have h1 := ((RopSem.lt_iff _ _).1 h).2.2
  rw [Interval.is_zero.2] at h1
  have := h1.trans_le hy.1.2
  exact_mod_cast this

theorem region_of_pos (hx : x ∈ X) (h : Rop.lt (lit 0) X.inf = true) {c : ℝ} (hc : Is X.inf c) : region c = Set.Ioi 0 := by
  rw [Interval.lt_of_is Interval.is_zero hc] at h
  exact if_pos h

/-- between two poles -/
theorem region_of_floor {u v : ℝ} (hx : x ∈ X) (h0 : ¬ Rop.lt (lit 0) X.inf = true) (hu : Is X.inf u) (hv : Is X.sup v) (hf : ⌊u⌋ = ⌊v⌋)
    (hi : ¬ Rop.eq (Rop.floor X.inf) X.inf = true) : ⌊u⌋ < 0 ∧ region u = Set.Ioo (⌊u⌋ : ℝ) (⌊u⌋ + 1) ∧ ∀ y ∈ X, y ∈ Set.Ioo (⌊u⌋ : ℝ) (⌊u⌋ + 1) := by
  rw [Interval.lt_of_is Interval.is_zero hu] at h0
  rw [Interval.eq_of_is (is_floor hu) hu] at hi
  have h1 : (⌊u⌋ : ℝ) < u := lt_of_le_of_ne (Int.floor_le u) hi
  refine ⟨?_, if_neg h0, fun y hy => ?_⟩
  · have : (⌊u⌋ : ℝ) < 0 := h1.trans_le (not_lt.1 h0)
    exact_mod_cast this
  · have h2 := (mem_of_is hu hv).1 hy
    have h3 := Int.lt_floor_add_one v
    rw [← hf] at h3
    exact ⟨h1.trans_le h2.1, h2.2.trans_lt h3⟩

end GammaFn

/-- the common part of C78: `X` is one number, or `digamma_zero` meets its specification -/
theorem gamma_core (hP : P.Ok) (hm : (∃ c, Is X.inf c ∧ Is X.sup c) ∨ P.Crit) (hx : x ∈ X)
    (h : (letI := scalI P.fuel; gamma P X) st = (.ok Z, st')) : Real.Gamma x ∈ Z := by
  have hfin : ∀ X Z st st', (letI := scalI P.fuel; gammaPoint P X) st = (.ok Z, st') → ¬ nan X.inf → ∃ c, Is X.inf c :=
    fun X Z st st' h hn => gammaPoint_fin hn h
  have hpt : ∀ R : Set ℝ, ∀ X Z c x st st', (letI := scalI P.fuel; gammaPoint P X) st = (.ok Z, st') → Is X.inf c → x ∈ X → x ≤ ⌊c⌋ + 1 → x ∈ R →
      Real.Gamma x ∈ Z := fun R X Z c x st st' h h1 h2 h3 _ => (gammaPoint_mem hP h1 h2 h3 h).1
  unfold gamma at h
  by_cases h0 : Rop.lt (lit 0) X.inf = true
  · rw [if_pos h0] at h
    obtain ⟨m, st1, hd, h1⟩ := bind_run h
    refine hull_or reg_pos reg_pos.mono (hpt _) hfin ?_ hx (lt_zero_inf hx h0) h1
    rcases hm with hm | hm
    · exact Or.inl hm
    · right
      split_ifs with hz
      · exact hm.m2
      · unfold gammaHull at h1
        obtain ⟨A, st2, hA, -⟩ := bind_run h1
        obtain ⟨u, hu⟩ := hfin _ _ _ _ hA hx.1.1
        have := hm.dz _ u _ _ _ hu hd (Bool.not_eq_true _ ▸ hz)
        rwa [region_of_pos hx h0 hu] at this
  rw [if_neg h0] at h
  by_cases h1 : Rop.eq (Rop.floor X.inf) (Rop.floor X.sup) = true
  · rw [h1] at h
    rw [if_neg (by simp)] at h
    by_cases h2 : Rop.eq (Rop.floor X.inf) X.inf = true
    · rw [if_pos h2] at h
      obtain ⟨rfl, rfl⟩ := pure_run h
      exact mem_whole _
    rw [if_neg h2] at h
    obtain ⟨u, v, hu, hv, hf⟩ := floor_eq_is hx h1
    obtain ⟨hneg, hreg, hall⟩ := region_of_floor hx h0 hu hv hf h2
    obtain ⟨m, st1, hd, h3⟩ := bind_run h
    by_cases h4 : Interval.zeroIn m = true
    · rw [if_pos h4] at h3
      exact (gammaPoint_mem hP hu hx (hall x hx).2.le h3).1
    · rw [if_neg h4] at h3
      refine hull_or (reg_neg hneg) (reg_neg hneg).mono (hpt _) hfin ?_ hx hall h3
      rcases hm with hm | hm
      · exact Or.inl hm
      · right
        have := hm.dz _ u _ _ _ hu hd (Bool.not_eq_true _ ▸ h4)
        rwa [hreg] at this
  · rw [Bool.not_eq_true] at h1
    rw [h1, if_pos (by simp)] at h
    obtain ⟨rfl, rfl⟩ := pure_run h
    exact mem_whole _

/-- C78: whatever `gamma` returns for an interval contains `Γ(x)` for each number `x` of the interval which is not a pole, if `digamma_zero`
meets its specification -/
theorem C78_partial (hP : P.Ok) (hm : P.Crit) (hx : x ∈ X) (hn : ∀ n : ℕ, x ≠ -n)
    (h : (letI := scalI P.fuel; gamma P X) st = (.ok Z, st')) : Real.Gamma x ∈ Z := gamma_core hP (Or.inr hm) hx h

/-- C78 for one number: nothing is assumed about `digamma_zero` -/
theorem C78_point {d : D} (hP : P.Ok) (hd : Is d x) (hn : ∀ n : ℕ, x ≠ -n)
    (h : (letI := scalI P.fuel; gamma P (Interval.point d)) st = (.ok Z, st')) : Real.Gamma x ∈ Z :=
  gamma_core hP (Or.inl ⟨x, hd, hd⟩) ((point_is hd).2 rfl) h

/-- the common part of C79 -/
theorem lgamma_core (hP : P.Ok) (hm : (∃ c, Is X.inf c ∧ Is X.sup c) ∨ P.Crit) (hx : x ∈ X) (hn : ∀ n : ℕ, ¬ (-n : ℝ) ∈ X)
    (h : (letI := scalI P.fuel; lgamma P X) st = (.ok Z, st')) : Real.log |Real.Gamma x| ∈ Z := by
  rw [Real.log_abs]
  have hfin : ∀ X Z st st', (letI := scalI P.fuel; lgammaPoint P X) st = (.ok Z, st') → ¬ nan X.inf → ∃ c, Is X.inf c :=
    fun X Z st st' h hn => lgammaPoint_fin hn h
  have hpt : ∀ R : Set ℝ, Reg R → ∀ X Z c x st st', (letI := scalI P.fuel; lgammaPoint P X) st = (.ok Z, st') → Is X.inf c → x ∈ X → x ≤ ⌊c⌋ + 1 → x ∈ R →
      Real.log (Real.Gamma x) ∈ Z := fun R hR X Z c x st st' h h1 h2 h3 h4 => lgammaPoint_mem hP h1 h2 h3 (hR.pole x h4) h
  have hid : ∀ R : Set ℝ, ∀ p ∈ R, ∀ q ∈ R, ∀ y ∈ R, Real.log (Real.Gamma y) ∈ Set.uIcc (Real.log (Real.Gamma p)) (Real.log (Real.Gamma q)) →
    Real.log (Real.Gamma y) ∈ Set.uIcc (Real.log (Real.Gamma p)) (Real.log (Real.Gamma q)) := fun R p _ q _ y _ h => h
  unfold lgamma at h
  by_cases h0 : Rop.lt (lit 0) X.inf = true
  · rw [if_pos h0] at h
    obtain ⟨m, st1, hd, h1⟩ := bind_run h
    refine hull_or (G := fun y => Real.log (Real.Gamma y)) reg_pos (hid _) (hpt _ reg_pos) hfin ?_ hx (lt_zero_inf hx h0) h1
    rcases hm with hm | hm
    · exact Or.inl hm
    · right
      split_ifs with hz
      · exact hm.m2
      · unfold gammaHull at h1
        obtain ⟨A, st2, hA, -⟩ := bind_run h1
        obtain ⟨u, hu⟩ := hfin _ _ _ _ hA hx.1.1
        have := hm.dz _ u _ _ _ hu hd (Bool.not_eq_true _ ▸ hz)
        rwa [region_of_pos hx h0 hu] at this
  rw [if_neg h0] at h
  -- no pole: the lower end is finite and not an integer, both ends have the same integral part
  have hle0 : val X.inf ≤ 0 := by
    have := (RopSem.lt_iff (lit 0) X.inf).not.1 h0
    rw [Interval.is_zero.2] at this
    by_contra hc
    exact this ⟨Interval.is_zero.1, hx.1.1, not_le.1 hc⟩
  have hsup : val X.sup < 0 := by
    by_contra hc
    refine hn 0 ⟨⟨hx.1.1, ?_⟩, ⟨hx.2.1, ?_⟩⟩
    · simpa using hle0
    · simpa using not_lt.1 hc
  obtain ⟨v, hv⟩ : ∃ v, Is X.sup v := by
    rcases inf_cases hx.2.1 with h1 | h1 | h1
    · exact h1
    · rw [h1] at hsup; exact absurd hsup not_top_lt
    · have := hx.2.2
      rw [h1] at this
      exact absurd (le_bot_iff.1 this) (EReal.coe_ne_bot x)
  have hv0 : v < 0 := by rw [hv.2] at hsup; exact_mod_cast hsup
  have hpole : ∀ z : ℤ, (z : ℝ) ≤ v → val X.inf ≤ ((z : ℝ) : EReal) → False := fun z h1 h2 => by
    have hz0 : z < 0 := by have := h1.trans_lt hv0; exact_mod_cast this
    have e : (-((-z).toNat : ℕ) : ℝ) = z := by
      have : (((-z).toNat : ℕ) : ℤ) = -z := Int.toNat_of_nonneg (by omega)
      have e2 : ((((-z).toNat : ℕ) : ℤ) : ℝ) = ((-z : ℤ) : ℝ) := by rw [this]
      push_cast at e2
      rw [← Int.cast_natCast, this]; push_cast; ring
    refine hn (-z).toNat ?_
    rw [e]
    exact ⟨⟨hx.1.1, h2⟩, hv.hi.mono h1⟩
  obtain ⟨u, hu⟩ : ∃ u, Is X.inf u := by
    rcases inf_cases hx.1.1 with h1 | h1 | h1
    · exact h1
    · have := hx.1.2
      rw [h1] at this
      exact absurd (top_le_iff.1 this) (EReal.coe_ne_top x)
    · exact (hpole ⌊v⌋ (Int.floor_le v) (by rw [h1]; exact bot_le)).elim
  have hlt : (⌊v⌋ : ℝ) < u := by
    by_contra hc
    exact hpole ⌊v⌋ (Int.floor_le v) (by rw [hu.2]; exact_mod_cast not_lt.1 hc)
  have hux := (GammaFn.mem_of_is hu hv).1 hx
  have hfl : ⌊u⌋ = ⌊v⌋ := Int.floor_eq_iff.2 ⟨hlt.le, (hux.1.trans hux.2).trans_lt (Int.lt_floor_add_one v)⟩
  have h1 : Rop.eq (Rop.floor X.inf) (Rop.floor X.sup) = true := (Interval.eq_of_is (is_floor hu) (is_floor hv)).2 (by rw [hfl])
  have h2 : ¬ Rop.eq (Rop.floor X.inf) X.inf = true := by
    rw [Interval.eq_of_is (is_floor hu) hu, hfl]; exact hlt.ne
  rw [h1, if_neg (by simp), if_neg h2] at h
  obtain ⟨hneg, hreg, hall⟩ := region_of_floor hx h0 hu hv hfl h2
  obtain ⟨m, st1, hd, h3⟩ := bind_run h
  by_cases h4 : Interval.zeroIn m = true
  · rw [if_pos h4] at h3
    exact lgammaPoint_mem hP hu hx (hall x hx).2.le ((reg_neg hneg).pole x (hall x hx)) h3
  · rw [if_neg h4] at h3
    refine hull_or (G := fun y => Real.log (Real.Gamma y)) (reg_neg hneg) (hid _) (hpt _ (reg_neg hneg)) hfin ?_ hx hall h3
    rcases hm with hm | hm
    · exact Or.inl hm
    · right
      have := hm.dz _ u _ _ _ hu hd (Bool.not_eq_true _ ▸ h4)
      rwa [hreg] at this

/-- C79, the part which holds: whatever `lgamma` returns for an interval without poles of `Γ` contains `log |Γ(x)|` for each number `x` of the interval,
if `digamma_zero` meets its specification -/
theorem C79_partial (hP : P.Ok) (hm : P.Crit) (hx : x ∈ X) (hn : ∀ n : ℕ, ¬ (-n : ℝ) ∈ X)
    (h : (letI := scalI P.fuel; lgamma P X) st = (.ok Z, st')) : Real.log |Real.Gamma x| ∈ Z := lgamma_core hP (Or.inr hm) hx hn h

/-- C79 for one number: nothing is assumed about `digamma_zero` -/
theorem C79_point {d : D} (hP : P.Ok) (hd : Is d x) (hn : ∀ n : ℕ, x ≠ -n)
    (h : (letI := scalI P.fuel; lgamma P (Interval.point d)) st = (.ok Z, st')) : Real.log |Real.Gamma x| ∈ Z :=
  lgamma_core hP (Or.inl ⟨x, hd, hd⟩) ((point_is hd).2 rfl) (fun n hh => hn n ((point_is hd).1 hh).symm) h

end Kv
