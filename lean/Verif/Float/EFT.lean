import Verif.Float.Exact

/-!
# Error-free transformations: helper lemmas on rationals

Representability of the error of a sum, of Veltkamp's splitting and of Dekker's product.
-/

namespace Kv
namespace Format
variable {F : Format}

/-- `q` is an integer multiple of `2^g`. -/
def OnGrid (g : ℤ) (q : ℚ) : Prop := ∃ n : ℤ, q = n * 2 ^ g

namespace OnGrid
theorem zero (g : ℤ) : OnGrid g 0 := ⟨0, by simp⟩
theorem neg {g : ℤ} {a : ℚ} (h : OnGrid g a) : OnGrid g (-a) := by
  obtain ⟨n, rfl⟩ := h; exact ⟨-n, by push_cast; ring⟩
theorem add {g : ℤ} {a b : ℚ} (ha : OnGrid g a) (hb : OnGrid g b) : OnGrid g (a + b) := by
  obtain ⟨n, rfl⟩ := ha; obtain ⟨m, rfl⟩ := hb; exact ⟨n + m, by push_cast; ring⟩
theorem sub {g : ℤ} {a b : ℚ} (ha : OnGrid g a) (hb : OnGrid g b) : OnGrid g (a - b) := by
  obtain ⟨n, rfl⟩ := ha; obtain ⟨m, rfl⟩ := hb; exact ⟨n - m, by push_cast; ring⟩
theorem int_mul {g : ℤ} {a : ℚ} (k : ℤ) (ha : OnGrid g a) : OnGrid g (k * a) := by
  obtain ⟨n, rfl⟩ := ha; exact ⟨k * n, by push_cast; ring⟩
theorem mul {g g' : ℤ} {a b : ℚ} (ha : OnGrid g a) (hb : OnGrid g' b) : OnGrid (g + g') (a * b) := by
  obtain ⟨n, rfl⟩ := ha; obtain ⟨m, rfl⟩ := hb
  exact ⟨n * m, by rw [zpow_add₀ (by norm_num)]; push_cast; ring⟩
theorem mono {g g' : ℤ} {a : ℚ} (h : g' ≤ g) (ha : OnGrid g a) : OnGrid g' a := by
  obtain ⟨n, rfl⟩ := ha
  obtain ⟨k, hk⟩ := zpow_split h
  exact ⟨n * 2 ^ k, by rw [hk]; push_cast; ring⟩
theorem scale {g : ℤ} {a : ℚ} (k : ℤ) (ha : OnGrid g a) : OnGrid (g + k) (a * 2 ^ k) := by
  obtain ⟨n, rfl⟩ := ha; exact ⟨n, by rw [zpow_add₀ (by norm_num)]; ring⟩
theorem two_zpow (g : ℤ) : OnGrid g (2 ^ g) := ⟨1, by simp⟩
/-- two numbers of the grid that differ, differ by a unit -/
theorem sep {g : ℤ} {a b : ℚ} (ha : OnGrid g a) (hb : OnGrid g b) (h : a < b) : a + 2 ^ g ≤ b := by
  obtain ⟨n, rfl⟩ := ha; obtain ⟨m, rfl⟩ := hb
  have hp := two_zpow_pos g
  have := lt_of_mul_lt_mul_right h hp.le
  have : n + 1 ≤ m := by exact_mod_cast this
  have : (n : ℚ) + 1 ≤ m := by exact_mod_cast this
  nlinarith
end OnGrid

theorem onGrid_of_repU {q : ℚ} (h : F.RepU q) : OnGrid F.emin q := by
  obtain ⟨m, e, -, he, rfl⟩ := h
  exact OnGrid.mono he ⟨m, rfl⟩

/-- a number of the grid `2^α`, also on the grid of subnormals, is representable if small enough -/
theorem repU_of_grid {t : ℚ} {α : ℤ} (h1 : OnGrid α t) (h2 : OnGrid F.emin t)
    (h : |t| ≤ 2 ^ ((F.p : ℤ) + α)) : F.RepU t := by
  have key : ∀ g : ℤ, F.emin ≤ g → α ≤ g → OnGrid g t → F.RepU t := by
    rintro g hg hα ⟨n, rfl⟩
    refine repU_of_le ?_ hg
    have hp := two_zpow_pos g
    rw [abs_mul, abs_of_pos hp] at h
    have h' : |(n : ℚ)| * 2 ^ g ≤ 2 ^ (F.p : ℤ) * 2 ^ g := by
      refine h.trans ?_
      rw [← zpow_add₀ (by norm_num)]
      exact zpow_le_zpow_right₀ (by norm_num) (by omega)
    have := le_of_mul_le_mul_right h' hp
    rw [zpow_natCast] at this
    exact_mod_cast this
  rcases le_total α F.emin with h3 | h3
  · exact key F.emin le_rfl h3 h2
  · exact key α h3 le_rfl h1

theorem roundQ_onGrid_ulp (md : RMode) (q : ℚ) : OnGrid (F.ulpExp q) (F.roundQ md q) :=
  ⟨_, rfl⟩

/-- rounding does not leave a grid of the format -/
theorem roundQ_onGrid (md : RMode) {q : ℚ} {g : ℤ} (hg : F.emin ≤ g) (h : OnGrid g q) :
    OnGrid g (F.roundQ md q) := by
  rcases le_total g (F.ulpExp q) with h1 | h1
  · exact (roundQ_onGrid_ulp md q).mono h1
  · have : F.RepU q := by
      refine repU_of_grid h (h.mono hg) ((abs_lt_ulpExp (F := F) q).le.trans ?_)
      exact zpow_le_zpow_right₀ (by norm_num) (by omega)
    rwa [this.roundQ_eq]

theorem ulpExp_le_of_lt {q : ℚ} {k : ℤ} (hq : q ≠ 0) (hk : F.emin ≤ k) (h : |q| < 2 ^ (k + F.p)) :
    F.ulpExp q ≤ k := by
  unfold ulpExp
  refine max_le hk ?_
  have := (Int.lt_zpow_iff_log_lt (b := 2) (by norm_num) (abs_pos.2 hq)).1 (by exact_mod_cast h)
  omega

theorem le_ulpExp_of_le {q : ℚ} {k : ℤ} (h : 2 ^ (k + F.p - 1) ≤ |q|) : k ≤ F.ulpExp q := by
  unfold ulpExp
  refine le_trans ?_ (le_max_right _ _)
  have hq : 0 < |q| := lt_of_lt_of_le (two_zpow_pos _) h
  have := (Int.zpow_le_iff_le_log (b := 2) (by norm_num) hq).1 (by exact_mod_cast h)
  omega

theorem ulpExp_mono {a b : ℚ} (ha : a ≠ 0) (h : |a| ≤ |b|) : F.ulpExp a ≤ F.ulpExp b :=
  ulpExp_le_of_lt ha (emin_le_ulpExp _) (lt_of_le_of_lt h (abs_lt_ulpExp _))

theorem onGrid_ulp_of_repU {q : ℚ} (h : F.RepU q) : OnGrid (F.ulpExp q) q := by
  have := roundQ_onGrid_ulp (F := F) .down q
  rwa [h.roundQ_eq] at this

/-- the rounding error of a number of magnitude at most `2^(k+p)` -/
theorem near_err_le {q : ℚ} {k : ℤ} (hk : F.emin ≤ k) (h : |q| ≤ 2 ^ (k + F.p)) :
    |F.roundQ .near q - q| ≤ 2 ^ (k - 1) := by
  rcases eq_or_ne q 0 with rfl | hq
  · rw [rep_zero.repU.roundQ_eq, sub_zero, abs_zero]; exact (two_zpow_pos _).le
  rcases lt_or_eq_of_le h with h | h
  · refine (abs_roundQ_near_sub_le q).trans ?_
    rw [zpow_sub_one₀ (by norm_num), div_eq_mul_inv]
    have := zpow_le_zpow_right₀ (a := (2 : ℚ)) (by norm_num) (ulpExp_le_of_lt hq hk h)
    linarith
  · have : F.RepU q := by
      have h0 : F.RepU (2 ^ (k + F.p)) := by
        have := repU_of_le (F := F) (m := 2 ^ F.p) (e := k) (by rw [abs_of_pos (by positivity)]) hk
        rwa [add_comm, zpow_add₀ (by norm_num), zpow_natCast, ← Int.cast_ofNat, ← Int.cast_pow]
      rcases abs_choice q with h' | h'
      · rw [← h', h]; exact h0
      · rw [show q = -(2 ^ (k + F.p)) by rw [← h, h']; ring]; exact h0.neg
    rw [this.roundQ_eq]
    simpa using (two_zpow_pos _).le

/-! ## Sums -/

/-- the error of a rounded sum is a number of the format -/
theorem sum_err_repU {a b : ℚ} (ha : F.RepU a) (hb : F.RepU b) :
    F.RepU (a + b - F.roundQ .near (a + b)) := by
  have key : ∀ {a b : ℚ}, F.RepU a → F.RepU b → F.ulpExp b ≤ F.ulpExp a →
      F.RepU (a + b - F.roundQ .near (a + b)) := by
    intro a b ha hb hle
    have gb := onGrid_ulp_of_repU hb
    have ga := (onGrid_ulp_of_repU ha).mono hle
    have gs := ga.add gb
    have ge := gs.sub (roundQ_onGrid (F := F) .near (emin_le_ulpExp b) gs)
    refine repU_of_grid ge (ge.mono (emin_le_ulpExp b)) ?_
    have h1 := RepU.near_le (q := a + b) ha
    rw [abs_sub_comm] at h1
    refine h1.trans ?_
    rw [show a - (a + b) = -b by ring, abs_neg, add_comm]
    exact (abs_lt_ulpExp b).le
  rcases le_total (F.ulpExp b) (F.ulpExp a) with h | h
  · exact key ha hb h
  · rw [add_comm]; exact key hb ha h

/-- fast two-sum: `fl(a+b) - a` is exact if `|b| ≤ |a|` -/
theorem fasttwosum_repU {a b : ℚ} (ha : F.RepU a) (hb : F.RepU b) (hab : |b| ≤ |a|) :
    F.RepU (F.roundQ .near (a + b) - a) := by
  rcases eq_or_ne b 0 with rfl | hb0
  · rw [add_zero, ha.roundQ_eq, sub_self]; exact rep_zero.repU
  rcases eq_or_ne (a + b) 0 with h0 | hs0
  · rw [h0, rep_zero.repU.roundQ_eq, zero_sub]; exact ha.neg
  have hle : F.ulpExp b ≤ F.ulpExp a := ulpExp_mono hb0 hab
  have gb := onGrid_ulp_of_repU hb
  have ga := onGrid_ulp_of_repU ha
  have gs := (ga.mono hle).add gb
  set k := F.ulpExp (a + b) with hk
  rcases le_or_gt k (F.ulpExp b) with h | h
  · have : F.RepU (a + b) := by
      refine repU_of_grid gs (gs.mono (emin_le_ulpExp b)) ((abs_lt_ulpExp (F := F) (a + b)).le.trans ?_)
      exact zpow_le_zpow_right₀ (by norm_num) (by omega)
    rw [this.roundQ_eq, add_sub_cancel_left]; exact hb
  have herr := abs_roundQ_near_sub_le (F := F) (a + b)
  rw [← hk] at herr
  have gx := roundQ_onGrid_ulp (F := F) .near (a + b)
  rw [← hk] at gx
  have tri : |F.roundQ .near (a + b) - a| ≤ |b| + 2 ^ k / 2 := by
    rw [show F.roundQ .near (a + b) - a = b + (F.roundQ .near (a + b) - (a + b)) by ring]
    exact (abs_add_le _ _).trans (by linarith)
  have hkmin : F.emin ≤ k := emin_le_ulpExp _
  rcases le_or_gt k (F.ulpExp a) with h' | h'
  · have g := gx.sub (ga.mono h')
    refine repU_of_grid g (g.mono hkmin) (tri.trans ?_)
    have hb' : |b| ≤ 2 ^ (k - 1 + F.p) :=
      (abs_lt_ulpExp (F := F) b).le.trans (zpow_le_zpow_right₀ (by norm_num) (by omega))
    have e1 : (2 : ℚ) ^ ((F.p : ℤ) + k) = 2 * 2 ^ (k - 1 + F.p) := by
      rw [show (F.p : ℤ) + k = (k - 1 + F.p) + 1 by ring, zpow_add_one₀ (by norm_num)]; ring
    have e2 : (2 : ℚ) ^ k ≤ 2 ^ (k - 1 + F.p) :=
      zpow_le_zpow_right₀ (by norm_num) (by have := F.one_lt_p; omega)
    rw [e1]; have := two_zpow_pos k; linarith
  · have g := (gx.mono h'.le).sub ga
    refine repU_of_grid g (g.mono (emin_le_ulpExp a)) (tri.trans ?_)
    have hk1 : k ≤ F.ulpExp a + 1 := by
      refine ulpExp_le_of_lt hs0 (by have := emin_le_ulpExp (F := F) a; omega) ?_
      have := abs_lt_ulpExp (F := F) a
      rw [show F.ulpExp a + 1 + (F.p : ℤ) = F.ulpExp a + F.p + 1 by ring, zpow_add_one₀ (by norm_num)]
      calc |a + b| ≤ |a| + |b| := abs_add_le _ _
        _ < _ := by linarith
    have e1 : (2 : ℚ) ^ k / 2 ≤ 2 ^ F.ulpExp a := by
      have := zpow_le_zpow_right₀ (a := (2 : ℚ)) (by norm_num) hk1
      rw [zpow_add_one₀ (by norm_num)] at this
      linarith
    have h3 : |a| + 2 ^ F.ulpExp a ≤ 2 ^ ((F.p : ℤ) + F.ulpExp a) := by
      have g1 : OnGrid (F.ulpExp a) |a| := by
        rcases abs_choice a with h' | h' <;> rw [h']
        · exact ga
        · exact ga.neg
      have g2 : OnGrid (F.ulpExp a) (2 ^ ((F.p : ℤ) + F.ulpExp a)) :=
        (OnGrid.two_zpow _).mono (by have := F.one_lt_p; omega)
      exact OnGrid.sep g1 g2 (by rw [add_comm (F.p : ℤ)]; exact abs_lt_ulpExp a)
    linarith

/-! ## Veltkamp's splitting (p = 53, shift 27) -/

theorem two_zpow_add (j k : ℤ) (n : ℕ) (h : k = j + n) : (2 : ℚ) ^ k = 2 ^ n * 2 ^ j := by
  rw [h, zpow_add₀ (by norm_num), zpow_natCast, mul_comm]

/-- what the upper half `a1` of a splitting of `a` satisfies, `j` being the exponent of `a` -/
structure SplitSpec (a a1 : ℚ) (j : ℤ) : Prop where
  grid : OnGrid (j - 25) a1
  err : |a - a1| ≤ 2 ^ (j - 26)

theorem SplitSpec.neg {a a1 : ℚ} {j : ℤ} (h : SplitSpec a a1 j) : SplitSpec (-a) (-a1) j :=
  ⟨h.grid.neg, by rw [show -a - -a1 = -(a - a1) by ring, abs_neg]; exact h.err⟩

/-- intermediate results of the splitting -/
structure SplitRun (F : Format) (a a1 : ℚ) (j : ℤ) : Prop where
  spec : SplitSpec a a1 j
  eq : a1 = F.roundQ .near (a * (2 ^ 27 + 1)) - F.roundQ .near (F.roundQ .near (a * (2 ^ 27 + 1)) - a)
  rep : F.RepU a1
  rep2 : F.RepU (a - a1)

theorem split_pos (hp : F.p = 53) {a : ℚ} (ha : F.RepU a) {j : ℤ} (hj1 : 2 ^ j ≤ a) (hj2 : a < 2 ^ (j + 1)) :
    SplitRun F a (F.roundQ .near (a * (2 ^ 27 + 1)) -
      F.roundQ .near (F.roundQ .near (a * (2 ^ 27 + 1)) - a)) j := by
  have u0 := two_zpow_pos (j - 52)
  set u : ℚ := 2 ^ (j - 52) with hu
  have a0 : 0 < a := lt_of_lt_of_le (two_zpow_pos j) hj1
  have w0 : (2 : ℚ) ^ j = 2 ^ 52 * u := two_zpow_add _ _ 52 (by push_cast; ring)
  have w1 : (2 : ℚ) ^ (j + 1) = 2 ^ 53 * u := two_zpow_add _ _ 53 (by push_cast; ring)
  have w25 : (2 : ℚ) ^ (j - 25) = 2 ^ 27 * u := two_zpow_add _ _ 27 (by push_cast; ring)
  have w26 : (2 : ℚ) ^ (j - 26) = 2 ^ 26 * u := two_zpow_add _ _ 26 (by push_cast; ring)
  have w27 : (2 : ℚ) ^ (j + 27) = 2 ^ 79 * u := two_zpow_add _ _ 79 (by push_cast; ring)
  have w28 : (2 : ℚ) ^ (j + 28) = 2 ^ 80 * u := two_zpow_add _ _ 80 (by push_cast; ring)
  have w29 : (2 : ℚ) ^ (j + 29) = 2 ^ 81 * u := two_zpow_add _ _ 81 (by push_cast; ring)
  have ga : OnGrid (j - 52) a := by
    refine (onGrid_ulp_of_repU ha).mono (le_ulpExp_of_le ?_)
    rw [hp, abs_of_pos a0, show j - 52 + ((53 : ℕ) : ℤ) - 1 = j by push_cast; ring]; exact hj1
  have gmin := onGrid_of_repU ha
  have gC : OnGrid F.emin (a * (2 ^ 27 + 1)) := by
    have := gmin.int_mul (2 ^ 27 + 1); push_cast at this; rw [mul_comm] at this
    convert this using 2; norm_num
  -- the two cases
  have main : OnGrid (j - 25) (F.roundQ .near (a * (2 ^ 27 + 1)) -
      F.roundQ .near (F.roundQ .near (a * (2 ^ 27 + 1)) - a)) ∧
      |a - (F.roundQ .near (a * (2 ^ 27 + 1)) -
      F.roundQ .near (F.roundQ .near (a * (2 ^ 27 + 1)) - a))| ≤ 2 ^ (j - 26) := by
    rcases le_or_gt (j - 24) F.emin with hA | hB
    · -- everything is exact
      have r1 : F.RepU (a * (2 ^ 27 + 1)) := by
        refine repU_of_grid gC gC ?_
        have : (2 : ℚ) ^ (j + 29) ≤ 2 ^ ((F.p : ℤ) + F.emin) :=
          zpow_le_zpow_right₀ (by norm_num) (by rw [hp]; push_cast; omega)
        refine le_trans ?_ this
        rw [abs_of_pos (by positivity), w29]
        rw [w1] at hj2
        linarith
      rw [r1.roundQ_eq, show a * (2 ^ 27 + 1) - a = a * 2 ^ 27 by ring]
      have r2 : F.RepU (a * 2 ^ 27) := by
        have g : OnGrid F.emin (a * 2 ^ 27) := by
          have := gmin.int_mul (2 ^ 27); push_cast at this; rwa [mul_comm] at this
        refine repU_of_grid g g ?_
        have : (2 : ℚ) ^ (j + 29) ≤ 2 ^ ((F.p : ℤ) + F.emin) :=
          zpow_le_zpow_right₀ (by norm_num) (by rw [hp]; push_cast; omega)
        refine le_trans ?_ this
        rw [abs_of_pos (by positivity), w29]
        rw [w1] at hj2
        linarith
      rw [r2.roundQ_eq, show a * (2 ^ 27 + 1) - a * 2 ^ 27 = a by ring]
      refine ⟨gmin.mono (by omega), ?_⟩
      rw [sub_self, abs_zero]; exact (two_zpow_pos _).le
    · have hB : F.emin ≤ j - 25 := by omega
      set γ := F.roundQ .near (a * (2 ^ 27 + 1)) with hγ
      have hCpos : 0 < a * (2 ^ 27 + 1) := by positivity
      have gγ : OnGrid (j - 25) γ := by
        refine (roundQ_onGrid_ulp .near _).mono (le_ulpExp_of_le ?_)
        rw [hp, abs_of_pos hCpos, show j - 25 + ((53 : ℕ) : ℤ) - 1 = j + 27 by push_cast; ring, w27]
        rw [w0] at hj1
        linarith
      have e1 : |γ - a * (2 ^ 27 + 1)| ≤ 2 ^ (j - 25) := by
        have := near_err_le (F := F) (q := a * (2 ^ 27 + 1)) (k := j - 24) (by omega) (by
          rw [hp, abs_of_pos hCpos, show j - 24 + ((53 : ℕ) : ℤ) = j + 29 by push_cast; ring, w29]
          rw [w1] at hj2
          linarith)
        rwa [show j - 24 - 1 = j - 25 by ring] at this
      have ea := abs_le.1 e1
      rw [w25] at ea
      -- `d = γ - a`
      have dlo : 2 ^ (j + 27) ≤ γ - a := by
        rcases hj1.lt_or_eq with h | h
        · have := OnGrid.sep ((OnGrid.two_zpow j).mono (by omega)) ga h
          rw [← hu, w0] at this
          rw [w27]; linarith
        · have r1 : F.RepU (a * (2 ^ 27 + 1)) := by
            have g : OnGrid (j - 25) (a * (2 ^ 27 + 1)) := by
              rw [← h]
              have := ((OnGrid.two_zpow j).mono (show j - 25 ≤ j by omega)).int_mul (2 ^ 27 + 1)
              push_cast at this; rw [mul_comm] at this
              convert this using 2; norm_num
            refine repU_of_grid g gC ?_
            rw [hp, abs_of_pos hCpos, show ((53 : ℕ) : ℤ) + (j - 25) = j + 28 by push_cast; ring, w28,
              ← h, w0]
            linarith
          rw [hγ, r1.roundQ_eq, w27, ← h, w0]; linarith
      have dhi : γ - a ≤ 2 ^ (j + 28) := by
        have := OnGrid.sep ga ((OnGrid.two_zpow (j + 1)).mono (by omega)) hj2
        rw [← hu, w1] at this
        rw [w28]; linarith
      have dpos : 0 < γ - a := lt_of_lt_of_le (two_zpow_pos _) dlo
      set δ := F.roundQ .near (γ - a) with hδ
      have gδ : OnGrid (j - 25) δ := by
        refine (roundQ_onGrid_ulp .near _).mono (le_ulpExp_of_le ?_)
        rw [hp, abs_of_pos dpos, show j - 25 + ((53 : ℕ) : ℤ) - 1 = j + 27 by push_cast; ring]
        exact dlo
      have e2 : |δ - (γ - a)| ≤ 2 ^ (j - 26) := by
        have := near_err_le (F := F) (q := γ - a) (k := j - 25) hB (by
          rw [hp, abs_of_pos dpos, show j - 25 + ((53 : ℕ) : ℤ) = j + 28 by push_cast; ring]
          exact dhi)
        rwa [show j - 25 - 1 = j - 26 by ring] at this
      refine ⟨gγ.sub gδ, ?_⟩
      rwa [show a - (γ - δ) = δ - (γ - a) by ring]
  obtain ⟨m1, m2⟩ := main
  have gm : OnGrid F.emin (F.roundQ .near (a * (2 ^ 27 + 1)) -
      F.roundQ .near (F.roundQ .near (a * (2 ^ 27 + 1)) - a)) :=
    (onGrid_of_repU (roundQ_repU _ _)).sub (onGrid_of_repU (roundQ_repU _ _))
  refine ⟨⟨m1, m2⟩, rfl, ?_, ?_⟩
  · refine repU_of_grid m1 gm ?_
    rw [hp, show ((53 : ℕ) : ℤ) + (j - 25) = j + 28 by push_cast; ring, w28]
    have := abs_le.1 m2
    rw [w26] at this
    rw [w1] at hj2
    rw [w0] at hj1
    rw [abs_le]; constructor <;> linarith
  · refine repU_of_grid (ga.sub (m1.mono (by omega))) (gmin.sub gm) (m2.trans ?_)
    exact zpow_le_zpow_right₀ (by norm_num) (by rw [hp]; push_cast; omega)

/-- Veltkamp's splitting, any sign -/
theorem split_run (hp : F.p = 53) {a : ℚ} (ha : F.RepU a) (h0 : a ≠ 0) :
    SplitRun F a (F.roundQ .near (a * (2 ^ 27 + 1)) -
      F.roundQ .near (F.roundQ .near (a * (2 ^ 27 + 1)) - a)) (Int.log 2 |a|) := by
  have l1 := Int.zpow_log_le_self (b := 2) (by norm_num) (abs_pos.2 h0)
  have l2 := Int.lt_zpow_succ_log_self (b := 2) (by norm_num) |a|
  push_cast at l1 l2
  rcases lt_or_gt_of_ne h0 with h | h
  · rw [abs_of_neg h] at l1 l2 ⊢
    have := split_pos hp ha.neg l1 l2
    rw [show -a * (2 ^ 27 + 1) = -(a * (2 ^ 27 + 1)) by ring, roundQ_neg_near] at this
    rw [show -F.roundQ .near (a * (2 ^ 27 + 1)) - -a = -(F.roundQ .near (a * (2 ^ 27 + 1)) - a) by ring,
      roundQ_neg_near] at this
    obtain ⟨s, -, r1, r2⟩ := this
    refine ⟨?_, rfl, ?_, ?_⟩
    · have := s.neg
      rw [neg_neg, neg_sub, sub_neg_eq_add, neg_add_eq_sub] at this
      exact this
    · have := r1.neg
      rw [neg_sub, sub_neg_eq_add, neg_add_eq_sub] at this
      exact this
    · have := r2.neg
      convert this using 1; ring
  · rw [abs_of_pos h] at l1 l2 ⊢
    exact split_pos hp ha l1 l2

/-! ## Dekker's product -/

/-- all intermediate results of Dekker's product are exact -/
structure DekkerSpec (F : Format) (a b a1 b1 : ℚ) : Prop where
  p11 : F.RepU (a1 * b1)
  p21 : F.RepU ((a - a1) * b1)
  p12 : F.RepU (a1 * (b - b1))
  p22 : F.RepU ((a - a1) * (b - b1))
  t1 : F.RepU (a1 * b1 - F.roundQ .near (a * b))
  t2 : F.RepU (a * b1 - F.roundQ .near (a * b))
  t3 : F.RepU (a * b - (a - a1) * (b - b1) - F.roundQ .near (a * b))
  t4 : F.RepU (a * b - F.roundQ .near (a * b))

/-- the intermediate results of Dekker's product, except `a1 * b1`, are small -/
structure DekkerBound (F : Format) (a b a1 b1 w : ℚ) : Prop where
  p11 : |a * b - a1 * b1| ≤ w
  p21 : |(a - a1) * b1| ≤ w
  p12 : |a1 * (b - b1)| ≤ w
  p22 : |(a - a1) * (b - b1)| ≤ w
  t1 : |a1 * b1 - F.roundQ .near (a * b)| ≤ w
  t2 : |a * b1 - F.roundQ .near (a * b)| ≤ w
  t3 : |a * b - (a - a1) * (b - b1) - F.roundQ .near (a * b)| ≤ w
  t4 : |a * b - F.roundQ .near (a * b)| ≤ w

theorem dekker (hp : F.p = 53) {a b a1 b1 : ℚ} {ja jb ga gb : ℤ}
    (ha1 : 2 ^ ja ≤ |a|) (ha2 : |a| < 2 ^ (ja + 1)) (hb1 : 2 ^ jb ≤ |b|) (hb2 : |b| < 2 ^ (jb + 1))
    (sa : SplitSpec a a1 ja) (sb : SplitSpec b b1 jb) (ua : OnGrid (ja - 52) a) (ub : OnGrid (jb - 52) b)
    (hga : OnGrid ga a) (hga1 : OnGrid ga a1) (hgb : OnGrid gb b) (hgb1 : OnGrid gb b1)
    (hg : F.emin ≤ ga + gb) :
    DekkerSpec F a b a1 b1 ∧ |a * b - F.roundQ .near (a * b)| ≤ 2 ^ (ja + jb - 52) ∧
      DekkerBound F a b a1 b1 (2 ^ (ja + jb - 20)) ∧ OnGrid (ja + jb - 52) (F.roundQ .near (a * b)) := by
  have ua1 : OnGrid (ja - 52) a1 := sa.grid.mono (by omega)
  have ub1 : OnGrid (jb - 52) b1 := sb.grid.mono (by omega)
  have ga1 : OnGrid (ja - 25) a1 := sa.grid
  have gb1 : OnGrid (jb - 25) b1 := sb.grid
  have ga2 := ua.sub ua1
  have gb2 := ub.sub ub1
  have hga2 := hga.sub hga1
  have hgb2 := hgb.sub hgb1
  -- magnitudes in units
  have va0 := two_zpow_pos (ja - 52)
  have vb0 := two_zpow_pos (jb - 52)
  set va : ℚ := 2 ^ (ja - 52) with hva
  set vb : ℚ := 2 ^ (jb - 52) with hvb
  have za1 : (2 : ℚ) ^ (ja + 1) = 2 ^ 53 * va := two_zpow_add _ _ 53 (by push_cast; ring)
  have zb1 : (2 : ℚ) ^ (jb + 1) = 2 ^ 53 * vb := two_zpow_add _ _ 53 (by push_cast; ring)
  have za2 : (2 : ℚ) ^ (ja - 26) = 2 ^ 26 * va := two_zpow_add _ _ 26 (by push_cast; ring)
  have zb2 : (2 : ℚ) ^ (jb - 26) = 2 ^ 26 * vb := two_zpow_add _ _ 26 (by push_cast; ring)
  have zz : ∀ (k : ℤ) (n : ℕ), k = ja + jb - 104 + n → (2 : ℚ) ^ k = 2 ^ n * (va * vb) := by
    intro k n h
    rw [two_zpow_add (ja + jb - 104) k n h, hva, hvb, ← zpow_add₀ (by norm_num)]
    congr 2; ring
  have na : |a| ≤ 2 ^ 53 * va := by rw [← za1]; exact ha2.le
  have nb : |b| ≤ 2 ^ 53 * vb := by rw [← zb1]; exact hb2.le
  have na2 : |a - a1| ≤ 2 ^ 26 * va := by rw [← za2]; exact sa.err
  have nb2 : |b - b1| ≤ 2 ^ 26 * vb := by rw [← zb2]; exact sb.err
  have bound1 : ∀ {c c1 : ℚ} {j : ℤ} {v : ℚ}, v = 2 ^ (j - 52) → |c| < 2 ^ (j + 1) →
      SplitSpec c c1 j → |c1| ≤ 2 ^ 53 * v := by
    intro c c1 j v hv h1 hs
    -- `c1` is on the grid `2^(j-25)` and below `2^(j+1) + 2^(j-26)`
    have hv0 : 0 < v := by rw [hv]; exact two_zpow_pos _
    have w25 : (2 : ℚ) ^ (j - 25) = 2 ^ 27 * v := by rw [hv]; exact two_zpow_add _ _ 27 (by push_cast; ring)
    have w26 : (2 : ℚ) ^ (j - 26) = 2 ^ 26 * v := by rw [hv]; exact two_zpow_add _ _ 26 (by push_cast; ring)
    have w1 : (2 : ℚ) ^ (j + 1) = 2 ^ 53 * v := by rw [hv]; exact two_zpow_add _ _ 53 (by push_cast; ring)
    by_contra hc
    have hc := not_le.1 hc
    have g1 : OnGrid (j - 25) |c1| := by
      rcases abs_choice c1 with h | h <;> rw [h]
      · exact hs.grid
      · exact hs.grid.neg
    have g2 : OnGrid (j - 25) (2 ^ (j + 1)) := (OnGrid.two_zpow _).mono (by omega)
    have := OnGrid.sep g2 g1 (by rw [w1]; exact hc)
    rw [w25, w1] at this
    have h3 : |c1| ≤ |c| + |c - c1| := by
      have := abs_sub_abs_le_abs_sub c1 c
      rw [abs_sub_comm] at this; linarith
    have h4 := hs.err
    rw [w26] at h4
    rw [w1] at h1
    linarith
  have na1 : |a1| ≤ 2 ^ 53 * va := bound1 hva ha2 sa
  have nb1 : |b1| ≤ 2 ^ 53 * vb := bound1 hvb hb2 sb
  have mulle : ∀ {x y X Y : ℚ}, |x| ≤ X * va → |y| ≤ Y * vb → |x * y| ≤ (X * Y) * (va * vb) := by
    intro x y X Y hx hy
    rw [abs_mul]
    calc |x| * |y| ≤ (X * va) * (Y * vb) := mul_le_mul hx hy (abs_nonneg _) ((abs_nonneg _).trans hx)
      _ = _ := by ring
  have n11 := mulle na1 nb1
  have n21 := mulle na2 nb1
  have n12 := mulle na1 nb2
  have n22 := mulle na2 nb2
  have nab := mulle na nb
  have nab2 := mulle na nb2
  have vv : 0 < va * vb := mul_pos va0 vb0
  -- the rounded product
  have hab0 : a * b ≠ 0 := by
    rintro h
    rcases mul_eq_zero.1 h with h | h
    · rw [h, abs_zero] at ha1; exact absurd ha1 (not_le.2 (two_zpow_pos _))
    · rw [h, abs_zero] at hb1; exact absurd hb1 (not_le.2 (two_zpow_pos _))
  set x := F.roundQ .near (a * b) with hx
  have gx : OnGrid (ja + jb - 52) x := by
    refine (roundQ_onGrid_ulp .near _).mono (le_ulpExp_of_le ?_)
    rw [hp, show ja + jb - 52 + ((53 : ℕ) : ℤ) - 1 = ja + jb by push_cast; ring, zpow_add₀ (by norm_num), abs_mul]
    exact mul_le_mul ha1 hb1 (two_zpow_pos _).le (abs_nonneg _)
  have gxm : OnGrid F.emin x := onGrid_of_repU (roundQ_repU _ _)
  have gabm : OnGrid F.emin (a * b) := (hga.mul hgb).mono hg
  have err : |a * b - x| ≤ 2 ^ (ja + jb - 52) := by
    rw [abs_sub_comm]
    have hle : |a * b| ≤ 2 ^ (ja + jb - 51 + 53) := by
      rw [zz (ja + jb - 51 + 53) 106 (by push_cast; ring)]
      refine nab.trans (le_of_eq ?_); norm_num
    rcases le_or_gt F.emin (ja + jb - 51) with h | h
    · have := near_err_le (F := F) (q := a * b) (k := ja + jb - 51) h (by rw [hp]; exact_mod_cast hle)
      rwa [show ja + jb - 51 - 1 = ja + jb - 52 by ring] at this
    · have : F.RepU (a * b) := by
        refine repU_of_grid gabm gabm (hle.trans ?_)
        exact zpow_le_zpow_right₀ (by norm_num) (by rw [hp]; push_cast; omega)
      rw [hx, this.roundQ_eq, sub_self, abs_zero]; exact (two_zpow_pos _).le
  have err' := err
  rw [zz (ja + jb - 52) 52 (by push_cast; ring)] at err'
  have m11 := (hga1.mul hgb1).mono hg
  have m21 := (hga2.mul hgb1).mono hg
  have m12 := (hga1.mul hgb2).mono hg
  have m22 := (hga2.mul hgb2).mono hg
  have h11 : |a * b - a1 * b1| ≤ 2 ^ 80 * (va * vb) := by
    rw [show a * b - a1 * b1 = a * (b - b1) + (a - a1) * b1 by ring]
    refine (abs_add_le _ _).trans ?_
    linarith
  refine ⟨⟨?_, ?_, ?_, ?_, ?_, ?_, ?_, ?_⟩, err, ?_, gx⟩
  · refine repU_of_grid (ga1.mul gb1) m11 (n11.trans ?_)
    rw [hp, zz (((53 : ℕ) : ℤ) + (ja - 25 + (jb - 25))) 107 (by push_cast; ring)]
    linarith
  · refine repU_of_grid (ga2.mul gb1) m21 (n21.trans ?_)
    rw [hp, zz (((53 : ℕ) : ℤ) + (ja - 52 + (jb - 25))) 80 (by push_cast; ring)]
    linarith
  · refine repU_of_grid (ga1.mul gb2) m12 (n12.trans ?_)
    rw [hp, zz (((53 : ℕ) : ℤ) + (ja - 25 + (jb - 52))) 80 (by push_cast; ring)]
    linarith
  · refine repU_of_grid (ga2.mul gb2) m22 (n22.trans ?_)
    rw [hp, zz (((53 : ℕ) : ℤ) + (ja - 52 + (jb - 52))) 53 (by push_cast; ring)]
    linarith
  · have g : OnGrid (ja + jb - 52) (a1 * b1 - x) := ((ga1.mul gb1).mono (by omega)).sub gx
    refine repU_of_grid g (m11.sub gxm) ?_
    rw [hp, zz (((53 : ℕ) : ℤ) + (ja + jb - 52)) 105 (by push_cast; ring)]
    rw [show a1 * b1 - x = (a * b - x) - (a * b - a1 * b1) by ring]
    refine (abs_sub _ _).trans ?_
    linarith
  · have g : OnGrid (ja + jb - 77) (a * b1 - x) :=
      ((ua.mul gb1).mono (by omega)).sub (gx.mono (by omega))
    refine repU_of_grid g (((hga.mul hgb1).mono hg).sub gxm) ?_
    rw [hp, zz (((53 : ℕ) : ℤ) + (ja + jb - 77)) 80 (by push_cast; ring)]
    rw [show a * b1 - x = (a * b - x) - a * (b - b1) by ring]
    refine (abs_sub _ _).trans ?_
    linarith
  · have g : OnGrid (ja + jb - 77) (a * b - (a - a1) * (b - b1) - x) := by
      rw [show a * b - (a - a1) * (b - b1) - x = a * b1 + a1 * (b - b1) - x by ring]
      exact (((ua.mul gb1).mono (by omega)).add ((ga1.mul gb2).mono (by omega))).sub (gx.mono (by omega))
    refine repU_of_grid g ((gabm.sub m22).sub gxm) ?_
    rw [hp, zz (((53 : ℕ) : ℤ) + (ja + jb - 77)) 80 (by push_cast; ring)]
    rw [show a * b - (a - a1) * (b - b1) - x = (a * b - x) - (a - a1) * (b - b1) by ring]
    refine (abs_sub _ _).trans ?_
    linarith
  · have g : OnGrid (ja + jb - 104) (a * b - x) :=
      ((ua.mul ub).mono (by omega)).sub (gx.mono (by omega))
    refine repU_of_grid g (gabm.sub gxm) ?_
    rw [hp, zz (((53 : ℕ) : ℤ) + (ja + jb - 104)) 53 (by push_cast; ring)]
    linarith
  · rw [zz (ja + jb - 20) 84 (by push_cast; ring)]
    refine ⟨by linarith, by linarith, by linarith, by linarith, ?_, ?_, ?_, by linarith⟩
    · rw [show a1 * b1 - x = (a * b - x) - (a * b - a1 * b1) by ring]
      refine (abs_sub _ _).trans ?_
      linarith
    · rw [show a * b1 - x = (a * b - x) - a * (b - b1) by ring]
      refine (abs_sub _ _).trans ?_
      linarith
    · rw [show a * b - (a - a1) * (b - b1) - x = (a * b - x) - (a - a1) * (b - b1) by ring]
      refine (abs_sub _ _).trans ?_
      linarith

/-- halving is exact away from the smallest exponent -/
theorem RepU.half {t : ℚ} (h : F.RepU t) (hg : OnGrid (F.emin + 1) t) : F.RepU (t * (1 / 2)) := by
  have hp : (2 : ℚ) ^ (-1 : ℤ) = 1 / 2 := by norm_num
  have h1 := (onGrid_ulp_of_repU h).scale (-1)
  have h2 := hg.scale (-1)
  rw [hp] at h1 h2
  rw [show F.emin + 1 + -1 = F.emin by ring] at h2
  refine repU_of_grid h1 h2 ?_
  rw [show (F.p : ℤ) + (F.ulpExp t + -1) = F.ulpExp t + F.p - 1 by ring, zpow_sub_one₀ (by norm_num), abs_mul,
    abs_of_pos (by norm_num : (0 : ℚ) < 1 / 2)]
  have := (abs_lt_ulpExp (F := F) t).le
  linarith

theorem RepU.scale_up {t : ℚ} (h : F.RepU t) (k : ℕ) : F.RepU (t * 2 ^ k) := by
  obtain ⟨m, e, hm, he, rfl⟩ := h
  exact ⟨m, e + k, hm, by omega, by rw [zpow_add₀ (by norm_num), zpow_natCast]; ring⟩

theorem RepU.scale {t : ℚ} (h : F.RepU t) {k : ℤ} (hg : OnGrid (F.emin - k) t) : F.RepU (t * 2 ^ k) := by
  have h1 := (onGrid_ulp_of_repU h).scale k
  have h2 := hg.scale k
  rw [show F.emin - k + k = F.emin by ring] at h2
  refine repU_of_grid h1 h2 ?_
  rw [show (F.p : ℤ) + (F.ulpExp t + k) = F.ulpExp t + F.p + k by ring, zpow_add₀ (by norm_num), abs_mul,
    abs_of_pos (two_zpow_pos k)]
  exact mul_le_mul_of_nonneg_right (abs_lt_ulpExp (F := F) t).le (two_zpow_pos k).le

end Format
end Kv
