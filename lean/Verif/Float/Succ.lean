import Verif.Float.EFT
import Verif.Float.SqrtLemmas

/-!
# Neighbours of a floating-point number, faithful results: helper lemmas
-/

namespace Kv
namespace Format
variable {F : Format}

/-- `s` is the smallest number of the format (no upper exponent limit) above `r`. -/
structure IsNext (F : Format) (r s : ℚ) : Prop where
  rep : F.RepU s
  lt : r < s
  least : ∀ t, F.RepU t → r < t → s ≤ t

/-- the neighbour above a number with exponent `j`, not subnormal -/
def nx (r : ℚ) (j : ℤ) : ℚ := if r = -2 ^ j then r + 2 ^ (j - 53) else r + 2 ^ (j - 52)

theorem onGrid_of_large (hp : F.p = 53) {t : ℚ} (ht : F.RepU t) {j : ℤ} (h : 2 ^ j ≤ |t|) :
    OnGrid (j - 52) t := by
  refine (onGrid_ulp_of_repU ht).mono (le_ulpExp_of_le ?_)
  rw [hp, show j - 52 + ((53 : ℕ) : ℤ) - 1 = j by push_cast; ring]; exact h

theorem nx_isNext (hp : F.p = 53) {r : ℚ} (hr : F.RepU r) {j : ℤ} (h1 : 2 ^ j ≤ |r|)
    (h2 : |r| < 2 ^ (j + 1)) (hj : F.emin ≤ j - 53) : IsNext F r (nx r j) := by
  have gr := onGrid_of_large hp hr h1
  have g0 : OnGrid (j - 52) (2 ^ j) := (OnGrid.two_zpow j).mono (by omega)
  have g1 : OnGrid (j - 52) (2 ^ (j - 52)) := OnGrid.two_zpow _
  have u0 := two_zpow_pos (j - 52)
  have w0 : (2 : ℚ) ^ j = 2 ^ 52 * 2 ^ (j - 52) := two_zpow_add _ _ 52 (by push_cast; ring)
  have w1 : (2 : ℚ) ^ (j + 1) = 2 ^ 53 * 2 ^ (j - 52) := two_zpow_add _ _ 53 (by push_cast; ring)
  have whalf : (2 : ℚ) ^ (j - 52) = 2 ^ 1 * 2 ^ (j - 53) := two_zpow_add _ _ 1 (by push_cast; ring)
  unfold nx
  split_ifs with h
  · have v0 := two_zpow_pos (j - 53)
    refine ⟨?_, by linarith, fun t ht hlt => ?_⟩
    · have g : OnGrid (j - 53) (r + 2 ^ (j - 53)) := (gr.mono (by omega)).add (OnGrid.two_zpow _)
      refine repU_of_grid g (g.mono hj) ?_
      rw [hp, show ((53 : ℕ) : ℤ) + (j - 53) = j by push_cast; ring, h, abs_le]
      constructor <;> linarith
    · rcases le_or_gt (2 ^ (j - 1)) |t| with ht1 | ht1
      · have gt := onGrid_of_large hp ht ht1
        rw [show j - 1 - 52 = j - 53 by ring] at gt
        exact OnGrid.sep (gr.mono (by omega)) gt hlt
      · have := (abs_lt.1 ht1).1
        have w3 : (2 : ℚ) ^ j = 2 ^ 1 * 2 ^ (j - 1) := two_zpow_add _ _ 1 (by push_cast; ring)
        rw [h]; linarith
  · refine ⟨?_, by linarith, fun t ht hlt => ?_⟩
    · have g : OnGrid (j - 52) (r + 2 ^ (j - 52)) := gr.add g1
      refine repU_of_grid g (g.mono (by omega)) ?_
      rw [hp, show ((53 : ℕ) : ℤ) + (j - 52) = j + 1 by push_cast; ring]
      have := abs_lt.1 h2
      have h3 : r + 2 ^ (j - 52) ≤ 2 ^ (j + 1) :=
        OnGrid.sep gr ((OnGrid.two_zpow (j + 1)).mono (by omega)) this.2
      rw [abs_le]; constructor <;> linarith
    · rcases le_or_gt (2 ^ j) |t| with ht1 | ht1
      · exact OnGrid.sep gr (onGrid_of_large hp ht ht1) hlt
      · have ht2 := abs_lt.1 ht1
        have hneg : r < 0 := by
          by_contra hc
          rw [abs_of_nonneg (not_lt.1 hc)] at h1
          linarith
        rw [abs_of_neg hneg] at h1
        have : r < -2 ^ j := lt_of_le_of_ne (by linarith) h
        have := OnGrid.sep gr g0.neg this
        linarith

theorem near_eq_of_between {v s : ℚ} (hs : F.RepU s)
    (hlo : ∀ t, F.RepU t → t < s → |s - v| < |t - v|) (hhi : ∀ t, F.RepU t → s < t → |s - v| < |t - v|) :
    F.roundQ .near v = s := by
  have h := RepU.near_le (F := F) (q := v) hs
  rcases lt_trichotomy (F.roundQ .near v) s with h1 | h1 | h1
  · exact absurd h (not_le.2 (hlo _ (roundQ_repU _ _) h1))
  · exact h1
  · exact absurd h (not_le.2 (hhi _ (roundQ_repU _ _) h1))

/-- Rump's successor formula on numbers that are not too small -/
theorem succ_core (hp : F.p = 53) {r : ℚ} (hr : F.RepU r) {j : ℤ} (h1 : 2 ^ j ≤ |r|)
    (h2 : |r| < 2 ^ (j + 1)) (hj : F.emin ≤ j - 105) :
    0 ≤ F.roundQ .near (|r| * (2 ^ (-53 : ℤ) + 2 ^ (-105 : ℤ))) ∧
    F.roundQ .near (|r| * (2 ^ (-53 : ℤ) + 2 ^ (-105 : ℤ))) ≤ 2 ^ (j - 52) ∧
    F.roundQ .near (r + F.roundQ .near (|r| * (2 ^ (-53 : ℤ) + 2 ^ (-105 : ℤ)))) = nx r j := by
  have gr := onGrid_of_large hp hr h1
  have u0 := two_zpow_pos (j - 105)
  set u : ℚ := 2 ^ (j - 105) with hu
  have w52 : (2 : ℚ) ^ (j - 52) = 2 ^ 53 * u := two_zpow_add _ _ 53 (by push_cast; ring)
  have w53 : (2 : ℚ) ^ (j - 53) = 2 ^ 52 * u := two_zpow_add _ _ 52 (by push_cast; ring)
  have w0 : (2 : ℚ) ^ j = 2 ^ 105 * u := two_zpow_add _ _ 105 (by push_cast; ring)
  have w1 : (2 : ℚ) ^ (j + 1) = 2 ^ 106 * u := two_zpow_add _ _ 106 (by push_cast; ring)
  have w104 : (2 : ℚ) ^ (j - 104) = 2 ^ 1 * u := two_zpow_add _ _ 1 (by push_cast; ring)
  have hc : (2 : ℚ) ^ (-53 : ℤ) + 2 ^ (-105 : ℤ) = (2 ^ 52 + 1) / 2 ^ 105 := by norm_num
  rw [hc]
  have ga : OnGrid (j - 52) |r| := by
    rcases abs_choice r with h | h <;> rw [h]
    · exact gr
    · exact gr.neg
  have hhi : |r| + 2 ^ (j - 52) ≤ 2 ^ (j + 1) := OnGrid.sep ga ((OnGrid.two_zpow (j + 1)).mono (by omega)) h2
  have rlo : F.RepU ((2 ^ 52 + 1) * u) := by
    have : F.RepU (((2 ^ 52 + 1 : ℤ) : ℚ) * 2 ^ (j - 105)) := repU_of_le (by rw [hp]; norm_num) hj
    rw [← hu] at this
    convert this using 1; norm_num
  have ru : F.RepU (2 ^ 53 * u) := by
    rw [← w52]
    have : F.RepU (((1 : ℤ) : ℚ) * 2 ^ (j - 52)) := repU_of_le (by rw [hp]; norm_num) (by omega)
    simpa using this
  set v := |r| * ((2 ^ 52 + 1) / 2 ^ 105) with hv
  set e := F.roundQ .near v with he
  have vlo : (2 ^ 52 + 1) * u ≤ v := by
    rw [hv, ← mul_div_assoc, le_div_iff₀ (by norm_num)]
    rw [w0] at h1; nlinarith
  have vhi : v ≤ (2 ^ 53 - 1) * (1 + 1 / 2 ^ 52) * u := by
    rw [hv, ← mul_div_assoc, div_le_iff₀ (by norm_num)]
    rw [w1, w52] at hhi; nlinarith
  have elo : (2 ^ 52 + 1) * u ≤ e := le_roundQ_of_le .near rlo vlo
  have ehi : e ≤ 2 ^ 53 * u := by
    rcases le_or_gt v (2 ^ 53 * u) with h | h
    · exact roundQ_le_of_le .near ru h
    · by_contra hcon
      have hcon := not_le.1 hcon
      have ge : OnGrid (j - 104) e := by
        refine (roundQ_onGrid_ulp .near _).mono (le_ulpExp_of_le ?_)
        rw [hp, show j - 104 + ((53 : ℕ) : ℤ) - 1 = j - 52 by push_cast; ring, w52,
          abs_of_pos (lt_trans (by positivity) h)]
        exact h.le
      have gu : OnGrid (j - 104) (2 ^ 53 * u) := by
        rw [← w52]; exact (OnGrid.two_zpow _).mono (by omega)
      have := OnGrid.sep gu ge hcon
      rw [w104] at this
      have hn := RepU.near_le (F := F) (q := v) ru
      rw [← he, abs_of_pos (by linarith), abs_of_neg (by linarith)] at hn
      linarith
  refine ⟨le_trans (by positivity) elo, by rw [w52]; exact ehi, ?_⟩
  have hn := nx_isNext hp hr h1 h2 (by omega)
  rcases eq_or_ne r (-2 ^ j) with h | h
  · have hr' : |r| = 2 ^ j := by rw [h, abs_neg, abs_of_pos (two_zpow_pos j)]
    have hve : e = (2 ^ 52 + 1) * u := by
      have : v = (2 ^ 52 + 1) * u := by
        rw [hv, hr', w0]; ring
      rw [he, this, rlo.roundQ_eq]
    have hnx : nx r j = r + 2 ^ 52 * u := by unfold nx; rw [if_pos h, w53]
    rw [hnx] at hn ⊢
    refine near_eq_of_between hn.rep (fun t ht hlt => ?_) (fun t ht hlt => ?_)
    · have : t ≤ r := by
        by_contra hcc
        exact absurd (hn.least t ht (not_le.1 hcc)) (not_le.2 hlt)
      rw [hve, abs_of_neg (by linarith), abs_of_neg (by linarith)]
      linarith
    · -- the next number is `u / 2` further up
      have : r + 2 ^ 52 * u + 2 ^ 52 * u ≤ t := by
        rcases le_or_gt (2 ^ (j - 1)) |t| with ht1 | ht1
        · have gt := onGrid_of_large hp ht ht1
          rw [show j - 1 - 52 = j - 53 by ring] at gt
          have gs : OnGrid (j - 53) (r + 2 ^ 52 * u) := by
            rw [← w53]; exact (gr.mono (by omega)).add (OnGrid.two_zpow _)
          have := OnGrid.sep gs gt hlt
          rwa [w53] at this
        · have := (abs_lt.1 ht1).1
          have w3 : (2 : ℚ) ^ (j - 1) = 2 ^ 104 * u := two_zpow_add _ _ 104 (by push_cast; ring)
          rw [h, w0]; rw [w3] at this; linarith
      rw [hve, abs_of_neg (by linarith), abs_of_pos (by linarith)]
      linarith
  · have hnx : nx r j = r + 2 ^ 53 * u := by unfold nx; rw [if_neg h, w52]
    rw [hnx] at hn ⊢
    apply le_antisymm
    · exact roundQ_le_of_le .near hn.rep (by linarith)
    · apply hn.least _ (roundQ_repU _ _)
      have hd := RepU.near_le (F := F) (q := r + e) hn.rep
      rw [show r + 2 ^ 53 * u - (r + e) = 2 ^ 53 * u - e by ring, abs_of_nonneg (a := 2 ^ 53 * u - e) (by linarith)] at hd
      have := (abs_le.1 hd).1
      linarith

/-- the subnormal case -/
theorem isNext_sub {r : ℚ} (hr : F.RepU r) (h : |r| + 2 ^ F.emin ≤ 2 ^ (F.emin + F.p)) :
    IsNext F r (r + 2 ^ F.emin) := by
  have g := onGrid_of_repU hr
  have u0 := two_zpow_pos F.emin
  refine ⟨?_, by linarith, fun t ht hlt => OnGrid.sep g (onGrid_of_repU ht) hlt⟩
  have g' := g.add (OnGrid.two_zpow F.emin)
  refine repU_of_grid g' g' ?_
  rw [add_comm (F.p : ℤ)]
  refine le_trans ?_ h
  refine (abs_add_le _ _).trans ?_
  rw [abs_of_pos u0]

theorem nx_scale (r : ℚ) (j k : ℤ) : nx (r * 2 ^ k) (j + k) = nx r j * 2 ^ k := by
  have hk := two_zpow_pos k
  unfold nx
  have e1 : (2 : ℚ) ^ (j + k) = 2 ^ j * 2 ^ k := zpow_add₀ (by norm_num) _ _
  have e2 : (2 : ℚ) ^ (j + k - 53) = 2 ^ (j - 53) * 2 ^ k := by
    rw [← zpow_add₀ (by norm_num)]; congr 1; ring
  have e3 : (2 : ℚ) ^ (j + k - 52) = 2 ^ (j - 52) * 2 ^ k := by
    rw [← zpow_add₀ (by norm_num)]; congr 1; ring
  have : (r * 2 ^ k = -2 ^ (j + k)) ↔ r = -2 ^ j := by
    rw [e1, ← neg_mul]
    exact mul_left_inj' hk.ne'
  rw [e2, e3]
  by_cases h : r = -2 ^ j
  · rw [if_pos (this.2 h), if_pos h]; ring
  · rw [if_neg (fun h' => h (this.1 h')), if_neg h]; ring

/-- `r` is one of the two numbers of the format enclosing `v`. -/
structure Faithful (F : Format) (v : ℝ) (r : ℚ) : Prop where
  lo : (r : ℝ) < v → ∀ t, F.RepU t → (t : ℝ) ≤ v → t ≤ r
  hi : v < (r : ℝ) → ∀ t, F.RepU t → v ≤ (t : ℝ) → r ≤ t

theorem faithful_near (q : ℚ) : Faithful F (q : ℝ) (F.roundQ .near q) where
  lo _ t ht h := le_roundQ_of_le .near ht (by exact_mod_cast h)
  hi _ t ht h := roundQ_le_of_le .near ht (by exact_mod_cast h)

/-- comparing a number of the format with a rounded number and with the remainder decides the
comparison with the exact number -/
theorem cmp_lt {t Q : ℚ} (ht : F.RepU t) :
    (t < F.roundQ .near Q ∨ (t = F.roundQ .near Q ∧ 0 < Q - F.roundQ .near Q)) ↔ t < Q := by
  constructor
  · rintro (h | ⟨rfl, h⟩)
    · by_contra hc
      exact absurd (roundQ_le_of_le .near ht (not_lt.1 hc)) (not_le.2 h)
    · linarith
  · intro h
    rcases (le_roundQ_of_le .near ht h.le).lt_or_eq with h' | h'
    · exact Or.inl h'
    · exact Or.inr ⟨h', by rw [← h']; linarith⟩

theorem cmp_gt {t Q : ℚ} (ht : F.RepU t) :
    (F.roundQ .near Q < t ∨ (F.roundQ .near Q = t ∧ Q - F.roundQ .near Q < 0)) ↔ Q < t := by
  constructor
  · rintro (h | ⟨rfl, h⟩)
    · by_contra hc
      exact absurd (le_roundQ_of_le .near ht (not_lt.1 hc)) (not_le.2 h)
    · linarith
  · intro h
    rcases (roundQ_le_of_le .near ht h.le).lt_or_eq with h' | h'
    · exact Or.inl h'
    · exact Or.inr ⟨h', by rw [h']; linarith⟩

end Format

namespace Fl
variable {F : Format}
open Format

theorem toE_inj {x y : Fl F} (hx : x ≠ nan) (hy : y ≠ nan) (h : toE x = toE y) : x = y := by
  cases x <;> cases y <;> simp_all

theorem IsUp.unique {v : EReal} {r s : Fl F} (hr : IsUp v r) (hs : IsUp v s) : r = s :=
  toE_inj hr.1 hs.1 (le_antisymm (hr.2.2 _ hs.1 hs.2.1) (hs.2.2 _ hr.1 hr.2.1))

theorem IsDown.unique {v : EReal} {r s : Fl F} (hr : IsDown v r) (hs : IsDown v s) : r = s :=
  toE_inj hr.1 hs.1 (le_antisymm (hs.2.2 _ hr.1 hr.2.1) (hr.2.2 _ hs.1 hs.2.1))

/-- the successor of a faithful result below `v` is `v` rounded up -/
theorem isUp_of_next {v : ℝ} {r s : ℚ} (hr : F.Rep r) (hf : Faithful F v r) (hlt : (r : ℝ) < v)
    (hn : IsNext F r s) : IsUp (v : EReal) (pack .near s hn.rep : Fl F) := by
  have hvs : v ≤ (s : ℝ) := by
    by_contra hc
    have := hf.lo hlt s hn.rep (not_le.1 hc).le
    exact absurd hn.lt (not_lt.2 this)
  unfold pack
  by_cases h : |s| ≤ F.maxQ
  · rw [dif_pos h]
    refine ⟨by simp, by rw [toE_fin]; exact_mod_cast hvs, fun y hy hvy => ?_⟩
    cases y with
    | nan => exact absurd rfl hy
    | pinf => simp
    | ninf => simp at hvy
    | fin t ht =>
      rw [toE_fin] at hvy ⊢
      have hvt : v ≤ (t : ℝ) := by exact_mod_cast hvy
      have : r < t := by exact_mod_cast hlt.trans_le hvt
      exact coeQ_le.2 (hn.least t ht.repU this)
  · rw [dif_neg h]
    have hr' := (abs_le.1 hr.abs_le).1
    have hs : F.maxQ < s := by
      by_contra hc
      exact h (abs_le.2 ⟨by linarith [hn.lt], not_lt.1 hc⟩)
    have hs0 : 0 < s := maxQ_pos.trans hs
    rw [decide_eq_true hs0]
    refine ⟨by simp [overflow], by simp [overflow], fun y hy hvy => ?_⟩
    cases y with
    | nan => exact absurd rfl hy
    | pinf => simp
    | ninf => simp at hvy
    | fin t ht =>
      rw [toE_fin] at hvy
      have hvt : v ≤ (t : ℝ) := by exact_mod_cast hvy
      have : r < t := by exact_mod_cast hlt.trans_le hvt
      have h3 := hn.least t ht.repU this
      have h4 := (abs_le.1 ht.abs_le).2
      exact absurd (hs.trans_le h3) (not_lt.2 h4)

theorem isUp_of_ge {v : ℝ} {r : ℚ} (hr : F.Rep r) (hf : Faithful F v r) (hge : v ≤ (r : ℝ)) :
    IsUp (v : EReal) (fin r hr : Fl F) := by
  refine ⟨by simp, by rw [toE_fin]; exact_mod_cast hge, fun y hy hvy => ?_⟩
  cases y with
  | nan => exact absurd rfl hy
  | pinf => simp
  | ninf => simp at hvy
  | fin t ht =>
    rw [toE_fin] at hvy
    have hvt : v ≤ (t : ℝ) := by exact_mod_cast hvy
    rw [toE_fin, toE_fin]
    rcases hge.lt_or_eq with h | h
    · exact coeQ_le.2 (hf.hi h t ht.repU hvt)
    · rw [h] at hvt; exact EReal.coe_le_coe_iff.2 hvt

theorem Faithful.neg {v : ℝ} {r : ℚ} (h : Faithful F v r) : Faithful F (-v) (-r) where
  lo h1 t ht h2 := by
    have := h.hi (by push_cast at h1; linarith) (-t) ht.neg (by push_cast; linarith)
    linarith
  hi h1 t ht h2 := by
    have := h.lo (by push_cast at h1; linarith) (-t) ht.neg (by push_cast; linarith)
    linarith

theorem isDown_of_le {v : ℝ} {r : ℚ} (hr : F.Rep r) (hf : Faithful F v r) (hle : (r : ℝ) ≤ v) :
    IsDown (v : EReal) (fin r hr : Fl F) := by
  have := (isUp_of_ge hr.neg (Faithful.neg hf) (by push_cast; linarith)).neg
  rw [← EReal.coe_neg, _root_.neg_neg] at this
  have e : neg (fin (-r) hr.neg : Fl F) = fin r hr := by
    simp only [neg, _root_.neg_neg]
  rwa [e] at this

theorem add_neg_neg_near (x y : Fl F) : add .near (neg x) (neg y) = neg (add .near x y) := by
  cases x <;> cases y <;> try rfl
  rename_i a _ b _
  show round .near (-a + -b) = neg (round .near (a + b))
  rw [show -a + -b = -(a + b) by ring, round_neg_near]

theorem mul_neg_left_near (x y : Fl F) : mul .near (neg x) y = neg (mul .near x y) := by
  cases x <;> cases y
  case fin.fin a _ b _ =>
    show round .near (-a * b) = neg (round .near (a * b))
    rw [neg_mul, round_neg_near]
  all_goals
    simp only [mul, neg, sgn, infOfSign] <;>
    first
      | rfl
      | (split_ifs <;> first | rfl | omega | (exfalso; linarith))

theorem abs_neg' (x : Fl F) : abs (neg x) = abs x := by
  cases x with
  | fin q h =>
    simp only [neg, abs]
    split_ifs with h1 h2 h2
    · have : q = 0 := by linarith
      subst this; congr 1
    · rfl
    · simp only [_root_.neg_neg]
    · exfalso; linarith
  | _ => rfl

theorem abs_fin {q : ℚ} (h : F.Rep q) (h' : F.Rep |q|) : abs (fin q h : Fl F) = fin |q| h' := by
  simp only [abs]
  split_ifs with h0
  · simp only [abs_of_nonneg h0]
  · simp only [abs_of_neg (not_le.1 h0)]

theorem rep_abs {q : ℚ} (h : F.Rep q) : F.Rep |q| := by
  rcases abs_choice q with h' | h' <;> rw [h']
  · exact h
  · exact h.neg

end Fl
end Kv
