import Verif.Complex.Cardano
import Verif.Complex.Lemmas
import Verif.Props.Complex
import Mathlib.Tactic.LinearCombination

/-! # Lemmas for `cardano` and `ferrari` -/

namespace Kv
open RopSem Kv.Interval
open Rop (lit)

namespace Interval

/-- the logarithm of an interval which contains zero is unbounded below -/
theorem log_zero {fuel : ℕ} {X Z : Interval D} (h : log fuel X = .ok Z) (hx : (0 : ℝ) ∈ X) : ∃ y0 : ℝ, ∀ y ≤ y0, y ∈ Z := by
  unfold log at h
  by_cases hd : Rop.lt X.inf (lit 0) = true
  · rw [if_pos hd] at h; cases h
  rw [if_neg hd] at h
  obtain ⟨a, ha, h⟩ := bind_ok.1 h
  obtain ⟨b, hb, h⟩ := bind_ok.1 h
  cases h
  have h1 : val X.inf = 0 := by
    refine le_antisymm hx.1.2 ?_
    rw [lt_zero_right] at hd
    by_contra hc; exact hd ⟨hx.1.1, not_le.1 hc⟩
  have la : ∀ y : ℝ, Lo a y := by
    obtain ⟨s2, -, ha⟩ := bind_ok.1 ha
    rw [if_neg, if_pos] at ha
    · cases ha
      intro y
      exact ⟨not_nan_neg_inf, by rw [show (if false = true then _ else _) = (Rop.neg Rop.inf : D) from rfl, val_neg_inf]; exact bot_le⟩
    · rw [eq_iff, lit_zero.2]; exact ⟨hx.1.1, lit_zero.1, h1⟩
    · rw [eq_inf_iff, h1]; simp
  have hb' : ∃ y0 : ℝ, Hi b y0 := by
    by_cases h0 : val X.sup = 0
    · obtain ⟨s2, -, hb⟩ := bind_ok.1 hb
      rw [if_neg, if_pos] at hb
      · cases hb
        have hy : Lo (Rop.maxv : D) (binary64.maxQ : ℝ) := Hw.lo_fin.2 le_rfl
        exact ⟨_, hy.neg⟩
      · rw [eq_iff, lit_zero.2]; exact ⟨hx.2.1, lit_zero.1, h0⟩
      · rw [eq_inf_iff, h0]; simp
    · have : 0 < val X.sup := lt_of_le_of_ne hx.2.2 (Ne.symm h0)
      obtain ⟨c, hc, hc'⟩ : ∃ c : ℝ, 0 < c ∧ (c : EReal) ≤ val X.sup := by
        obtain ⟨c, hc, hc'⟩ := EReal.lt_iff_exists_real_btwn.1 this
        exact ⟨c, by exact_mod_cast hc, hc'.le⟩
      exact ⟨_, logPoint_spec (up := true) hx.2.1 this.le hb c hc hc'⟩
  obtain ⟨y0, h0⟩ := hb'
  exact ⟨y0, fun y hy => ⟨la y, h0.mono hy⟩⟩

theorem mem_closed (Z : Interval D) : IsClosed {y : ℝ | y ∈ Z} := by
  by_cases h : ¬ nan Z.inf ∧ ¬ nan Z.sup
  · have : {y : ℝ | y ∈ Z} = {y : ℝ | val Z.inf ≤ (y : EReal)} ∩ {y : ℝ | (y : EReal) ≤ val Z.sup} := by
      ext y; simp only [Set.mem_ofPred_eq, Set.mem_inter_iff, mem_iff]; tauto
    rw [this]
    exact (isClosed_le continuous_const continuous_coe_real_ereal).inter (isClosed_le continuous_coe_real_ereal continuous_const)
  · have : {y : ℝ | y ∈ Z} = ∅ := by
      ext y; simp only [Set.mem_ofPred_eq, Set.mem_empty_iff_false, mem_iff]; tauto
    rw [this]; exact isClosed_empty

end Interval

namespace Cx
variable {X Y Z : Cx} {x y z : ℂ}

/-- a positive power of a box which contains zero contains zero -/
theorem pow_zero_mem {fuel : ℕ} {t : ℝ} (h : pow fuel X Y = .ok Z) (hx : (0 : ℂ) ∈ X) (hy : (t : ℂ) ∈ Y) (ht : 0 < t) : (0 : ℂ) ∈ Z := by
  obtain ⟨l, hl, h⟩ := bind_ok.1 h
  obtain ⟨m, hm, hl⟩ := bind_ok.1 hl
  obtain ⟨L, hL, hl⟩ := bind_ok.1 hl
  obtain ⟨a, ha, hl⟩ := bind_ok.1 hl
  cases hl
  obtain ⟨θ, hθ, -⟩ := arg_mem ha hx
  have h0 := abs_mem hm hx
  rw [norm_zero] at h0
  obtain ⟨y0, hy0⟩ := Interval.log_zero hL h0
  have key : ∀ y ≤ y0, Complex.exp (t * (⟨y, θ⟩ : ℂ)) ∈ Z := fun y hy' => exp_mem h (cMul_mem hy ⟨hy0 y hy', hθ⟩)
  have lim : Filter.Tendsto (fun y : ℝ => Complex.exp (t * (⟨y, θ⟩ : ℂ))) Filter.atBot (nhds 0) := by
    apply Complex.tendsto_exp_comap_re_atBot.comp
    rw [Filter.tendsto_comap_iff]
    have : (Complex.re ∘ fun y : ℝ => (t : ℂ) * (⟨y, θ⟩ : ℂ)) = fun y : ℝ => t * y := by
      funext y; simp
    rw [this]
    exact Filter.tendsto_id.const_mul_atBot ht
  have ev : ∀ᶠ y : ℝ in Filter.atBot, Complex.exp (t * (⟨y, θ⟩ : ℂ)) ∈ Z :=
    (Filter.eventually_le_atBot y0).mono key
  have hre := (Complex.continuous_re.tendsto _).comp lim
  have him := (Complex.continuous_im.tendsto _).comp lim
  refine ⟨?_, ?_⟩
  · exact (Interval.mem_closed Z.re).mem_of_tendsto hre (ev.mono fun y h => h.1)
  · exact (Interval.mem_closed Z.im).mem_of_tendsto him (ev.mono fun y h => h.2)

end Cx

namespace Cardano
open Cx
variable {X Y Z W P M N : Cx} {x y z w p m n : ℂ}

theorem is_num (k : ℤ) (h : |k| ≤ 2 ^ 31) : (num (k : ℚ)).Has (k : ℝ) := Is.lit_int (T := D) k h

theorem zeroInC_of (h : (0 : ℂ) ∈ X) : zeroInC X = true := by
  rw [zeroInC, Bool.and_eq_true, C07_zero_in, C07_zero_in]
  exact h

theorem hullC_left (hx : x ∈ X) (hy : y ∈ Y) : x ∈ hullC X Y := ⟨hull_mem_left hx.1 hy.1, hull_mem_left hx.2 hy.2⟩
theorem hullC_right (hx : x ∈ X) (hy : y ∈ Y) : y ∈ hullC X Y := ⟨hull_mem_right hx.1 hy.1, hull_mem_right hx.2 hy.2⟩

/-- the primitive third root of unity -/
noncomputable def om : ℂ := ⟨-1 / 2, Real.sqrt 3 / 2⟩

theorem om_sq : om ^ 2 = -1 - om := by
  have := Real.sq_sqrt (show (0 : ℝ) ≤ 3 by norm_num)
  apply Complex.ext <;> simp [om, pow_two] <;> nlinarith

theorem om_mem (h : omega = .ok W) : om ∈ W := by
  obtain ⟨s, hs, h⟩ := bind_ok.1 h
  have h3 : (3 : ℝ) ∈ Interval.point (lit 3 : D) := point_mem (by exact_mod_cast is_num 3 (by norm_num))
  have hs := Interval.sqrt_mem hs h3
  have hm : (-1 : ℝ) ∈ Interval.point (lit (-1) : D) := point_mem (by exact_mod_cast is_num (-1) (by norm_num))
  have := cDivK_mem (x := ⟨-1, Real.sqrt 3⟩) (c := 2) h ⟨hm, hs⟩ (by exact_mod_cast is_num 2 (by norm_num))
  convert this.1 using 1
  apply Complex.ext <;> simp [om]

theorem cubeRoot_mem {fuel : ℕ} (h : cubeRoot fuel X = .ok Z) (hx : x ∈ X) : ∃ w ∈ Z, w ^ 3 = x := by
  obtain ⟨e, he, h⟩ := bind_ok.1 h
  have h3 : (3 : ℝ) ∈ Interval.point (lit 3 : D) := point_mem (by exact_mod_cast is_num 3 (by norm_num))
  have he : (1 / 3 : ℝ) ∈ e := sDiv_mem he h3 (by exact_mod_cast is_num 1 (by norm_num))
  have hy := ofSc_mem (k := .ivl e) he
  by_cases h0 : x = 0
  · subst h0
    exact ⟨0, pow_zero_mem h hx hy (by norm_num), by simp⟩
  · obtain ⟨⟨L, hL, hz⟩, -⟩ := C40_pow h hx hy h0
    refine ⟨_, hz, ?_⟩
    rw [← Complex.exp_nat_mul, ← hL]
    congr 1; push_cast; ring

theorem choose_some {T N : Cx} {t n : ℂ} {o : Option Cx} (ht : t ∈ T) (h0 : t = 0) (hn : n ∈ N) (ho : ∀ V, o = some V → ∃ v, v ∈ V) :
    ∃ V, choose T N o = some V ∧ n ∈ V := by
  subst h0
  rw [choose.eq_def, if_pos (zeroInC_of ht)]
  cases o with
  | none => exact ⟨_, rfl, hn⟩
  | some V =>
    obtain ⟨v, hv⟩ := ho V rfl
    exact ⟨_, rfl, hullC_right hv hn⟩

theorem choose_keep {T N : Cx} {n v : ℂ} {V : Cx} (hn : n ∈ N) (hv : v ∈ V) : ∃ V', choose T N (some V) = some V' ∧ v ∈ V' := by
  rw [choose.eq_def]
  split_ifs
  · exact ⟨_, rfl, hullC_left hv hn⟩
  · exact ⟨_, rfl, hv⟩

theorem choose_ne {T N : Cx} {n : ℂ} {o : Option Cx} (hn : n ∈ N) (ho : ∀ V, o = some V → ∃ v, v ∈ V) :
    ∀ V, choose T N o = some V → ∃ v, v ∈ V := by
  intro V h
  rw [choose.eq_def] at h
  split_ifs at h
  · cases o with
    | none => cases h; exact ⟨n, hn⟩
    | some W =>
      obtain ⟨v, hv⟩ := ho W rfl
      cases h
      exact ⟨n, hullC_right hv hn⟩
  · exact ho V h

/-- what has been chosen stays -/
theorem cubeLoop_keep {v : ℂ} (hw : w ∈ W) : ∀ {k : ℕ} {N V : Cx} {n : ℂ} {o : Option Cx}, n ∈ N → v ∈ V → cubeLoop M P W k N (some V) = .ok o →
    ∃ V', o = some V' ∧ v ∈ V'
  | 0, _, V, _, _, _, hv, h => by cases h; exact ⟨V, rfl, hv⟩
  | k + 1, N, V, n, o, hn, hv, h => by
    obtain ⟨t, ht, h⟩ := bind_ok.1 h
    obtain ⟨V', e, hv'⟩ := choose_keep (T := cAdd (cMul M N) t) hn hv
    rw [e] at h
    exact cubeLoop_keep hw (cMul_mem hw hn) hv' h

/-- a candidate which fits is chosen -/
theorem cubeLoop_mem (hw : w ∈ W) (hm : m ∈ M) (hp : p ∈ P) : ∀ {k j : ℕ} {N : Cx} {n : ℂ} {o o' : Option Cx}, n ∈ N → j < k →
    m * (w ^ j * n) = -p / 3 → (∀ V, o = some V → ∃ v, v ∈ V) → cubeLoop M P W k N o = .ok o' → ∃ V, o' = some V ∧ w ^ j * n ∈ V
  | 0, _, _, _, _, _, _, hj, _, _, _ => absurd hj (Nat.not_lt_zero _)
  | k + 1, 0, N, n, o, o', hn, _, he, ho, h => by
    obtain ⟨t, ht, h⟩ := bind_ok.1 h
    have ht := (cDivK_mem (c := 3) ht hp (by exact_mod_cast is_num 3 (by norm_num))).1
    obtain ⟨V, e, hv⟩ := choose_some (cAdd_mem (cMul_mem hm hn) ht) (by
      rw [pow_zero, one_mul] at he; rw [he]; push_cast; ring) hn ho
    rw [e] at h
    rw [pow_zero, one_mul]
    exact cubeLoop_keep hw (cMul_mem hw hn) hv h
  | k + 1, j + 1, N, n, o, o', hn, hj, he, ho, h => by
    obtain ⟨t, ht, h⟩ := bind_ok.1 h
    rw [pow_succ, mul_assoc] at he ⊢
    exact cubeLoop_mem hw hm hp (cMul_mem hw hn) (by omega) he (choose_ne hn ho) h

theorem signLoop_keep {v : ℂ} : ∀ {k : ℕ} {N V : Cx} {n : ℂ}, n ∈ N → v ∈ V → ∃ V', signLoop M P k N (some V) = some V' ∧ v ∈ V'
  | 0, _, V, _, _, hv => ⟨V, rfl, hv⟩
  | k + 1, N, V, n, hn, hv => by
    obtain ⟨V', e, hv'⟩ := choose_keep (T := cAdd (cMul (kMulC (num 2) M) N) P) hn hv
    rw [signLoop, e]
    exact signLoop_keep (cNeg_mem hn) hv'

/-- the loop of `ferrari` -/
theorem signLoop_mem (hm : m ∈ M) (hp : p ∈ P) : ∀ {k j : ℕ} {N : Cx} {n : ℂ} {o : Option Cx}, n ∈ N → j < k →
    2 * m * ((-1) ^ j * n) = -p → (∀ V, o = some V → ∃ v, v ∈ V) → ∃ V, signLoop M P k N o = some V ∧ (-1) ^ j * n ∈ V
  | 0, _, _, _, _, _, hj, _, _ => absurd hj (Nat.not_lt_zero _)
  | k + 1, 0, N, n, o, hn, _, he, ho => by
    have h2 := kMulC_mem (k := num 2) (c := 2) hm (by exact_mod_cast is_num 2 (by norm_num))
    obtain ⟨V, e, hv⟩ := choose_some (cAdd_mem (cMul_mem h2 hn) hp) (by
      rw [pow_zero, one_mul] at he; push_cast; rw [he]; ring) hn ho
    rw [signLoop, e]
    rw [pow_zero, one_mul]
    exact signLoop_keep (cNeg_mem hn) hv
  | k + 1, j + 1, N, n, o, hn, hj, he, ho => by
    rw [signLoop]
    rw [pow_succ, mul_assoc ((-1) ^ j), neg_one_mul] at he ⊢
    exact signLoop_mem hm hp (cNeg_mem hn) (by omega) he (choose_ne hn ho)

theorem cube_eq {u v : ℂ} (h : u ^ 3 = v ^ 3) : ∃ j < 3, om ^ j * u = v := by
  have e := om_sq
  have : (u - v) * (om * u - v) * (om ^ 2 * u - v) = 0 := by
    linear_combination h + (u ^ 3 * (om - 1) + u ^ 2 * v * (-om) + u * v ^ 2) * e
  rcases mul_eq_zero.1 this with h1 | h1
  · rcases mul_eq_zero.1 h1 with h1 | h1
    · exact ⟨0, by norm_num, by linear_combination h1⟩
    · exact ⟨1, by norm_num, by linear_combination h1⟩
  · exact ⟨2, by norm_num, by linear_combination h1⟩

/-- Cardano's formula -/
theorem cardano_identity {m n p q t : ℂ} (h1 : m * n = -p / 3) (h2 : m ^ 3 + n ^ 3 = -q) :
    t ^ 3 + p * t + q = (t - (m + n)) * (t - (om * m + om * om * n)) * (t - (om * om * m + om * n)) := by
  have e := om_sq
  have e2 : om * om = -1 - om := by rw [← e]; ring
  rw [e2]
  linear_combination 3 * t * h1 + h2 + (m - n) ^ 2 * (t - m - n) * e

/-- the cubic factors for all coefficients in the boxes -/
theorem body_mem {fuel : ℕ} {X0 X1 X2 X3 R0 R1 R2 : Cx} {x0 x1 x2 x3 : ℂ} (h : body fuel X0 X1 X2 X3 = .ok (R0, R1, R2))
    (h0 : x0 ∈ X0) (h1 : x1 ∈ X1) (h2 : x2 ∈ X2) (h3 : x3 ∈ X3) :
    x3 ≠ 0 ∧ ∃ r0 ∈ R0, ∃ r1 ∈ R1, ∃ r2 ∈ R2, ∀ z : ℂ, x0 + x1 * z + x2 * z ^ 2 + x3 * z ^ 3 = x3 * ((z - r0) * (z - r1) * (z - r2)) := by
  have n2 : (num 2).Has 2 := by exact_mod_cast is_num 2 (by norm_num)
  have n3 : (num 3).Has 3 := by exact_mod_cast is_num 3 (by norm_num)
  have n4 : (num 4).Has 4 := by exact_mod_cast is_num 4 (by norm_num)
  have n27 : (num 27).Has 27 := by exact_mod_cast is_num 27 (by norm_num)
  obtain ⟨A, hA, h⟩ := bind_ok.1 h
  obtain ⟨hA, hx3⟩ := cDiv_mem hA h2 h3
  obtain ⟨B, hB, h⟩ := bind_ok.1 h
  have hB := (cDiv_mem hB h1 h3).1
  obtain ⟨C, hC, h⟩ := bind_ok.1 h
  have hC := (cDiv_mem hC h0 h3).1
  set a := x2 / x3 with ea
  set b := x1 / x3 with eb
  set c := x0 / x3 with ec
  obtain ⟨A2, hA2, h⟩ := bind_ok.1 h
  have hA2 := (powInt_mem hA2 hA).1
  obtain ⟨A2', hA2', h⟩ := bind_ok.1 h
  have hA2' := (cDivK_mem hA2' hA2 n3).1
  have hP := cSub_mem hB hA2'
  obtain ⟨A3, hA3, h⟩ := bind_ok.1 h
  have hA3 := (powInt_mem hA3 hA).1
  obtain ⟨Q1, hQ1, h⟩ := bind_ok.1 h
  have hQ1 := (cDivK_mem hQ1 (kMulC_mem hA3 n2) n27).1
  obtain ⟨Q2, hQ2, h⟩ := bind_ok.1 h
  have hQ2 := (cDivK_mem hQ2 (cMul_mem hA hB) n3).1
  have hQ := cAdd_mem (cSub_mem hQ1 hQ2) hC
  generalize ep : b - a ^ (2 : ℤ) / ((3 : ℝ) : ℂ) = p at hP
  generalize eq : ((2 : ℝ) : ℂ) * a ^ (3 : ℤ) / ((27 : ℝ) : ℂ) - a * b / ((3 : ℝ) : ℂ) + c = q at hQ
  obtain ⟨W, hW, h⟩ := bind_ok.1 h
  have hW := om_mem hW
  obtain ⟨D1, hD1, h⟩ := bind_ok.1 h
  have hD1 := (powInt_mem hD1 hQ).1
  obtain ⟨D1', hD1', h⟩ := bind_ok.1 h
  have hD1' := (cDivK_mem hD1' hD1 n4).1
  obtain ⟨D2, hD2, h⟩ := bind_ok.1 h
  have hD2 := (powInt_mem hD2 hP).1
  obtain ⟨D2', hD2', h⟩ := bind_ok.1 h
  have hD2' := (cDivK_mem hD2' hD2 n27).1
  obtain ⟨S, hS, h⟩ := bind_ok.1 h
  obtain ⟨⟨s, hs, es⟩, -⟩ := C40_sqrt hS (cAdd_mem hD1' hD2')
  obtain ⟨H, hH, h⟩ := bind_ok.1 h
  have hH := (cDivK_mem hH (cNeg_mem hQ) n2).1
  obtain ⟨M, hM, h⟩ := bind_ok.1 h
  obtain ⟨m, hm, em⟩ := cubeRoot_mem hM (cAdd_mem hH hs)
  obtain ⟨N, hN, h⟩ := bind_ok.1 h
  obtain ⟨n, hn, en⟩ := cubeRoot_mem hN (cSub_mem hH hs)
  obtain ⟨o, ho, h⟩ := bind_ok.1 h
  simp only [zpow_ofNat] at ep eq es
  push_cast at ep eq es em en
  have hcube : (m * n) ^ 3 = (-p / 3) ^ 3 := by
    rw [mul_pow, em, en]
    linear_combination -es
  obtain ⟨j, hj, e⟩ := cube_eq hcube
  have om3 : om ^ 3 = 1 := by linear_combination (om - 1) * om_sq
  obtain ⟨V, rfl, hV⟩ := cubeLoop_mem hW hm hP hn hj (show m * (om ^ j * n) = -p / 3 by rw [← e]; ring) (fun V h => by cases h) ho
  obtain ⟨T, hT, h⟩ := bind_ok.1 h
  have hT := (cDivK_mem hT hA n3).1
  cases h
  set n' := om ^ j * n with en'
  have hn3 : n' ^ 3 = n ^ 3 := by
    rw [en', mul_pow, ← pow_mul, mul_comm j 3, pow_mul, om3, one_pow, one_mul]
  refine ⟨hx3, _, cSub_mem (cAdd_mem hm hV) hT, _, cSub_mem (cAdd_mem (cMul_mem hW hm) (cMul_mem (cMul_mem hW hW) hV)) hT,
    _, cSub_mem (cAdd_mem (cMul_mem (cMul_mem hW hW) hm) (cMul_mem hW hV)) hT, fun z => ?_⟩
  have key := cardano_identity (t := z + a / 3) (show m * n' = -p / 3 by rw [← e, en']; ring)
    (show m ^ 3 + n' ^ 3 = -q by rw [hn3, em, en]; ring)
  have e1 : x2 = x3 * a := by rw [ea]; field_simp
  have e2 : x1 = x3 * b := by rw [eb]; field_simp
  have e3 : x0 = x3 * c := by rw [ec]; field_simp
  rw [e1, e2, e3]
  push_cast
  have : (z - (m + n' - a / 3)) * (z - (om * m + om * om * n' - a / 3)) * (z - (om * om * m + om * n' - a / 3)) = z ^ 3 + a * z ^ 2 + b * z + c := by
    rw [← sub_eq_zero]
    rw [← ep, ← eq] at key
    linear_combination -key
  rw [this]; ring

theorem rootDisc_mem {fuel : ℕ} {M U S : Cx} {m u : ℂ} (h : rootDisc fuel M U = .ok S) (hm : m ∈ M) (hu : u ∈ U) :
    ∃ s ∈ S, s ^ 2 = m ^ 2 - 4 * u := by
  obtain ⟨M2, hM2, h⟩ := bind_ok.1 h
  have hM2 := (powInt_mem hM2 hm).1
  obtain ⟨⟨s, hs, es⟩, -⟩ := C40_sqrt h (cSub_mem hM2 (kMulC_mem (c := 4) hu (by exact_mod_cast is_num 4 (by norm_num))))
  exact ⟨s, hs, by rw [es]; simp only [zpow_ofNat]; push_cast; ring⟩

theorem cardano_ok {fuel : ℕ} {X0 X1 X2 X3 : Cx} {o : Option (List Cx)} (h : cardano fuel [X0, X1, X2, X3] = .ok o) :
    (zeroInC X3 = true ∧ o = none) ∨ (zeroInC X3 = false ∧ ∃ R0 R1 R2, body fuel X0 X1 X2 X3 = .ok (R0, R1, R2) ∧ o = some [R0, R1, R2]) := by
  rw [cardano, ite_eq_iff] at h
  rcases h with ⟨c, h⟩ | ⟨c, h⟩
  · cases h; exact .inl ⟨c, rfl⟩
  · obtain ⟨⟨r0, r1, r2⟩, hb, h⟩ := bind_ok.1 h
    cases h
    exact .inr ⟨by simpa using c, r0, r1, r2, hb, rfl⟩

/-- the quartic factors for all coefficients in the boxes -/
theorem ferrari_mem {fuel : ℕ} {X0 X1 X2 X3 X4 : Cx} {x0 x1 x2 x3 x4 : ℂ} {l : List Cx}
    (h : ferrari fuel [X0, X1, X2, X3, X4] = .ok (some l))
    (h0 : x0 ∈ X0) (h1 : x1 ∈ X1) (h2 : x2 ∈ X2) (h3 : x3 ∈ X3) (h4 : x4 ∈ X4) :
    x4 ≠ 0 ∧ ∃ R0 R1 R2 R3, l = [R0, R1, R2, R3] ∧ ∃ r0 ∈ R0, ∃ r1 ∈ R1, ∃ r2 ∈ R2, ∃ r3 ∈ R3,
      ∀ z : ℂ, x0 + x1 * z + x2 * z ^ 2 + x3 * z ^ 3 + x4 * z ^ 4 = x4 * ((z - r0) * (z - r1) * (z - r2) * (z - r3)) := by
  have n1 : (num 1).Has 1 := by exact_mod_cast is_num 1 (by norm_num)
  have n2 : (num 2).Has 2 := by exact_mod_cast is_num 2 (by norm_num)
  have n3 : (num 3).Has 3 := by exact_mod_cast is_num 3 (by norm_num)
  have n4 : (num 4).Has 4 := by exact_mod_cast is_num 4 (by norm_num)
  have n8 : (num 8).Has 8 := by exact_mod_cast is_num 8 (by norm_num)
  have n16 : (num 16).Has 16 := by exact_mod_cast is_num 16 (by norm_num)
  have n256 : (num 256).Has 256 := by exact_mod_cast is_num 256 (by norm_num)
  rw [ferrari, ite_eq_iff] at h
  rcases h with ⟨-, h⟩ | ⟨-, h⟩
  · cases h
  obtain ⟨A, hA, h⟩ := bind_ok.1 h
  obtain ⟨hA, hx4⟩ := cDiv_mem hA h3 h4
  obtain ⟨B, hB, h⟩ := bind_ok.1 h
  have hB := (cDiv_mem hB h2 h4).1
  obtain ⟨C, hC, h⟩ := bind_ok.1 h
  have hC := (cDiv_mem hC h1 h4).1
  obtain ⟨E, hE, h⟩ := bind_ok.1 h
  have hE := (cDiv_mem hE h0 h4).1
  set a := x3 / x4 with ea
  set b := x2 / x4 with eb
  set c := x1 / x4 with ec
  set d := x0 / x4 with ed
  obtain ⟨A2, hA2, h⟩ := bind_ok.1 h
  have hA2 := (powInt_mem hA2 hA).1
  obtain ⟨P1, hP1, h⟩ := bind_ok.1 h
  have hP1 := (cDivK_mem hP1 (cMulK_mem hA2 n3) n8).1
  have hP := cSub_mem hB hP1
  obtain ⟨Q1, hQ1, h⟩ := bind_ok.1 h
  have hQ1 := (cDivK_mem hQ1 (cMul_mem hB hA) n2).1
  obtain ⟨A3, hA3, h⟩ := bind_ok.1 h
  have hA3 := (powInt_mem hA3 hA).1
  obtain ⟨Q2, hQ2, h⟩ := bind_ok.1 h
  have hQ2 := (cDivK_mem hQ2 hA3 n8).1
  have hQ := cAdd_mem (cSub_mem hC hQ1) hQ2
  obtain ⟨R1, hR1, h⟩ := bind_ok.1 h
  have hR1 := (cDivK_mem hR1 (cMul_mem hC hA) n4).1
  obtain ⟨R2, hR2, h⟩ := bind_ok.1 h
  have hR2 := (cDivK_mem hR2 (cMul_mem hB hA2) n16).1
  obtain ⟨A4, hA4, h⟩ := bind_ok.1 h
  have hA4 := (powInt_mem hA4 hA).1
  obtain ⟨R3, hR3, h⟩ := bind_ok.1 h
  have hR3 := (cDivK_mem hR3 (cMulK_mem hA4 n3) n256).1
  have hR := cSub_mem (cAdd_mem (cSub_mem hE hR1) hR2) hR3
  generalize ep : b - a ^ (2 : ℤ) * ((3 : ℝ) : ℂ) / ((8 : ℝ) : ℂ) = p at hP
  generalize eq : c - b * a / ((2 : ℝ) : ℂ) + a ^ (3 : ℤ) / ((8 : ℝ) : ℂ) = q at hQ
  generalize er : d - c * a / ((4 : ℝ) : ℂ) + b * a ^ (2 : ℤ) / ((16 : ℝ) : ℂ) - a ^ (4 : ℤ) * ((3 : ℝ) : ℂ) / ((256 : ℝ) : ℂ) = r at hR
  obtain ⟨C2, hC2, h⟩ := bind_ok.1 h
  have hC2 := (cDivK_mem hC2 (cNeg_mem hP) n2).1
  obtain ⟨C01, hC01, h⟩ := bind_ok.1 h
  have hC01 := (cDivK_mem hC01 (cMul_mem hR hP) n2).1
  obtain ⟨C02, hC02, h⟩ := bind_ok.1 h
  have hC02 := (powInt_mem hC02 hQ).1
  obtain ⟨C02', hC02', h⟩ := bind_ok.1 h
  have hC02' := (cDivK_mem hC02' hC02 n8).1
  obtain ⟨co, hco, h⟩ := bind_ok.1 h
  rcases cardano_ok hco with ⟨-, rfl⟩ | ⟨-, L, L1, L2, hb, rfl⟩
  · cases h
  obtain ⟨-, l, hl, k1, -, k2, -, hcub⟩ := body_mem hb (cSub_mem hC01 hC02') (cNeg_mem hR) hC2 (ofSc_mem n1)
  have hcub := hcub l
  obtain ⟨M, hM, h⟩ := bind_ok.1 h
  obtain ⟨⟨m, hm, em⟩, -⟩ := C40_sqrt hM (cSub_mem (kMulC_mem hl n2) hP)
  obtain ⟨L2, hL2, h⟩ := bind_ok.1 h
  have hL2 := (powInt_mem hL2 hl).1
  obtain ⟨N, hN, h⟩ := bind_ok.1 h
  obtain ⟨⟨n, hn, en⟩, -⟩ := C40_sqrt hN (cSub_mem hL2 hR)
  simp only [zpow_ofNat] at ep eq er em en hcub
  push_cast at ep eq er em en hcub
  have hsq : (2 * m * n) ^ 2 = q ^ 2 := by
    rw [mul_pow, mul_pow, em, en]
    linear_combination 8 * hcub
  obtain ⟨j, hj, e⟩ : ∃ j < 2, 2 * m * ((-1) ^ j * n) = -q := by
    rcases sq_eq_sq_iff_eq_or_eq_neg.1 hsq with e | e
    · exact ⟨1, by norm_num, by rw [← e]; ring⟩
    · exact ⟨0, by norm_num, by rw [← e]; ring⟩
  obtain ⟨V, eV, hV⟩ := signLoop_mem (o := none) hm hQ hn hj e (fun V h => by cases h)
  rw [eV] at h
  set n' := (-1) ^ j * n with en'
  have hn2 : n' ^ 2 = n ^ 2 := by
    rw [en', mul_pow, ← pow_mul, mul_comm j 2, pow_mul]; norm_num
  obtain ⟨S1, hS1, h⟩ := bind_ok.1 h
  obtain ⟨s1, hs1, es1⟩ := rootDisc_mem hS1 hm (cSub_mem hl hV)
  obtain ⟨S2, hS2, h⟩ := bind_ok.1 h
  obtain ⟨s2, hs2, es2⟩ := rootDisc_mem hS2 hm (cAdd_mem hl hV)
  obtain ⟨T, hT, h⟩ := bind_ok.1 h
  have hT := (cDivK_mem hT hA n4).1
  obtain ⟨O0, hO0, h⟩ := bind_ok.1 h
  have hO0 := (cDivK_mem hO0 (cAdd_mem hm hs1) n2).1
  obtain ⟨O1, hO1, h⟩ := bind_ok.1 h
  have hO1 := (cDivK_mem hO1 (cSub_mem hm hs1) n2).1
  obtain ⟨O2, hO2, h⟩ := bind_ok.1 h
  have hO2 := (cDivK_mem hO2 (cAdd_mem (cNeg_mem hm) hs2) n2).1
  obtain ⟨O3, hO3, h⟩ := bind_ok.1 h
  have hO3 := (cDivK_mem hO3 (cSub_mem (cNeg_mem hm) hs2) n2).1
  cases h
  refine ⟨hx4, _, _, _, _, rfl, _, cSub_mem hO0 hT, _, cSub_mem hO1 hT, _, cSub_mem hO2 hT, _, cSub_mem hO3 hT, fun z => ?_⟩
  have e1 : x3 = x4 * a := by rw [ea]; field_simp
  have e2 : x2 = x4 * b := by rw [eb]; field_simp
  have e3 : x1 = x4 * c := by rw [ec]; field_simp
  have e4 : x0 = x4 * d := by rw [ed]; field_simp
  rw [e1, e2, e3, e4]
  push_cast
  set t := z + a / 4 with et
  have f1 : (z - ((m + s1) / 2 - a / 4)) * (z - ((m - s1) / 2 - a / 4)) = t ^ 2 - m * t + (l - n') := by
    rw [et]; linear_combination -(1 / 4) * es1
  have f2 : (z - ((-m + s2) / 2 - a / 4)) * (z - ((-m - s2) / 2 - a / 4)) = t ^ 2 + m * t + (l + n') := by
    rw [et]; linear_combination -(1 / 4) * es2
  have f3 : (t ^ 2 - m * t + (l - n')) * (t ^ 2 + m * t + (l + n')) = t ^ 4 + p * t ^ 2 + q * t + r := by
    linear_combination -t ^ 2 * em - t * e - hn2 - en
  have f4 : t ^ 4 + p * t ^ 2 + q * t + r = z ^ 4 + a * z ^ 3 + b * z ^ 2 + c * z + d := by
    rw [et, ← ep, ← eq, ← er]; ring
  have : (z - ((m + s1) / 2 - a / 4)) * (z - ((m - s1) / 2 - a / 4)) * (z - ((-m + s2) / 2 - a / 4)) * (z - ((-m - s2) / 2 - a / 4)) =
      z ^ 4 + a * z ^ 3 + b * z ^ 2 + c * z + d := by
    rw [← f4, ← f3, ← f1, ← f2]; ring
  rw [this]; ring

end Cardano
end Kv
