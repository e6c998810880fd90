import Verif.Special.Lobachevsky
import Verif.Special.LobaReal
import Verif.Props.GammaRun
import Verif.Interval.ElemSin

/-!
# C93: `lobachevsky`

Main theorems: `C93_near`, `C93_partial`.
-/

namespace Kv
open PM RopSem Kv.Interval
open Rop (lit)

namespace Loba

variable {X Z R m : Interval D} {t : ℝ} {dl : Interval D → PM (Interval D) (Interval D)} {st st' : PSt (Interval D)}

/-- the specification of the integrator: the result contains the integral of `log |2 sin u|` from 0 to every nonnegative number of the argument -/
def IntOk (dl : Interval D → PM (Interval D) (Interval D)) : Prop :=
  ∀ X Z t st st', dl X st = (.ok Z, st') → t ∈ X → 0 ≤ t → (∫ u in (0 : ℝ)..t, Real.log |2 * Real.sin u|) ∈ Z

theorem origin_mem (hd : IntOk dl) (ht : t ∈ X) (h0 : 0 ≤ t) (h : origin dl X st = (.ok Z, st')) : lobaR t ∈ Z := by
  unfold origin at h
  by_cases c : eqIS X (lit 0) = true
  · rw [if_pos c] at h
    obtain ⟨rfl, rfl⟩ := pure_run h
    unfold eqIS at c
    rw [Bool.and_eq_true, eq_iff, eq_iff] at c
    obtain ⟨⟨-, -, c1⟩, -, -, c2⟩ := c
    rw [lit_zero.2] at c2
    have h1 := ht.2.2
    rw [c2] at h1
    have : t = 0 := le_antisymm (by exact_mod_cast h1) h0
    rw [this, zero]
    exact point_mem Interval.is_zero
  · rw [if_neg c] at h
    obtain ⟨r, st1, hr, h2⟩ := bind_run h
    obtain ⟨rfl, rfl⟩ := pure_run h2
    exact neg_mem (hd _ _ _ _ _ hr ht h0)

theorem point_mem' (hd : IntOk dl) : ∀ (f : ℕ) (X Z : Interval D) (t : ℝ) (st st' : PSt (Interval D)), Loba.point dl P0 f X st = (.ok Z, st') → t ∈ X → lobaR t ∈ Z
  | 0, X, Z, t, st, st', h, _ => by
    have := (lift_run h).1
    cases this
  | f + 1, X, Z, t, st, st', h, ht => by
    unfold Loba.point at h
    by_cases c1 : Rop.le (mulS P0 half).sup X.inf = true
    · rw [if_pos c1] at h
      have := point_mem' hd f _ _ _ _ _ h (sub_mem ht pi_mem_P0)
      have e := period (t - Real.pi)
      rw [sub_add_cancel] at e
      rwa [e]
    rw [if_neg c1] at h
    have hz := zeroIn_iff ht
    by_cases c2 : zeroIn X = true
    · rw [if_pos c2] at h
      rw [hz] at c2
      obtain ⟨a, st1, ha, h⟩ := bind_run h
      obtain ⟨b, st2, hb, h⟩ := bind_run h
      obtain ⟨rfl, rfl⟩ := pure_run h
      have n1 : Hi (Rop.neg X.inf) 0 := by
        have : Lo X.inf 0 := ⟨ht.1.1, by simpa using c2.1⟩
        simpa using this.neg
      have n2 : Hi X.sup 0 := ⟨ht.2.1, by simpa using c2.2⟩
      have a0 := origin_mem hd (X := ⟨lit 0, Rop.neg X.inf⟩) (t := 0) ⟨Interval.is_zero.lo, n1⟩ le_rfl ha
      have b0 := origin_mem hd (X := ⟨lit 0, X.sup⟩) (t := 0) ⟨Interval.is_zero.lo, n2⟩ le_rfl hb
      by_cases c3 : 0 ≤ t
      · have := origin_mem hd (X := ⟨lit 0, X.sup⟩) ⟨Interval.is_zero.lo.mono c3, ht.2⟩ c3 hb
        exact hull_mem_right (neg_mem a0) this
      · have h1 : -t ∈ (⟨lit 0, Rop.neg X.inf⟩ : Interval D) := ⟨Interval.is_zero.lo.mono (by linarith), ht.1.neg⟩
        have := neg_mem (origin_mem hd h1 (by linarith) ha)
        rw [odd, neg_neg] at this
        exact hull_mem_left this b0
    rw [if_neg c2] at h
    rw [hz, not_and_or] at c2
    by_cases c3 : Rop.lt (lit 0) X.inf = true
    · rw [if_pos c3] at h
      rw [lt_zero_left] at c3
      have h1 : (0 : EReal) < t := c3.2.trans_le ht.1.2
      exact origin_mem hd ht (by exact_mod_cast h1.le) h
    · rw [if_neg c3] at h
      rw [lt_zero_left] at c3
      have c4 : ¬ 0 < val X.inf := fun h => c3 ⟨ht.1.1, h⟩
      have c5 : val X.sup < 0 := by
        rcases c2 with c | c
        · exact absurd (not_le.1 c) c4
        · exact not_le.1 c
      have h1 : (t : EReal) < 0 := lt_of_le_of_lt ht.2.2 c5
      have h2 : t < 0 := by exact_mod_cast h1
      obtain ⟨a, st1, ha, h⟩ := bind_run h
      obtain ⟨rfl, rfl⟩ := pure_run h
      have := neg_mem (origin_mem hd (neg_mem ht) (by linarith) ha)
      rwa [odd, neg_neg] at this

/-! ## the constants -/

/-- `pi / 6.` -/
def p16 : Interval D := ⟨Rop.divDown P0.inf (lit 6), Rop.divUp P0.sup (lit 6)⟩

theorem p16_eq : divS P0 (lit 6) = .ok p16 := by
  unfold divS p16
  rw [if_pos (by decide +kernel)]

theorem is_6 : Is (lit 6 : D) 6 := by
  have := is_cst (q := 6) 6 0 (by norm_num) (by norm_num) (by norm_num) (by norm_num)
  push_cast at this; exact this
theorem is_5 : Is (lit 5 : D) 5 := by
  have := is_cst (q := 5) 5 0 (by norm_num) (by norm_num) (by norm_num) (by norm_num)
  push_cast at this; exact this
theorem is_7 : Is (lit 7 : D) 7 := by
  have := is_cst (q := 7) 7 0 (by norm_num) (by norm_num) (by norm_num) (by norm_num)
  push_cast at this; exact this

theorem p16_mem : Real.pi / 6 ∈ p16 := divS_mem p16_eq pi_mem_P0 is_6

/-- if the extremum is between the ends but its enclosure is not, then an end is very near to it -/
theorem gap {E : Interval D} {c l u : ℝ} {a b : ℤ} (ha : |a| < 2 ^ 53) (hb : |b| < 2 ^ 53)
    (h1 : Rop.le (lit (a * 2 ^ (-48 : ℤ)) : D) E.inf = true) (h2 : Rop.le E.sup (lit (b * 2 ^ (-48 : ℤ)) : D) = true)
    (h3 : c - 1 / 2 ^ 45 ≤ a / 2 ^ 48) (h4 : (b : ℝ) / 2 ^ 48 ≤ c + 1 / 2 ^ 45)
    (hl : Is R.inf l) (hu : Is R.sup u) (hlc : l ≤ c) (hcu : c ≤ u) (hn : ¬ subset E R = true) :
    |l - c| ≤ 1 / 2 ^ 45 ∨ |u - c| ≤ 1 / 2 ^ 45 := by
  have ia := is_cst (q := a * 2 ^ (-48 : ℤ)) a (-48) ha (by norm_num) (by norm_num) rfl
  have ib := is_cst (q := b * 2 ^ (-48 : ℤ)) b (-48) hb (by norm_num) (by norm_num) rfl
  have ea : (((a : ℚ) * 2 ^ (-48 : ℤ) : ℚ) : ℝ) = a / 2 ^ 48 := by push_cast; rw [zpow_neg]; norm_num [div_eq_mul_inv]
  have eb : (((b : ℚ) * 2 ^ (-48 : ℤ) : ℚ) : ℝ) = b / 2 ^ 48 := by push_cast; rw [zpow_neg]; norm_num [div_eq_mul_inv]
  rw [ea] at ia
  rw [eb] at ib
  rw [le_iff, ia.2] at h1
  rw [le_iff, ib.2] at h2
  unfold subset at hn
  rw [Bool.and_eq_true, not_and_or, le_iff, le_iff, hl.2, hu.2] at hn
  rcases hn with hn | hn
  · left
    have : ¬ ((l : EReal) ≤ val E.inf) := fun h => hn ⟨hl.1, h1.2.1, h⟩
    have h5 : ((a / 2 ^ 48 : ℝ) : EReal) < l := lt_of_le_of_lt h1.2.2 (not_le.1 this)
    have h6 : (a / 2 ^ 48 : ℝ) < l := by exact_mod_cast h5
    rw [abs_le]; constructor <;> linarith
  · right
    have : ¬ (val E.sup ≤ (u : EReal)) := fun h => hn ⟨h2.1, hu.1, h⟩
    have h5 : (u : EReal) < ((b / 2 ^ 48 : ℝ) : EReal) := lt_of_lt_of_le (not_le.1 this) h2.2.2
    have h6 : u < (b / 2 ^ 48 : ℝ) := by exact_mod_cast h5
    rw [abs_le]; constructor <;> linarith

/-- the points where the function has its extreme values, as far as they matter after the argument reduction -/
def Ext (c : ℝ) : Prop := c = -(Real.pi / 6) ∨ c = Real.pi / 6 ∨ c = 5 * (Real.pi / 6) ∨ c = 7 * (Real.pi / 6)

theorem gap_ext {c l u : ℝ} (hl : Is R.inf l) (hu : Is R.sup u) (hlc : l ≤ c) (hcu : c ≤ u) (hc : Ext c) (hfar : ¬ (|l - c| ≤ 1 / 2 ^ 45 ∨ |u - c| ≤ 1 / 2 ^ 45)) :
    (c = -(Real.pi / 6) ∧ subset (neg p16) R = true) ∨ (c = Real.pi / 6 ∧ subset p16 R = true) ∨
    (c = 5 * (Real.pi / 6) ∧ subset (mulS p16 (lit 5)) R = true) ∨ (c = 7 * (Real.pi / 6) ∧ subset (mulS p16 (lit 7)) R = true) := by
  obtain ⟨p1, p2⟩ := mem_P0.1 pi_mem_P0
  norm_num [piL] at p1
  norm_num [piU] at p2
  rcases hc with rfl | rfl | rfl | rfl
  · refine .inl ⟨rfl, by_contra fun hn => hfar ?_⟩
    exact gap (a := -147379953167264) (b := -147379953167254) (by norm_num) (by norm_num) (by decide +kernel) (by decide +kernel) (by norm_num; linarith) (by norm_num; linarith) hl hu hlc hcu hn
  · refine .inr (.inl ⟨rfl, by_contra fun hn => hfar ?_⟩)
    exact gap (a := 147379953167254) (b := 147379953167264) (by norm_num) (by norm_num) (by decide +kernel) (by decide +kernel) (by norm_num; linarith) (by norm_num; linarith) hl hu hlc hcu hn
  · refine .inr (.inr (.inl ⟨rfl, by_contra fun hn => hfar ?_⟩))
    exact gap (a := 736899765836290) (b := 736899765836301) (by norm_num) (by norm_num) (by decide +kernel) (by decide +kernel) (by norm_num; linarith) (by norm_num; linarith) hl hu hlc hcu hn
  · refine .inr (.inr (.inr ⟨rfl, by_contra fun hn => hfar ?_⟩))
    exact gap (a := 1031659672170808) (b := 1031659672170819) (by norm_num) (by norm_num) (by decide +kernel) (by decide +kernel) (by norm_num; linarith) (by norm_num; linarith) hl hu hlc hcu hn

theorem ext_val {c : ℝ} (hc : c = 5 * (Real.pi / 6)) : lobaR c = -lobaR (Real.pi / 6) := by
  rw [hc, ← odd]
  have := period (-(Real.pi / 6))
  rw [← this]; congr 1; ring
theorem ext_val' {c : ℝ} (hc : c = 7 * (Real.pi / 6)) : lobaR c = lobaR (Real.pi / 6) := by
  rw [hc]
  have := period (Real.pi / 6)
  rw [← this]; congr 1; ring

/-- the `if`s only enlarge, and add the extreme values -/
theorem extrema_mem {r : Interval D} {v : ℝ} (hm : lobaR (Real.pi / 6) ∈ m) (hv : v ∈ r) :
    v ∈ extrema p16 m R r ∧ (subset (neg p16) R = true → -lobaR (Real.pi / 6) ∈ extrema p16 m R r) ∧ (subset p16 R = true → lobaR (Real.pi / 6) ∈ extrema p16 m R r) ∧
    (subset (mulS p16 (lit 5)) R = true → -lobaR (Real.pi / 6) ∈ extrema p16 m R r) ∧ (subset (mulS p16 (lit 7)) R = true → lobaR (Real.pi / 6) ∈ extrema p16 m R r) := by
  have step : ∀ (b : Bool) (r q : Interval D) (v w y : ℝ), v ∈ r → w ∈ q → (y ∈ r → y ∈ (if b = true then hull r q else r)) ∧ (b = true → w ∈ (if b = true then hull r q else r)) := by
    intro b r q v w y hv hw
    cases b
    · exact ⟨fun h => by simpa using h, fun h => by cases h⟩
    · exact ⟨fun h => by simpa using hull_mem_left h hw, fun _ => by simpa using hull_mem_right hv hw⟩
  have hm' := neg_mem hm
  unfold extrema
  dsimp only
  generalize subset (neg p16) R = f1
  generalize subset p16 R = f2
  generalize subset (mulS p16 (lit 5)) R = f3
  generalize subset (mulS p16 (lit 7)) R = f4
  have s1 := fun y => step f1 r (neg m) v (-lobaR (Real.pi / 6)) y hv hm'
  have v1 := (s1 v).1 hv
  have s2 := fun y => step f2 _ m v (lobaR (Real.pi / 6)) y v1 hm
  have v2 := (s2 v).1 v1
  have s3 := fun y => step f3 _ (neg m) v (-lobaR (Real.pi / 6)) y v2 hm'
  have v3 := (s3 v).1 v2
  have s4 := fun y => step f4 _ m v (lobaR (Real.pi / 6)) y v3 hm
  exact ⟨(s4 v).1 v3, fun h => (s4 _).1 ((s3 _).1 ((s2 _).1 ((s1 0).2 h))), fun h => (s4 _).1 ((s3 _).1 ((s2 0).2 h)), fun h => (s4 _).1 ((s3 0).2 h), fun h => (s4 0).2 h⟩

theorem pih_sup : ∃ v : ℝ, Is (mulS P0 half).sup v ∧ v ≤ 1.6 := by
  have e : (mulS P0 half).sup = lit (7074237752028445 / 2 ^ 52) := by decide +kernel
  have := is_cst (q := 7074237752028445 / 2 ^ 52) 7074237752028445 (-52) (by norm_num) (by norm_num) (by norm_num) (by norm_num)
  rw [← e] at this
  exact ⟨_, this, by norm_num⟩

/-- after the reduction and the width check both ends are finite and at most about a period apart -/
theorem bounds {x : ℝ} (hx : x ∈ R) (h1 : ¬ Rop.le R.inf (Rop.neg (mulS P0 half).sup) = true) (h2 : ¬ Rop.le (mulS P0 half).sup R.inf = true)
    (h3 : ¬ Rop.le P0.sup (subS (Interval.point R.sup) R.inf).inf = true) :
    ∃ l u : ℝ, Is R.inf l ∧ Is R.sup u ∧ -1.6 < l ∧ u < 4.8 ∧ l ≤ x ∧ x ≤ u := by
  obtain ⟨v, hv, hv'⟩ := pih_sup
  have hU : Is P0.sup (piU : ℝ) := Hw.is_fin rep_piU
  obtain ⟨l, hl⟩ : ∃ l, Is R.inf l := by
    rcases cases_val hx.1.1 with h | h | h
    · exact absurd h hx.1.ne_top
    · refine absurd ((le_iff _ _).2 ⟨hx.1.1, (is_neg hv).1, ?_⟩) h1
      rw [h]; exact bot_le
    · exact h
  rw [le_of_is hl (is_neg hv), not_le] at h1
  rw [le_of_is hv hl, not_le] at h2
  have eS : (subS (Interval.point R.sup) R.inf).inf = Rop.subDown R.sup R.inf := rfl
  rw [eS] at h3
  have vl : Fl.toE R.inf = (l : EReal) := hl.2
  have hD := Fl.sub_down_isDown (F := binary64) (x := R.sup) (y := R.inf) hx.2.1 hx.1.1
    (by rw [vl]; simp) (by rw [vl]; simp)
  have h4 : ¬ ((piU : ℝ) : EReal) ≤ Fl.toE R.sup - Fl.toE R.inf := by
    intro h
    refine h3 ((le_iff _ _).2 ⟨hU.1, hD.1, ?_⟩)
    refine hD.2.2 _ hU.1 ?_
    rw [show Fl.toE P0.sup = ((piU : ℝ) : EReal) from hU.2]
    exact h
  obtain ⟨u, hu⟩ : ∃ u, Is R.sup u := by
    rcases cases_val hx.2.1 with h | h | h
    · refine absurd ?_ h4
      rw [show Fl.toE R.sup = ⊤ from h, vl, EReal.top_sub_coe]; exact le_top
    · exact absurd h hx.2.ne_bot
    · exact h
  rw [show Fl.toE R.sup = (u : EReal) from hu.2, vl, ← EReal.coe_sub, EReal.coe_le_coe_iff, not_le] at h4
  have := (GammaFn.mem_of_is hl hu).1 hx
  norm_num [piU] at h4
  exact ⟨l, u, hl, hu, by linarith, by linarith, this.1, this.2⟩

theorem mem_ordConnected (Z : Interval D) : Set.OrdConnected {v : ℝ | v ∈ Z} :=
  ⟨fun _ ha _ hb _ hv => ⟨ha.1.mono hv.1, hb.2.mono hv.2⟩⟩

theorem core {fuel : ℕ} (hd : IntOk dl) (h : lobachevsky dl fuel X st = (.ok Z, st')) (ht : t ∈ X)
    (hn : ∀ R, reduce (mulS P0 half).sup P0 fuel X = .ok R → ¬ nan R.inf)
    {S : Set ℝ} (hS : S.OrdConnected) (hZ : ∀ v ∈ Z, v ∈ S)
    (hc : ∀ R, reduce (mulS P0 half).sup P0 fuel X = .ok R → ∀ c e, Ext c → (Is R.inf e ∨ Is R.sup e) → |e - c| ≤ 1 / 2 ^ 45 → lobaR e ∈ Z → lobaR c ∈ S) : lobaR t ∈ S := by
  unfold lobachevsky at h
  obtain ⟨P, st1, hP, h1⟩ := bind_run h
  obtain ⟨hP', -⟩ := lift_run hP
  rw [constPi_eq hP'] at h1
  obtain ⟨E, st2, hE, h2⟩ := bind_run h1
  obtain ⟨hE', -⟩ := lift_run hE
  rw [p16_eq] at hE'
  injection hE' with hE'
  rw [← hE'] at h2
  obtain ⟨m, st3, hm, h3⟩ := bind_run h2
  have hm' := point_mem' hd _ _ _ _ _ _ hm p16_mem
  obtain ⟨R, st4, hR0, h4⟩ := bind_run h3
  obtain ⟨hR, -⟩ := lift_run hR0
  clear h h1 h2 h3
  rcases reduce_spec (by norm_num [piL]) (by norm_num [piL, piU]) pi_mem_P0 ht hR with hnn | ⟨⟨k, hk⟩, n1, n2⟩
  · exact absurd hnn (hn R hR)
  rw [← period_int k t]
  by_cases c3 : Rop.le P0.sup (subS (Interval.point R.sup) R.inf).inf = true
  · rw [if_pos c3] at h4
    obtain ⟨rfl, -⟩ := pure_run h4
    have := abs_le.1 (abs_le_max (t - k * Real.pi))
    exact hZ _ ⟨hm'.2.neg.mono this.1, hm'.2.mono this.2⟩
  rw [if_neg c3] at h4
  obtain ⟨a, st5, ha, h5⟩ := bind_run h4
  obtain ⟨b, st6, hb, h6⟩ := bind_run h5
  obtain ⟨rfl, -⟩ := pure_run h6
  obtain ⟨l, u, hl, hu, l1, u1, xl, xu⟩ := bounds hk n1 n2 c3
  have sl := point_mem' hd _ _ _ _ _ _ ha (point_mem hl)
  have su := point_mem' hd _ _ _ _ _ _ hb (point_mem hu)
  have el := extrema_mem (R := R) hm' (hull_mem_left sl su)
  have eu := extrema_mem (R := R) hm' (hull_mem_right sl su)
  have p := Real.pi_gt_d2
  refine range hS (by linarith) (by linarith) xl xu (hZ _ el.1) (hZ _ eu.1) fun c hcE hlc hcu => ?_
  by_cases hfar : |l - c| ≤ 1 / 2 ^ 45 ∨ |u - c| ≤ 1 / 2 ^ 45
  · rcases hfar with hf | hf
    · exact hc R hR c l hcE (.inl hl) hf el.1
    · exact hc R hR c u hcE (.inr hu) hf eu.1
  · rcases gap_ext hl hu hlc hcu hcE hfar with ⟨rfl, g⟩ | ⟨rfl, g⟩ | ⟨e, g⟩ | ⟨e, g⟩
    · rw [odd]; exact hZ _ (el.2.1 g)
    · exact hZ _ (el.2.2.1 g)
    · rw [ext_val e]; exact hZ _ (el.2.2.2.1 g)
    · rw [ext_val' e]; exact hZ _ (el.2.2.2.2 g)

/-- near to an extremum the function is nearly constant -/
theorem near_ext {c e : ℝ} (hc : Ext c) (h : |e - c| ≤ 1 / 2 ^ 45) : |lobaR c - lobaR e| ≤ 1 / 2 ^ 88 := by
  have hs : |Real.sin c| = 1 / 2 := by
    have h6 := Real.sin_pi_div_six
    rcases hc with rfl | rfl | rfl | rfl
    · rw [Real.sin_neg, h6]; norm_num
    · rw [h6]; norm_num
    · rw [show 5 * (Real.pi / 6) = Real.pi - Real.pi / 6 by ring, Real.sin_pi_sub, h6]; norm_num
    · rw [show 7 * (Real.pi / 6) = Real.pi / 6 + Real.pi by ring, Real.sin_add_pi, h6]; norm_num
  have hb : ∀ u ∈ Set.uIoc e c, ‖Real.log |2 * Real.sin u|‖ ≤ 1 / 2 ^ 43 := fun u hu => by
    have huc : |u - c| ≤ 1 / 2 ^ 45 := by
      rw [abs_sub_comm] at h ⊢
      exact (Set.abs_sub_right_of_mem_uIcc (Set.uIoc_subset_uIcc hu)).trans h
    have h1 : |Real.sin u - Real.sin c| ≤ |u - c| := Real.abs_sin_sub_sin_le u c
    have h2 := abs_le.1 ((abs_abs_sub_abs_le_abs_sub (Real.sin u) (Real.sin c)).trans (h1.trans huc))
    rw [hs] at h2
    have h3 : |2 * Real.sin u| = 2 * |Real.sin u| := by rw [abs_mul, abs_of_pos (by norm_num : (0 : ℝ) < 2)]
    set x := |2 * Real.sin u| with hx
    have hx1 : 1 - 1 / 2 ^ 44 ≤ x := by rw [h3]; linarith [h2.1]
    have hx2 : x ≤ 1 + 1 / 2 ^ 44 := by rw [h3]; linarith [h2.2]
    have x0 : 0 < x := by linarith
    rw [Real.norm_eq_abs, abs_le]
    constructor
    · have := Real.one_sub_inv_le_log_of_pos x0
      have h4 : x⁻¹ ≤ 1 + 1 / 2 ^ 43 := by
        rw [inv_le_comm₀ x0 (by norm_num)]
        refine le_trans ?_ hx1
        norm_num
      linarith
    · have := Real.log_le_sub_one_of_pos x0
      linarith
  have := intervalIntegral.norm_integral_le_of_norm_le_const hb
  rw [diff, abs_neg]
  rw [Real.norm_eq_abs] at this
  refine this.trans ?_
  rw [abs_sub_comm] at h
  calc (1 / 2 ^ 43 : ℝ) * |c - e| ≤ 1 / 2 ^ 43 * (1 / 2 ^ 45) := by gcongr
    _ = 1 / 2 ^ 88 := by norm_num

end Loba

open Loba

variable {X Z : Interval D} {t : ℝ} {dl : Interval D → PM (Interval D) (Interval D)} {st st' : PSt (Interval D)} {fuel : ℕ}

/-- C93 up to 2^-88: for every number of the argument, the result contains a number which differs from the value of the Lobachevsky function by at most 2^-88; the integrator is assumed to
be correct, and the argument reduction not to end with NaN. -/
theorem C93_near (hd : IntOk dl) (h : lobachevsky dl fuel X st = (.ok Z, st')) (ht : t ∈ X)
    (hn : ∀ R, reduce (mulS P0 half).sup P0 fuel X = .ok R → ¬ nan R.inf) : ∃ y ∈ Z, |lobaR t - y| ≤ 1 / 2 ^ 88 := by
  refine core hd h ht hn (S := {v | ∃ y ∈ Z, |v - y| ≤ 1 / 2 ^ 88}) ?_ (fun v hv => ⟨v, hv, by simp⟩) fun R _ c e hc _ hec heZ => ⟨_, heZ, near_ext hc hec⟩
  refine ⟨fun a ha b hb v hv => ?_⟩
  obtain ⟨y, hy, hya⟩ := ha
  obtain ⟨z, hz, hzb⟩ := hb
  rw [abs_le] at hya hzb
  by_cases h1 : v < y
  · by_cases h2 : z ≤ v
    · exact ⟨v, (mem_ordConnected Z).out hz hy ⟨h2, h1.le⟩, by simp⟩
    · by_cases h3 : y ≤ z
      · exact ⟨y, hy, by rw [abs_le]; constructor <;> linarith [hv.1, hv.2]⟩
      · exact ⟨z, hz, by rw [abs_le]; constructor <;> linarith [hv.1, hv.2]⟩
  · by_cases h2 : v ≤ z
    · exact ⟨v, (mem_ordConnected Z).out hy hz ⟨not_lt.1 h1, h2⟩, by simp⟩
    · by_cases h3 : y ≤ z
      · exact ⟨z, hz, by rw [abs_le]; constructor <;> linarith [hv.1, hv.2]⟩
      · exact ⟨y, hy, by rw [abs_le]; constructor <;> linarith [hv.1, hv.2]⟩

/-- C93 (partial): the result contains the value of the Lobachevsky function at every number of the argument, if no end of the reduced argument is nearer than 2^-45 to an extremum.

Missing: ends nearer to an extremum (`C93_near` bounds what can be lost by 2^-88), an argument reduction which ends with NaN (overflow), and the integrator, which is assumed to be correct. -/
theorem C93_partial (hd : IntOk dl) (h : lobachevsky dl fuel X st = (.ok Z, st')) (ht : t ∈ X)
    (hn : ∀ R, reduce (mulS P0 half).sup P0 fuel X = .ok R → ¬ nan R.inf)
    (hf : ∀ R, reduce (mulS P0 half).sup P0 fuel X = .ok R → ∀ c e, Ext c → Is R.inf e ∨ Is R.sup e → 1 / 2 ^ 45 < |e - c|) : lobaR t ∈ Z :=
  core hd h ht hn (S := {v | v ∈ Z}) (mem_ordConnected Z) (fun _ hv => hv) fun R hR c e hc he hec _ => absurd hec (not_le.2 (hf R hR c e hc he))

/-- an argument between -3/2 and 3/2 is not reduced -/
theorem C93_noreduce {l : ℝ} (hl : Is X.inf l) (h1 : -(3 / 2) ≤ l) (h2 : l ≤ 3 / 2) {R : Interval D} (h : reduce (mulS P0 half).sup P0 fuel X = .ok R) : R = X := by
  have e : (mulS P0 half).sup = lit (7074237752028445 / 2 ^ 52) := by decide +kernel
  have i := is_cst (q := 7074237752028445 / 2 ^ 52) 7074237752028445 (-52) (by norm_num) (by norm_num) (by norm_num) (by norm_num)
  rw [← e] at i
  cases fuel with
  | zero => cases h
  | succ f =>
    rw [reduce, if_neg] at h
    · cases h; rfl
    · rw [Bool.or_eq_true, le_of_is hl (is_neg i), le_of_is i hl]
      norm_num
      constructor <;> linarith

/-! ## examples -/

/-- an integrator which satisfies the specification -/
def exLogSin (_ : Interval D) : PM (Interval D) (Interval D) := pure whole

theorem exLogSin_ok : IntOk exLogSin := fun X Z t st st' h _ _ => by
  obtain ⟨rfl, rfl⟩ := pure_run h
  exact GammaFn.mem_whole _

/-- the hypotheses of `C93_partial` for [0, 1] -/
example : ∃ Z st', lobachevsky exLogSin 50 ⟨lit 0, lit 1⟩ (st0 1) = (.ok Z, st') ∧
    (∀ R, reduce (mulS P0 half).sup P0 50 ⟨lit 0, lit 1⟩ = .ok R → ¬ nan R.inf) ∧
    ∀ R, reduce (mulS P0 half).sup P0 50 ⟨lit 0, lit 1⟩ = .ok R → ∀ c e, Ext c → Is R.inf e ∨ Is R.sup e → 1 / 2 ^ 45 < |e - c| := by
  have key : ∀ R, reduce (mulS P0 half).sup P0 50 ⟨lit 0, lit 1⟩ = .ok R → R = ⟨lit 0, lit 1⟩ := fun R h =>
    C93_noreduce (X := ⟨lit 0, lit 1⟩) Interval.is_zero (by norm_num) (by norm_num) h
  obtain ⟨Z, st', h⟩ := okRun_iff (r := lobachevsky exLogSin 50 ⟨lit 0, lit 1⟩ (st0 1)) (by decide +kernel)
  refine ⟨Z, st', h, fun R hR => by rw [key R hR]; exact Interval.is_zero.1, fun R hR c e hc he => ?_⟩
  rw [key R hR] at he
  have p1 := Real.pi_gt_d2
  have p2 := Real.pi_lt_d2
  have he' : e = 0 ∨ e = 1 := he.imp (fun h => by have := h.2.symm.trans Interval.is_zero.2; exact_mod_cast this) fun h => by have := h.2.symm.trans Interval.is_one.2; exact_mod_cast this
  rcases he' with rfl | rfl <;> rcases hc with rfl | rfl | rfl | rfl <;> rw [lt_abs] <;> first | (left; norm_num; linarith) | (right; norm_num; linarith)

end Kv
