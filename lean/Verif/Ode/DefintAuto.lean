import Verif.Ode.DefintLemmas
import Verif.Ode.Loop

/-! # The steps of `defint_autostep`: helper lemmas -/

namespace Kv
open PowerSeries Psa PM MeasureTheory
open Rop (lit)
set_option linter.unusedVariables false

namespace Defint

/-! ## directed rounding without overflow -/

/-- `r` is finite and the least double not below `x` -/
def UpR (x : ℝ) (r : D) : Prop := FinD r ∧ x ≤ dbl r ∧ ∀ k, FinD k → x ≤ dbl k → dbl r ≤ dbl k
/-- `r` is finite and the greatest double not above `x` -/
def DnR (x : ℝ) (r : D) : Prop := FinD r ∧ dbl r ≤ x ∧ ∀ k, FinD k → dbl k ≤ x → dbl k ≤ dbl r

theorem upR_of {x : ℝ} {r K : D} (h : Fl.IsUp (F := binary64) (x : EReal) r) (hK : FinD K) (hx : x ≤ dbl K) : UpR x r := by
  obtain ⟨h1, h2, h3⟩ := h
  have k3 : ∀ k : D, FinD k → x ≤ dbl k → Fl.toE (F := binary64) r ≤ (dbl k : ℝ) := fun k hk hle => by
    have i := is_dbl' hk
    have e : Fl.toE (F := binary64) k = (dbl k : ℝ) := i.2
    rw [← e]; exact h3 k i.1 (by rw [e]; exact_mod_cast hle)
  have hf : FinD r := by
    rcases D_cases r with e | e | e | e
    · exact absurd e h1
    · rw [e] at k3; exact absurd (top_le_iff.1 (k3 K hK hx)) (EReal.coe_ne_top _)
    · rw [e] at h2; exact absurd (le_bot_iff.1 h2) (EReal.coe_ne_bot _)
    · exact e
  have er : Fl.toE (F := binary64) r = (dbl r : ℝ) := (is_dbl' hf).2
  rw [er] at h2
  refine ⟨hf, by exact_mod_cast h2, fun k hk hle => ?_⟩
  have := k3 k hk hle
  rw [er] at this
  exact_mod_cast this

theorem dnR_of {x : ℝ} {r K : D} (h : Fl.IsDown (F := binary64) (x : EReal) r) (hK : FinD K) (hx : dbl K ≤ x) : DnR x r := by
  obtain ⟨h1, h2, h3⟩ := h
  have k3 : ∀ k : D, FinD k → dbl k ≤ x → ((dbl k : ℝ) : EReal) ≤ Fl.toE (F := binary64) r := fun k hk hle => by
    have i := is_dbl' hk
    have e : Fl.toE (F := binary64) k = (dbl k : ℝ) := i.2
    rw [← e]; exact h3 k i.1 (by rw [e]; exact_mod_cast hle)
  have hf : FinD r := by
    rcases D_cases r with e | e | e | e
    · exact absurd e h1
    · rw [e] at h2; exact absurd (top_le_iff.1 h2) (EReal.coe_ne_top _)
    · rw [e] at k3; exact absurd (le_bot_iff.1 (k3 K hK hx)) (EReal.coe_ne_bot _)
    · exact e
  have er : Fl.toE (F := binary64) r = (dbl r : ℝ) := (is_dbl' hf).2
  rw [er] at h2
  refine ⟨hf, by exact_mod_cast h2, fun k hk hle => ?_⟩
  have := k3 k hk hle
  rw [er] at this
  exact_mod_cast this

section
variable {a b K : D} (ha : FinD a) (hb : FinD b) (hK : FinD K)
include ha hb hK

theorem addUp_R (h : dbl a + dbl b ≤ dbl K) : UpR (dbl a + dbl b) (Rop.addUp a b) := by
  have i := is_dbl' ha
  have j := is_dbl' hb
  have e := Fl.add_up_isUp (F := binary64) (x := a) (y := b) i.1 j.1
    (fun hh => EReal.coe_ne_top _ (i.2.symm.trans hh.1)) (fun hh => EReal.coe_ne_bot _ (i.2.symm.trans hh.1))
  have e1 : Fl.toE (F := binary64) a = (dbl a : ℝ) := i.2
  have e2 : Fl.toE (F := binary64) b = (dbl b : ℝ) := j.2
  rw [e1, e2, ← EReal.coe_add] at e
  exact upR_of e hK h

theorem addDown_R (h : dbl K ≤ dbl a + dbl b) : DnR (dbl a + dbl b) (Rop.addDown a b) := by
  have i := is_dbl' ha
  have j := is_dbl' hb
  have e := Fl.add_down_isDown (F := binary64) (x := a) (y := b) i.1 j.1
    (fun hh => EReal.coe_ne_top _ (i.2.symm.trans hh.1)) (fun hh => EReal.coe_ne_bot _ (i.2.symm.trans hh.1))
  have e1 : Fl.toE (F := binary64) a = (dbl a : ℝ) := i.2
  have e2 : Fl.toE (F := binary64) b = (dbl b : ℝ) := j.2
  rw [e1, e2, ← EReal.coe_add] at e
  exact dnR_of e hK h

theorem subUp_R (h : dbl a - dbl b ≤ dbl K) : UpR (dbl a - dbl b) (Rop.subUp a b) := by
  have i := is_dbl' ha
  have j := is_dbl' hb
  have e := Fl.sub_up_isUp (F := binary64) (x := a) (y := b) i.1 j.1
    (fun hh => EReal.coe_ne_top _ (i.2.symm.trans hh.1)) (fun hh => EReal.coe_ne_bot _ (i.2.symm.trans hh.1))
  have e1 : Fl.toE (F := binary64) a = (dbl a : ℝ) := i.2
  have e2 : Fl.toE (F := binary64) b = (dbl b : ℝ) := j.2
  rw [e1, e2, ← EReal.coe_sub] at e
  exact upR_of e hK h

theorem subDown_R (h : dbl K ≤ dbl a - dbl b) : DnR (dbl a - dbl b) (Rop.subDown a b) := by
  have i := is_dbl' ha
  have j := is_dbl' hb
  have e := Fl.sub_down_isDown (F := binary64) (x := a) (y := b) i.1 j.1
    (fun hh => EReal.coe_ne_top _ (i.2.symm.trans hh.1)) (fun hh => EReal.coe_ne_bot _ (i.2.symm.trans hh.1))
  have e1 : Fl.toE (F := binary64) a = (dbl a : ℝ) := i.2
  have e2 : Fl.toE (F := binary64) b = (dbl b : ℝ) := j.2
  rw [e1, e2, ← EReal.coe_sub] at e
  exact dnR_of e hK h

end

theorem le_dbl {a b : D} (ha : FinD a) (hb : FinD b) : Rop.le a b = true ↔ dbl a ≤ dbl b := by
  have i := is_dbl' ha
  have j := is_dbl' hb
  rw [RopSem.le_iff, i.2, j.2, EReal.coe_le_coe_iff]
  exact ⟨fun h => h.2.2, fun h => ⟨i.1, j.1, h⟩⟩

theorem lt_dbl {a b : D} (ha : FinD a) (hb : FinD b) : Rop.lt a b = true ↔ dbl a < dbl b := by
  have i := is_dbl' ha
  have j := is_dbl' hb
  rw [RopSem.lt_iff, i.2, j.2, EReal.coe_lt_coe_iff]
  exact ⟨fun h => h.2.2, fun h => ⟨i.1, j.1, h⟩⟩

theorem mid_nan_sub {S : Interval D} {r : D} (h : RopSem.nan r) : RopSem.nan (Interval.mid (Interval.subS S r)) := by
  obtain rfl : r = dNaN := h
  have h1 : ∀ a : Fl binary64, Fl.neg (Fl.sub .up (Fl.neg a) (Fl.neg Fl.nan)) = Fl.nan := fun a => by cases a <;> rfl
  have h2 : ∀ a : Fl binary64, Fl.sub .up a Fl.nan = Fl.nan := fun a => by cases a <;> rfl
  have e : Interval.subS S dNaN = ⟨dNaN, dNaN⟩ := by
    show (⟨_, _⟩ : Interval D) = _
    congr 1
    · exact h1 S.inf
    · exact h2 S.sup
  have e2 : Interval.mid (⟨dNaN, dNaN⟩ : Interval D) = dNaN := by decide +kernel
  rw [e, e2]; exact nan_dNaN

/-! ## the choice of the end of the step -/

/-- finite, nonempty, between the bounds -/
structure In (M : ℝ) (I : Interval D) : Prop where
  bd : Bd I
  le : dbl I.inf ≤ dbl I.sup
  lo : -M ≤ dbl I.inf
  hi : dbl I.sup ≤ M

/-- the start of a step -/
def TOk (M : ℝ) (t : Interval D) : Prop := In M t ∨ (In (4 * M) t ∧ t.inf = t.sup)

theorem TOk.in4 {M : ℝ} (hM : 0 ≤ M) {t : Interval D} (h : TOk M t) : In (4 * M) t := by
  rcases h with h | h
  · exact ⟨h.bd, h.le, by have := h.lo; linarith, by have := h.hi; linarith⟩
  · exact h.1

/-- bounds which are doubles -/
structure Scale (M : ℝ) : Prop where
  one : 2 ≤ M
  fin : ∃ K K' : D, FinD K ∧ FinD K' ∧ dbl K = 4 * M ∧ dbl K' = -(4 * M)
  fin2 : ∃ K K' : D, FinD K ∧ FinD K' ∧ dbl K = 8 * M ∧ dbl K' = -(8 * M)

theorem dbl_zero : FinD (lit 0 : D) ∧ dbl (lit 0 : D) = 0 := by
  have h := Interval.is_zero (T := D)
  exact ⟨⟨_, h⟩, is_dbl h⟩

theorem dbl_one : FinD (lit 1 : D) ∧ dbl (lit 1 : D) = 1 := by
  have h := Interval.is_one (T := D)
  exact ⟨⟨_, h⟩, is_dbl h⟩

theorem fin_neg {a : D} (h : FinD a) : FinD (Rop.neg a) ∧ dbl (Rop.neg a) = -dbl a := by
  have i := is_dbl' h
  have e : Is (Rop.neg a) (-dbl a) := ⟨fun hh => i.1 ((RopSem.nan_neg a).1 hh), by rw [RopSem.val_neg _ i.1, i.2]; rfl⟩
  exact ⟨⟨_, e⟩, is_dbl e⟩

/-- the interval up to the end of the integration -/
theorem step_spec {M : ℝ} (hM : Scale M) {t stop : Interval D} (ht : In (4 * M) t) (hs : In M stop) :
    DnR (dbl stop.inf - dbl t.sup) (Interval.sub stop t).inf ∧ UpR (dbl stop.sup - dbl t.inf) (Interval.sub stop t).sup := by
  obtain ⟨K, K', hK, hK', eK, eK'⟩ := hM.fin2
  have h1 := hM.one
  obtain ⟨tb, tl, t1, t2⟩ := ht
  obtain ⟨sb, sl, s1, s2⟩ := hs
  exact ⟨subDown_R sb.1 tb.2 hK' (by rw [eK']; linarith), subUp_R sb.2 tb.1 hK (by rw [eK]; linarith)⟩

theorem mid_In {M : ℝ} {Z : Interval D} (h : In M Z) : FinD (Interval.mid Z) ∧ -M ≤ dbl (Interval.mid Z) ∧ dbl (Interval.mid Z) ≤ M := by
  obtain ⟨m1, m2⟩ := mid_bd h.bd (h.bd.nonempty h.le)
  have := (mem_of_bd h.bd).1 m2
  exact ⟨m1, h.lo.trans this.1, this.2.trans h.hi⟩

theorem mag_spec {Z : Interval D} (h : Bd Z) (hle : dbl Z.inf ≤ dbl Z.sup) : FinD (Interval.mag Z) ∧ 0 ≤ dbl (Interval.mag Z) := by
  obtain ⟨z1, z2⟩ := dbl_zero
  obtain ⟨n1, n2⟩ := fin_neg h.1
  unfold Interval.mag Interval.norm
  dsimp only
  split_ifs with h1 h2 h3
  · rw [le_dbl z1 h.1, z2] at h1; exact ⟨h.2, h1.trans hle⟩
  · rw [le_dbl h.2 z1, z2] at h2; exact ⟨n1, by rw [n2]; linarith⟩
  · rw [le_dbl z1 h.1, z2] at h1; rw [le_dbl h.2 z1, z2] at h2; exact ⟨h.2, by linarith⟩
  · rw [le_dbl z1 h.1, z2] at h1; exact ⟨n1, by rw [n2]; linarith⟩

theorem choose_step {t stop : Interval D} {radius : D} {resized : Bool} {c : Choice} (h : choose t stop radius resized = c) :
    c.step = Interval.sub c.t1 t := by
  subst h
  unfold choose
  dsimp only
  by_cases h : Interval.subset (Interval.sub stop t) ⟨Rop.neg radius, radius⟩ = true
  · rw [if_pos h]
  · rw [if_neg h]

/-- the end of a step with a proper step size -/
theorem choose_good {M : ℝ} (hM : Scale M) {t stop : Interval D} (ht : TOk M t) (hs : In M stop) {radius : D} (hr : NN radius)
    (hn : ¬ RopSem.nan radius) {resized : Bool} {c : Choice} (h : choose t stop radius resized = c) :
    (NN c.radius ∧ ¬ RopSem.nan c.radius) ∧
      ((c.flag = true ∧ c.t1 = stop) ∨ (c.flag = false ∧ In (4 * M) c.t1 ∧ c.t1.inf = c.t1.sup)) := by
  have h1 := hM.one
  obtain ⟨K, K', hK, hK', eK, eK'⟩ := hM.fin
  have h4 := ht.in4 (by linarith)
  obtain ⟨⟨d1, d2, d3⟩, u1, u2, u3⟩ := step_spec hM h4 hs
  subst h
  unfold choose
  dsimp only
  by_cases hc : Interval.subset (Interval.sub stop t) ⟨Rop.neg radius, radius⟩ = true
  · rw [if_pos hc]
    obtain ⟨m1, m2⟩ := mag_spec (Z := Interval.sub stop t) ⟨d1, u1⟩ (by have := h4.le; have := hs.le; linarith)
    have i := is_dbl' m1
    exact ⟨⟨nn_iff.2 (Or.inr (by rw [i.2]; exact_mod_cast m2)), i.1⟩, Or.inl ⟨rfl, rfl⟩⟩
  · rw [if_neg hc]
    have i1 := is_dbl' d1
    have i2 := is_dbl' u1
    have hrf : FinD radius := by
      rcases D_cases radius with e | e | e | e
      · exact absurd e hn
      · exfalso
        apply hc
        subst e
        unfold Interval.subset
        rw [Bool.and_eq_true, RopSem.le_iff, RopSem.le_iff]
        refine ⟨⟨?_, i1.1, ?_⟩, i2.1, hn, le_top⟩
        · exact fun hh => hn ((RopSem.nan_neg _).1 hh)
        · exact bot_le
      · subst e; exact hr.elim
      · exact e
    have ir := is_dbl' hrf
    have hr0 : 0 ≤ dbl radius := by
      rcases nn_iff.1 hr with h' | h'
      · exact absurd h' hn
      · rw [ir.2] at h'; exact_mod_cast h'
    obtain ⟨n1, n2⟩ := fin_neg hrf
    have hc' : dbl (Interval.sub stop t).inf < -dbl radius ∨ dbl radius < dbl (Interval.sub stop t).sup := by
      by_contra hh
      push Not at hh
      apply hc
      unfold Interval.subset
      rw [Bool.and_eq_true, le_dbl n1 d1, le_dbl u1 hrf, n2]
      exact hh
    have hc1 : dbl (Interval.sub stop t).inf < -dbl radius → dbl stop.inf - dbl t.sup < -dbl radius := fun hh => by
      by_contra hx
      have := d3 _ n1 (by rw [n2]; linarith)
      rw [n2] at this
      linarith
    have hc2 : dbl radius < dbl (Interval.sub stop t).sup → dbl radius < dbl stop.sup - dbl t.inf := fun hh => by
      by_contra hx
      have := u3 _ hrf (by linarith)
      linarith
    refine ⟨⟨hr, hn⟩, Or.inr ⟨rfl, ?_⟩⟩
    obtain ⟨z1, z2⟩ := dbl_zero
    obtain ⟨o1, o2⟩ := dbl_one
    have tb := h4.bd
    have tl := h4.le
    have t1 := h4.lo
    have t2 := h4.hi
    have sl := hs.le
    have s1 := hs.lo
    have s2 := hs.hi
    have key : ∀ d : D, FinD d ∧ -(4 * M) ≤ dbl d ∧ dbl d ≤ 4 * M →
        In (4 * M) (Interval.point d) ∧ (Interval.point d).inf = (Interval.point d).sup := fun d hd =>
      ⟨⟨⟨hd.1, hd.1⟩, le_refl _, hd.2.1, hd.2.2⟩, rfl⟩
    by_cases hp : Rop.lt (lit 0) (Interval.sub stop t).inf = true
    · rw [if_pos hp]
      rw [lt_dbl z1 d1, z2] at hp
      have hc3 := hc2 (hc'.resolve_left (by linarith))
      have b1 : -(4 * M) ≤ dbl t.inf + dbl radius := by linarith
      have b2 : dbl t.sup + dbl radius ≤ 4 * M := by
        rcases ht with h | h
        · have := h.lo; have := h.hi; linarith
        · rw [← h.2]; linarith
      obtain ⟨p1, p2, p3⟩ := addDown_R tb.1 hrf hK' (by rw [eK']; exact b1)
      obtain ⟨q1, q2, q3⟩ := addUp_R tb.2 hrf hK (by rw [eK]; exact b2)
      have p4 := p3 K' hK' (by rw [eK']; exact b1)
      have q4 := q3 K hK (by rw [eK]; exact b2)
      rw [eK'] at p4
      rw [eK] at q4
      exact key _ (mid_In (Z := Interval.addS t radius) ⟨⟨p1, q1⟩, by
        show dbl (Rop.addDown t.inf radius) ≤ dbl (Rop.addUp t.sup radius); linarith, p4, q4⟩)
    · rw [if_neg hp]
      rw [lt_dbl z1 d1, z2] at hp
      have b2 : dbl t.sup - dbl radius ≤ 4 * M := by linarith
      have b0 : dbl stop.inf - dbl t.sup < 1 := by
        by_contra hx
        have := d3 _ o1 (by rw [o2]; linarith)
        rw [o2] at this
        linarith
      have b1 : -(4 * M) ≤ dbl t.inf - dbl radius := by
        rcases ht with h | h
        · have := h.lo
          have := h.hi
          rcases hc' with h | h
          · have := hc1 h; linarith
          · have := hc2 h; linarith
        · have e : dbl t.inf = dbl t.sup := congrArg dbl h.2
          rcases hc' with h | h
          · have := hc1 h; linarith
          · have := hc2 h; linarith
      obtain ⟨p1, p2, p3⟩ := subDown_R tb.1 hrf hK' (by rw [eK']; exact b1)
      obtain ⟨q1, q2, q3⟩ := subUp_R tb.2 hrf hK (by rw [eK]; exact b2)
      have p4 := p3 K' hK' (by rw [eK']; exact b1)
      have q4 := q3 K hK (by rw [eK]; exact b2)
      rw [eK'] at p4
      rw [eK] at q4
      exact key _ (mid_In (Z := Interval.subS t radius) ⟨⟨p1, q1⟩, by
        show dbl (Rop.subDown t.inf radius) ≤ dbl (Rop.subUp t.sup radius); linarith, p4, q4⟩)

/-- an interval made of nothing but NaN -/
def IsNan (I : Interval D) : Prop := I = Interval.point dNaN

theorem choose_nan {t stop : Interval D} {radius : D} (hn : RopSem.nan radius) {resized : Bool} {c : Choice}
    (h : choose t stop radius resized = c) : RopSem.nan c.radius ∧ c.flag = false ∧ IsNan c.t1 := by
  subst h
  unfold choose
  dsimp only
  rw [if_neg]
  · refine ⟨hn, rfl, ?_⟩
    show Interval.point _ = Interval.point _
    congr 1
    split_ifs
    · exact Ode.mid_nan hn
    · exact mid_nan_sub hn
  · unfold Interval.subset
    rw [Bool.and_eq_true, RopSem.le_iff, RopSem.le_iff]
    exact fun hh => hh.2.2.1 hn

theorem choose_nan_t {t stop : Interval D} (ht : IsNan t) {radius : D} {resized : Bool} {c : Choice}
    (h : choose t stop radius resized = c) : c.flag = false ∧ IsNan c.t1 := by
  obtain rfl := ht
  subst h
  have h1 : ∀ a : Fl binary64, Fl.neg (Fl.sub .up (Fl.neg a) (Fl.neg Fl.nan)) = Fl.nan := fun a => by cases a <;> rfl
  have h2 : ∀ a : Fl binary64, Fl.sub .up a Fl.nan = Fl.nan := fun a => by cases a <;> rfl
  have e : Interval.sub stop (Interval.point dNaN) = ⟨dNaN, dNaN⟩ := by
    show (⟨_, _⟩ : Interval D) = _
    congr 1
    · exact h1 stop.inf
    · exact h2 stop.sup
  unfold choose
  dsimp only
  rw [if_neg]
  · refine ⟨rfl, ?_⟩
    show Interval.point _ = Interval.point _
    congr 1
    have e2 : Interval.mid (⟨dNaN, dNaN⟩ : Interval D) = dNaN := by decide +kernel
    split_ifs
    · have : Interval.addS (Interval.point dNaN) radius = ⟨dNaN, dNaN⟩ := rfl
      rw [this, e2]
    · have : Interval.subS (Interval.point dNaN) radius = ⟨dNaN, dNaN⟩ := rfl
      rw [this, e2]
  · unfold Interval.subset
    rw [e, Bool.and_eq_true, RopSem.le_iff, RopSem.le_iff]
    exact fun hh => hh.1.2.1 nan_dNaN

/-! ## step sizes are not negative -/

theorem tolerance_nn {result : Interval D} {epsilon : D} (he : NN epsilon) : NN (tolerance result epsilon) :=
  (NN.stdMax' (NN.lit (by norm_num))).mul he

theorem radiusLoop_nn [Scal (Interval D)] {P : Integrand} {y : Ode.Ser} : ∀ {i : ℕ} {radius : D} {c : ℕ} {r : D}, NN radius →
    radiusLoop P y i radius c = .ok r → NN r
  | 0, radius, c, r, h0, h => by cases h; exact h0
  | i + 1, radius, c, r, h0, h => by
    unfold radiusLoop at h
    obtain ⟨m, hm, h⟩ := bind_ok.1 h
    have key : ∀ q : D, NN (if Rop.lt radius q then q else radius) := fun q => by
      split_ifs with hlt
      · rw [RopSem.lt_iff] at hlt
        rcases nn_iff.1 h0 with h' | h'
        · exact absurd h' hlt.1
        · exact nn_iff.2 (Or.inr (h'.trans hlt.2.2.le))
      · exact h0
    dsimp only at h
    by_cases h1 : Rop.eq (Interval.mig m) (lit 0) = true
    · rw [if_pos h1] at h; exact radiusLoop_nn h0 h
    · rw [if_neg h1] at h
      by_cases h2 : c + 1 = 2
      · rw [if_pos h2] at h; cases h; exact key _
      · rw [if_neg h2] at h; exact radiusLoop_nn (key _) h

theorem rad_nn {z : Interval D} {x : ℝ} (h : x ∈ z) : NN (Interval.rad z) := by
  have h1 : Hi (Rop.subUp z.sup z.inf) 0 := by simpa using Hi.sub h.2 h.1
  exact Fl.NN.mul (md := .up) (nn_iff.2 (Or.inr (by simpa using h1.2))) (NN.lit (q := 1 / 2) (by norm_num))

theorem resize_nn [Scal (Interval D)] {P : Integrand} (hp : Ode.PwOk P.pw) {order restart : ℕ} {tol radius : D} {z : Interval D} {x : ℝ}
    (hr : NN radius) (ht : NN tol) (hx : x ∈ z) : NN (resize P order tol radius restart z) := by
  unfold resize
  dsimp only
  have := hp _ (Rop.div (lit 1) (lit ((order : ℚ) + 1))) ((rad_nn hx).div ht)
  split_ifs
  · exact hr.div (NN.stdMax' (NN.lit (by norm_num)))
  · exact hr.div this

theorem resize_nan [Scal (Interval D)] {P : Integrand} {order restart : ℕ} {tol radius : D} {z : Interval D} (h : RopSem.nan radius) :
    RopSem.nan (resize P order tol radius restart z) := by
  unfold resize
  dsimp only
  split_ifs <;> exact Ode.nan_div h

theorem half_nn {r : D} (h : NN r) (hn : ¬ RopSem.nan r) : NN (Rop.mul r (lit (1 / 2))) := h.mul (NN.lit (by norm_num))

/-! ## the inner loop -/

theorem tryDom_run {S α : Type} {m : PM S α} {st st' : PSt S} {o : Option α} (h : tryDom m st = (.ok o, st')) :
    (∃ y, o = some y ∧ m st = (.ok y, st')) ∨ (o = none ∧ m st = (.error .domainError, st')) := by
  unfold tryDom at h
  split at h
  · next y s e => cases h; exact Or.inl ⟨y, rfl, e⟩
  · next s e => cases h; exact Or.inr ⟨rfl, e⟩
  · next e s hne e' => cases h

theorem sHull_mem {S : Interval D} {t : ℝ} (ht : t ∈ S) : (0 : ℝ) ∈ Interval.sHull (lit 0) S ∧ t ∈ Interval.sHull (lit 0) S := by
  have h : Interval.sHull (lit 0) S = Interval.hull (Interval.point (lit 0)) S := rfl
  have h0 : (0 : ℝ) ∈ (Interval.point (lit 0) : Interval D) := Interval.point_mem Interval.is_zero
  rw [h]
  exact ⟨Interval.hull_mem_left h0 ht, Interval.hull_mem_right h0 ht⟩

variable {P : Integrand} {ρ : ℕ → ℝ} {N fuel : ℕ} {x : Ode.Ser}

/-- without a step size, or without a start, no step is the last one -/
theorem stepLoop_nan [Scal (Interval D)] {t stop : Interval D} {tol : D} :
    ∀ (k : ℕ) {radius : D} {restart : ℕ} {resized : Bool} {st st' : PSt (Interval D)} {r : Interval D × Bool × Interval D},
    (RopSem.nan radius ∨ IsNan t) → stepLoop P N x t stop tol k radius restart resized st = (.ok r, st') → r.2.1 = false ∧ IsNan r.2.2
  | 0, radius, restart, resized, st, st', r, _, h => by cases (lift_run h).1
  | k + 1, radius, restart, resized, st, st', r, hn, h => by
    unfold stepLoop at h
    generalize hc : choose t stop radius resized = c at h
    have c1 : c.flag = false ∧ IsNan c.t1 := by
      rcases hn with hn | hn
      · exact (choose_nan hn hc).2
      · exact choose_nan_t hn hc
    have c2 : RopSem.nan c.radius ∨ IsNan t := hn.imp (fun hn => (choose_nan hn hc).1) id
    obtain ⟨_, s1, h1, h2⟩ := bind_run h
    cases h1
    obtain ⟨o, s2, h3, h4⟩ := bind_run h2
    cases o with
    | some y =>
      obtain ⟨A, s4, a1, a2⟩ := bind_run h4
      split_ifs at a2
      · obtain ⟨rfl, rfl⟩ := pure_run a2
        exact c1
      · exact stepLoop_nan k (c2.imp resize_nan id) a2
    | none =>
      dsimp only at h4
      split_ifs at h4 with hr
      · obtain ⟨_, s3, e1, e2⟩ := bind_run h4
        exact stepLoop_nan k (c2.imp Ode.nan_mul id) e2
      · cases (lift_run h4).1

theorem in_mem {M : ℝ} {I : Interval D} (h : In M I) : ∃ τ, τ ∈ I := ⟨_, (mem_of_bd h.bd).2 ⟨le_refl _, h.le⟩⟩

theorem stepLoop_spec (hd : Data P ρ) (hpw : Ode.PwOk P.pw) {M : ℝ} (hM : Scale M) {t0 : ℝ} {T} (hT : IsTrace fuel P ρ t0 T) (hN : 1 ≤ N)
    (hN' : N + 1 < 2 ^ 31) (hxl : x.length = N + 1)
    (hx : Contains x (idCo t0)) {t stop : Interval D} (ht : t0 ∈ t) (htm : TOk M t) (hsm : In M stop) {tol : D} (htol : NN tol)
    (hl : P.f.LDom False ρ fun _ => t0) :
    ∀ (k : ℕ) {m : ℕ} {radius : D} {restart : ℕ} {resized : Bool} {st st' : PSt (Interval D)} {r : Interval D × Bool × Interval D},
    1 ≤ m → m ≤ N + 1 → st.mode = 2 → HistOk fuel T m st → NN radius →
    (letI := scalI fuel; stepLoop P N x t stop tol k radius restart resized) st = (.ok r, st') →
    ((r.2.1 = true ∧ r.2.2 = stop) ∨ (r.2.1 = false ∧ (IsNan r.2.2 ∨ (In (4 * M) r.2.2 ∧ r.2.2.inf = r.2.2.sup)))) ∧
      ∀ t1 ∈ r.2.2, (∀ y ∈ Set.uIcc t0 t1, Smooth P.f ρ y) ∧ (∫ y in t0..t1, fn P.f ρ y) ∈ r.1
  | 0, m, radius, restart, resized, st, st', r, _, _, _, _, _, h => by cases (lift_run h).1
  | k + 1, m, radius, restart, resized, st, st', r, hm, hm', hmode, hist, hr, h => by
    let _ := semI fuel
    change stepLoop P N x t stop tol (k + 1) radius restart resized st = (.ok r, st') at h
    by_cases hn : RopSem.nan radius
    · obtain ⟨g1, g2⟩ := stepLoop_nan (k + 1) (Or.inl hn) h
      refine ⟨Or.inr ⟨g1, Or.inl g2⟩, fun t1 h1 => ?_⟩
      rw [g2] at h1
      exact absurd nan_dNaN h1.1.1
    unfold stepLoop at h
    generalize hc : choose t stop radius resized = c at h
    have c1 := choose_step hc
    obtain ⟨⟨c2, c3⟩, c4⟩ := choose_good hM htm hsm hr hn hc
    have c5 : ∃ τ, τ ∈ c.t1 := by
      rcases c4 with ⟨-, e⟩ | ⟨-, e, -⟩
      · rw [e]; exact in_mem hsm
      · exact in_mem e
    obtain ⟨τ1, hτ1⟩ := c5
    have hdom : ∀ t1 ∈ c.t1, (t1 - t0 ∈ c.step ∧ (0 : ℝ) ∈ Interval.sHull (lit 0) c.step ∧ t1 - t0 ∈ Interval.sHull (lit 0) c.step) := fun t1 ht1 => by
      have hst : t1 - t0 ∈ c.step := by rw [c1]; exact Interval.sub_mem ht1 ht
      exact ⟨hst, sHull_mem hst⟩
    have h0 := (hdom τ1 hτ1).2.1
    obtain ⟨_, s1, h1, h2⟩ := bind_run h
    cases h1
    obtain ⟨o, s2, h3, h4⟩ := bind_run h2
    have hk : KeepsMode (evalStep P x) := KeepsMode.bind (Expr.keeps_evalP _ _ _) fun _ => KeepsMode.lift _
    have hm2 : s2.mode = 2 := by
      have := hk.run { st with domain := Interval.sHull (lit 0) c.step }
      rcases tryDom_run h3 with ⟨y, rfl, hy⟩ | ⟨rfl, hy⟩ <;> rw [hy] at this <;> exact this.trans hmode
    rcases tryDom_run h3 with ⟨y, rfl, hy⟩ | ⟨rfl, hy⟩
    · unfold evalStep at hy
      obtain ⟨z, s3, e1, e2⟩ := bind_run hy
      obtain ⟨e3, rfl⟩ := lift_run e2
      obtain ⟨A, s4, a1, a2⟩ := bind_run h4
      obtain ⟨a3, rfl⟩ := lift_run a1
      obtain ⟨⟨m1, m2, mu, m3⟩, l1, l2, hz, hS⟩ := eval2 hd hT hN hN' hm hm' (st := { st with domain := Interval.sHull (lit 0) c.step })
        hmode h0 hist hxl hx hl e1
      have main : ∀ t1 ∈ c.t1, (∀ y ∈ Set.uIcc t0 t1, Smooth P.f ρ y) ∧ (∫ y in t0..t1, fn P.f ρ y) ∈ A := fun t1 ht1 => by
        obtain ⟨hst, -, hdm⟩ := hdom t1 ht1
        have i1 := integral_mem (fuel := fuel) h0 l1 (by omega) hz hS e3 hdm hst a3
        have i2 := smooth_seg h0 hS hdm
        rw [add_sub_cancel] at i1 i2
        exact ⟨i2, i1⟩
      split_ifs at a2 with hres
      · obtain ⟨rfl, rfl⟩ := pure_run a2
        exact ⟨c4.imp id fun h => ⟨h.1, Or.inr h.2⟩, main⟩
      · exact stepLoop_spec hd hpw hM hT hN hN' hxl hx ht htm hsm htol hl k hN (Nat.le_succ N) m1 m3
          (resize_nn hpw c2 htol (main τ1 hτ1).2) a2
    · dsimp only at h4
      split_ifs at h4 with hr
      · obtain ⟨_, s3, e1, e2⟩ := bind_run h4
        cases e1
        exact stepLoop_spec hd hpw hM hT hN hN' hxl hx ht htm hsm htol hl k hm hm' (by exact hm2) (Or.inl rfl) (half_nn c2 c3) e2
      · cases (lift_run h4).1

theorem setorder_st [Scal (Interval D)] {y z : Ode.Ser} {n : ℤ} {st st' : PSt (Interval D)} (h : Psa.setorder y n st = (.ok z, st')) :
    st' = st := by
  unfold Psa.setorder at h
  by_cases h1 : n < 0
  · rw [if_pos h1] at h; cases (lift_run h).1
  · rw [if_neg h1] at h
    by_cases h2 : y.length ≤ n.toNat + 1
    · rw [if_pos h2] at h; exact (pure_run h).2
    · rw [if_neg h2] at h
      rw [get_bind] at h
      by_cases h3 : st.mode = 1
      · rw [if_pos h3] at h; exact (lift_run h).2
      · rw [if_neg h3] at h; exact (lift_run h).2

theorem radius0_spec (hd : Data P ρ) {t0 : ℝ} {T} (hT : IsTrace fuel P ρ t0 T) (hN : 1 ≤ N) (hN' : N + 1 < 2 ^ 31) (hxl : x.length = N + 1)
    (hx : Contains x (idCo t0)) {tol : D} (htol : NN tol) (hpw : Ode.PwOk P.pw) (hl : P.f.LDom False ρ fun _ => t0) {st st' : PSt (Interval D)} {r : D}
    (h : (letI := scalI fuel; radius0 P N x tol) st = (.ok r, st')) :
    NN r ∧ st'.record = true ∧ (let _ := semI fuel; List.Forall₂ (Match (N + 1)) (T (N + 1)) st'.hist) := by
  let _ := semI fuel
  change radius0 P N x tol st = (.ok r, st') at h
  unfold radius0 at h
  obtain ⟨y, s1, h1, h2⟩ := bind_run (m := evalF P x) (show _ = _ from h)
  obtain ⟨e1, e2⟩ := eval1 hd hT hN hN' (st := { st with mode := 1, use := false, record := true, hist := [] }) rfl rfl rfl rfl hxl hx hl h1
  obtain ⟨y2, s2, h3, h4⟩ := bind_run h2
  obtain ⟨-, rfl⟩ := lift_run h3
  obtain ⟨y3, s3, h5, h6⟩ := bind_run h4
  obtain ⟨h7, rfl⟩ := lift_run h6
  obtain ⟨q, h8, h9⟩ := bind_ok.1 h7
  cases h9
  have := setorder_st h5
  subst this
  exact ⟨(hpw _ _ htol).div (radiusLoop_nn (NN.lit (le_refl 0)) h8), e1, e2⟩

/-! ## the outer loop -/

theorem autoLoop_nan [Scal (Interval D)] {stop : Interval D} {epsilon : D} :
    ∀ (k : ℕ) {t result : Interval D} {x : Ode.Ser} {st st' : PSt (Interval D)} {r}, IsNan t →
    autoLoop P N stop epsilon k x t result st ≠ (.ok r, st')
  | 0, t, result, x, st, st', r, ht, h => by cases (lift_run h).1
  | k + 1, t, result, x, st, st', r, ht, h => by
    unfold autoLoop at h
    dsimp only at h
    obtain ⟨rad, s1, h1, h2⟩ := bind_run h
    obtain ⟨⟨z, flag, t1⟩, s2, h3, h4⟩ := bind_run (m := stepLoop P N (x.set 0 t) t stop _ 12 rad 0 false) (show _ = _ from h2)
    obtain ⟨e1, e2⟩ := stepLoop_nan 12 (Or.inr ht) h3
    dsimp only at e1 e2 h4
    subst e1
    rw [if_neg Bool.false_ne_true] at h4
    exact autoLoop_nan k e2 h4

theorem autoLoop_spec (hd : Data P ρ) (hpw : Ode.PwOk P.pw) {M : ℝ} (hM : Scale M) (hN : 1 ≤ N) (hN' : N + 1 < 2 ^ 31)
    {a b : ℝ} {stop : Interval D} (hb : b ∈ stop) (hsm : In M stop) {epsilon : D} (heps : NN epsilon) :
    ∀ (k : ℕ) {t result : Interval D} {t0 : ℝ} {x : Ode.Ser} {st st' : PSt (Interval D)} {r}, t0 ∈ t → TOk M t → x.length = N + 1 →
    (∀ (t : Interval D) (t0 : ℝ), t0 ∈ t → Contains (x.set 0 t) (idCo t0)) → P.f.LDom False ρ (fun _ => t0) →
    (∀ y ∈ Set.uIcc a t0, y ≠ t0 → Smooth P.f ρ y) → IntervalIntegrable (fn P.f ρ) volume a t0 → (∫ y in a..t0, fn P.f ρ y) ∈ result →
    (letI := scalI fuel; autoLoop P N stop epsilon k x t result) st = (.ok r, st') →
    (∀ y ∈ Set.uIcc a b, Smooth P.f ρ y) ∧ (∫ y in a..b, fn P.f ρ y) ∈ r
  | 0, t, result, t0, x, st, st', r, _, _, _, _, _, _, _, _, h => by cases (lift_run h).1
  | k + 1, t, result, t0, x, st, st', r, ht, htm, hxl, hx, hl, hS, hI, hR, h => by
    let _ := semI fuel
    change autoLoop P N stop epsilon (k + 1) x t result st = (.ok r, st') at h
    unfold autoLoop at h
    dsimp only at h
    obtain ⟨rad, s1, h1, h2⟩ := bind_run h
    obtain ⟨⟨z, flag, t1⟩, s2, h3, h4⟩ := bind_run (m := stepLoop P N (x.set 0 t) t stop _ 12 rad 0 false) (show _ = _ from h2)
    have htol := tolerance_nn (result := result) heps
    obtain ⟨T, hT⟩ := exists_trace (fuel := fuel) hd t0
    have hxl' : (x.set 0 t).length = N + 1 := by simpa using hxl
    obtain ⟨e1, e2, e3⟩ := radius0_spec hd hT hN hN' hxl' (hx t t0 ht) htol hpw hl h1
    obtain ⟨f1, f2⟩ := stepLoop_spec hd hpw hM hT hN hN' hxl' (hx t t0 ht) ht htm hsm htol hl 12 (m := N + 1) (by omega) (le_refl _)
      (st := { s1 with mode := 2, use := true }) rfl (Or.inr ⟨rfl, e2, e3⟩) e1 h3
    have next : ∀ τ ∈ t1, (∀ y ∈ Set.uIcc a τ, Smooth P.f ρ y) ∧ (∫ y in a..τ, fn P.f ρ y) ∈ Interval.add result z := fun τ hτ => by
      obtain ⟨g1, g2⟩ := f2 τ hτ
      refine ⟨fun y hy => ?_, ?_⟩
      · rcases Set.uIcc_subset_uIcc_union_uIcc (b := t0) hy with h | h
        · by_cases e : y = t0
          · rw [e]; exact g1 t0 Set.left_mem_uIcc
          · exact hS y h e
        · exact g1 y h
      · rw [← intervalIntegral.integral_add_adjacent_intervals hI (integrable g1)]
        exact Interval.add_mem hR g2
    dsimp only at f1 h4
    rcases f1 with ⟨rfl, rfl⟩ | ⟨rfl, f1⟩
    · rw [if_pos rfl] at h4
      obtain ⟨rfl, rfl⟩ := pure_run h4
      exact next b hb
    · rw [if_neg Bool.false_ne_true] at h4
      rcases f1 with f1 | f1
      · exact absurd h4 (autoLoop_nan k f1)
      · obtain ⟨τ, hτ⟩ := in_mem f1.1
        obtain ⟨n1, n2⟩ := next τ hτ
        exact autoLoop_spec hd hpw hM hN hN' hb hsm heps k hτ (Or.inr f1) hxl' (fun t t0 h => by simpa using hx t t0 h)
          (Expr.SDom.toLDom (n1 τ Set.right_mem_uIcc)) (fun y hy _ => n1 y hy) (integrable n1) n2 h4

/-! ## the bounds 2^1000 -/

theorem scale : Scale (2 ^ 1000) := by
  have key : ∀ k : ℕ, k ≤ 901 → ∃ K K' : D, FinD K ∧ FinD K' ∧ dbl K = 2 ^ (102 + k) ∧ dbl K' = -2 ^ (102 + k) := fun k hk => by
    have h1 := Interval.is_cst (q := 2 ^ (102 + k)) (2 ^ 52) (50 + k) (by decide) (by omega) (by omega) (by
      push_cast
      rw [zpow_add₀ (by norm_num), zpow_natCast, pow_add, ← mul_assoc]
      norm_num)
    have h2 := fin_neg ⟨_, h1⟩
    refine ⟨_, _, ⟨_, h1⟩, h2.1, ?_, ?_⟩
    · rw [is_dbl h1]; push_cast; rfl
    · rw [h2.2, is_dbl h1]; push_cast; rfl
  refine ⟨?_, ?_, ?_⟩
  · calc (2 : ℝ) = 2 ^ 1 := (pow_one _).symm
      _ ≤ 2 ^ 1000 := pow_le_pow_right₀ (by norm_num) (by norm_num)
  · obtain ⟨K, K', h1, h2, h3, h4⟩ := key 900 (by norm_num)
    have e : (4 : ℝ) * 2 ^ 1000 = 2 ^ (102 + 900) := by rw [show (102 + 900 : ℕ) = 2 + 1000 from rfl, pow_add]; norm_num
    exact ⟨K, K', h1, h2, by rw [h3, e], by rw [h4, e]⟩
  · obtain ⟨K, K', h1, h2, h3, h4⟩ := key 901 (by norm_num)
    have e : (8 : ℝ) * 2 ^ 1000 = 2 ^ (102 + 901) := by rw [show (102 + 901 : ℕ) = 3 + 1000 from rfl, pow_add]; norm_num
    exact ⟨K, K', h1, h2, by rw [h3, e], by rw [h4, e]⟩

/-- an interval with bounded points has finite ends -/
theorem in_of_bounded {M a : ℝ} {I : Interval D} (ha : a ∈ I) (h : ∀ τ ∈ I, |τ| ≤ M) : In M I := by
  obtain ⟨⟨n1, l1⟩, n2, l2⟩ := ha
  have hM : 0 ≤ M := (abs_nonneg a).trans (h a ⟨⟨n1, l1⟩, n2, l2⟩)
  have f1 : FinD I.inf := by
    rcases D_cases I.inf with e | e | e | e
    · exact absurd e n1
    · rw [e] at l1; exact absurd (top_le_iff.1 l1) (EReal.coe_ne_top _)
    · have := h (min a (-M - 1)) ⟨⟨n1, by rw [e]; exact bot_le⟩, n2, le_trans (by exact_mod_cast min_le_left _ _) l2⟩
      have h2 := (abs_le.1 this).1
      have := min_le_right a (-M - 1)
      linarith
    · exact e
  have f2 : FinD I.sup := by
    rcases D_cases I.sup with e | e | e | e
    · exact absurd e n2
    · have := h (max a (M + 1)) ⟨⟨n1, le_trans l1 (by exact_mod_cast le_max_left _ _)⟩, n2, by rw [e]; exact le_top⟩
      have h2 := (abs_le.1 this).2
      have := le_max_right a (M + 1)
      linarith
    · rw [e] at l2; exact absurd (le_bot_iff.1 l2) (EReal.coe_ne_bot _)
    · exact e
  have hb : Bd I := ⟨f1, f2⟩
  have h0 := (mem_of_bd hb).1 ⟨⟨n1, l1⟩, n2, l2⟩
  exact ⟨hb, h0.1.trans h0.2, (abs_le.1 (h _ ((mem_of_bd hb).2 ⟨le_refl _, h0.1.trans h0.2⟩))).1,
    (abs_le.1 (h _ ((mem_of_bd hb).2 ⟨h0.1.trans h0.2, le_refl _⟩))).2⟩

end Defint
end Kv
