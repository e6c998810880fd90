import Verif.Solver.Optimize
import Verif.Solver.AllsolLemmas

/-! # Lemmas for the global minimisation -/

namespace Kv
open RopSem Kv.Interval
open Rop (lit)
open LA

variable {n : ℕ}

/-- The enclosures computed by `P` are correct for the function `f`, which is defined where `dom` holds.  `FD` returning
normally means that `f` is defined near every point of the box and differentiable on it. -/
structure SProg.Sound (P : SProg n) (dom : (Fin n → ℝ) → Prop) (f : (Fin n → ℝ) → ℝ) : Prop where
  val : ∀ {X Y x}, P.F X = .ok Y → (∀ i, x i ∈ X i) → dom x → f x ∈ Y
  der : ∀ {X Y J x}, P.FD X = .ok (Y, J) → (∀ i, x i ∈ X i) → (∀ᶠ y in nhds x, dom y) ∧ f x ∈ Y ∧
    ∃ g : Fin n → ℝ, (∀ j, g j ∈ J j) ∧ HasFDerivAt f (lin g) x

theorem exprSProg_sound {fuel : ℕ} {p : ℕ → Interval D} {e : Expr n} {ρ : ℕ → ℝ} (hc : e.FinCst) (hk : e.ConstDom ρ) (hp : ∀ i, ρ i ∈ p i) :
    (exprSProg fuel p e).Sound (fun x => e.Dom ρ x) (fun x => e.real ρ x) where
  val {X Y x} h hx hd := @eval_mem _ (semI fuel) n p X ρ x hp hx e Y hc hd h
  der {X Y J x} h hx := by
    obtain ⟨r, hr, h⟩ := bind_ok.1 h
    cases h
    have hs := @evalAD_near _ (semI fuel) n p X ρ x hp hx e r hc hk hr
    obtain ⟨g, h1, h2⟩ := @AD.row _ (semI fuel) _ _ _ _ _ hs.2
    exact ⟨hs.1, @AD.val _ (semI fuel) _ _ _ _ _ hs.2, g, h2, h1⟩

/-- mean value theorem on a box -/
theorem s_mvt {S : Fin n → Set ℝ} {f : (Fin n → ℝ) → ℝ} {Q : (Fin n → ℝ) → Prop} (hS : ∀ i, (S i).OrdConnected)
    (hder : ∀ x, (∀ i, x i ∈ S i) → ∃ g, Q g ∧ HasFDerivAt f (lin g) x) {x y : Fin n → ℝ}
    (hx : ∀ i, x i ∈ S i) (hy : ∀ i, y i ∈ S i) : ∃ g, Q g ∧ f x - f y = ∑ j, g j * (x j - y j) := by
  let s : Set (Fin n → ℝ) := Set.pi Set.univ S
  have hs : Convex ℝ s := convex_pi fun i _ => (hS i).convex
  have hms : ∀ {z}, z ∈ s ↔ ∀ i, z i ∈ S i := by simp [s]
  choose! A hA1 hA2 using hder
  have hd : ∀ z ∈ s, HasFDerivWithinAt f (lin (A z)) s z := fun z hz => (hA2 z (hms.1 hz)).hasFDerivWithinAt
  obtain ⟨z, hz, h⟩ := domain_mvt hd hs (hms.2 hy) (hms.2 hx)
  have hz' := hs.segment_subset (hms.2 hy) (hms.2 hx) hz
  exact ⟨A z, hA1 z (hms.1 hz'), by rw [h, lin_apply]; rfl⟩

/-- along a direction with negative derivative the values decrease -/
theorem descent {f : (Fin n → ℝ) → ℝ} {z v : Fin n → ℝ} {L : (Fin n → ℝ) →L[ℝ] ℝ} (h : HasFDerivAt f L z) (hv : L v < 0) :
    ∀ᶠ t in nhdsWithin (0 : ℝ) (Set.Ioi 0), f (z + t • v) < f z := by
  have h1 : HasDerivAt (fun t : ℝ => z + t • v) v 0 := by
    simpa using ((hasDerivAt_id (0 : ℝ)).smul_const v).const_add z
  have h2 : HasDerivAt (fun t : ℝ => f (z + t • v)) (L v) 0 := by
    have h' : HasFDerivAt f L (z + (0 : ℝ) • v) := by simpa using h
    exact h'.comp_hasDerivAt (0 : ℝ) h1
  have h3 := (hasDerivAt_iff_tendsto_slope.1 h2).eventually (gt_mem_nhds hv)
  have h4 : nhdsWithin (0 : ℝ) (Set.Ioi 0) ≤ nhdsWithin 0 {0}ᶜ := nhdsWithin_mono _ fun t (ht : 0 < t) => ht.ne'
  filter_upwards [h4 h3, self_mem_nhdsWithin] with t ht htp
  have htp : 0 < t := htp
  have ht : slope (fun t : ℝ => f (z + t • v)) 0 t < 0 := ht
  rw [slope_def_field, sub_zero, div_lt_iff₀ htp, zero_mul, zero_smul, add_zero] at ht
  linarith

namespace Optimize

/-- a bounded box which is not empty -/
def BdB (B : Vec n (Interval D)) : Prop := ∀ i, Bd (B i) ∧ (B i).Nonempty

/-- `z` is a minimiser of `f` over the box -/
def IsMin (dom : (Fin n → ℝ) → Prop) (f : (Fin n → ℝ) → ℝ) (init : Vec n (Interval D)) (z : Fin n → ℝ) : Prop :=
  InB init z ∧ dom z ∧ ∀ y, InB init y → dom y → f z ≤ f y

/-- `delta` does not exclude the value `v` -/
def DeltaOk (delta : D) (v : ℝ) : Prop := ∀ a : D, Lo a v → ¬ Rop.lt delta a = true

theorem le_maxv {a : D} {v : ℝ} (h : Lo a v) : val a ≤ val (Rop.maxv : D) := by
  have hm : val (Rop.maxv : D) = (((binary64).maxQ : ℝ) : EReal) := Hw.val_fin _ Format.maxQ_rep
  rcases D_cases a with e | e | e | e
  · exact absurd e h.1
  · have := h.2
    rw [e, val_dPinf, top_le_iff] at this
    exact absurd this (EReal.coe_ne_top _)
  · rw [e, val_dNinf]; exact bot_le
  · obtain ⟨q, hq, e⟩ := finD_iff.1 e
    have e2 : val a = ((q : ℝ) : EReal) := by rw [e]; exact Hw.val_fin q hq
    rw [hm, e2, EReal.coe_le_coe_iff]
    exact_mod_cast (le_abs_self q).trans hq.abs_le

theorem deltaOk_max (v : ℝ) : DeltaOk Rop.maxv v := fun a ha h => by
  rw [lt_iff] at h
  exact absurd (le_maxv ha) (not_le.2 h.2.2)

theorem deltaOk_improve {delta t : D} {v w : ℝ} (h : DeltaOk delta v) (hle : v ≤ w) (ht : Hi t w) : DeltaOk (improve t delta) v := by
  unfold improve
  split_ifs
  · intro a ha hlt
    rw [lt_iff] at hlt
    have : val a ≤ (v : EReal) := ha.2
    exact absurd (this.trans ((EReal.coe_le_coe_iff.2 hle).trans ht.2)) (not_le.2 hlt.2.2)
  · exact h

section
variable {P : SProg n} {dom : (Fin n → ℝ) → Prop} {f : (Fin n → ℝ) → ℝ} {init I fdi : Vec n (Interval D)} {z : Fin n → ℝ} {delta : D}

/-- the test with the derivatives never discards a minimiser -/
theorem slope_ok (hz : IsMin dom f init z) (hzI : InB I z) (hI : BdB I) (hi : BdB init) (hs : ∀ x, InB I x → InB init x)
    (hd : ∀ᶠ y in nhds z, dom y) {g : Fin n → ℝ} (hg : ∀ j, g j ∈ fdi j) (hder : HasFDerivAt f (lin g) z) : slope init I fdi = false := by
  by_contra hc
  rw [Bool.not_eq_false] at hc
  unfold slope at hc
  obtain ⟨i, -, hc⟩ := List.any_eq_true.1 hc
  have hsub : dbl (init i).inf ≤ dbl (I i).inf ∧ dbl (I i).sup ≤ dbl (init i).sup := by
    constructor
    · have : InB I (Function.update z i (dbl (I i).inf)) := fun j => by
        by_cases hj : j = i
        · subst hj; rw [Function.update_self]; exact (mem_of_bd (hI j).1).2 ⟨le_refl _, (hI j).1.le (hI j).2⟩
        · rw [Function.update_of_ne hj]; exact hzI j
      have := (mem_of_bd (hi i).1).1 (hs _ this i)
      rw [Function.update_self] at this; exact this.1
    · have : InB I (Function.update z i (dbl (I i).sup)) := fun j => by
        by_cases hj : j = i
        · subst hj; rw [Function.update_self]; exact (mem_of_bd (hI j).1).2 ⟨(hI j).1.le (hI j).2, le_refl _⟩
        · rw [Function.update_of_ne hj]; exact hzI j
      have := (mem_of_bd (hi i).1).1 (hs _ this i)
      rw [Function.update_self] at this; exact this.2
  have hzi := (mem_of_bd (hI i).1).1 (hzI i)
  have hzn := (mem_of_bd (hi i).1).1 (hs z hzI i)
  have ne : ∀ {a b : D}, FinD a → FinD b → (!Rop.eq a b) = true → dbl a ≠ dbl b := by
    intro a b ha hb h e
    rw [Bool.not_eq_true', ← Bool.not_eq_true] at h
    refine h ((eq_iff _ _).2 ⟨(is_dbl' ha).1, (is_dbl' hb).1, ?_⟩)
    rw [(is_dbl' ha).2, (is_dbl' hb).2, e]
  -- a direction of descent inside the initial box
  have key : ∀ s : ℝ, s * g i < 0 → (∀ᶠ t in nhdsWithin (0 : ℝ) (Set.Ioi 0), dbl (init i).inf ≤ z i + t * s ∧ z i + t * s ≤ dbl (init i).sup) → False := by
    intro s hs1 hs2
    set v : Fin n → ℝ := Pi.single i s with hv
    have hL : lin g v < 0 := by
      rw [lin_apply, Finset.sum_eq_single i]
      · rw [hv, Pi.single_eq_same, mul_comm]; exact hs1
      · intro j _ hj; rw [hv, Pi.single_eq_of_ne hj, mul_zero]
      · intro h; exact absurd (Finset.mem_univ i) h
    have e1 := descent hder hL
    have hcont : Filter.Tendsto (fun t : ℝ => z + t • v) (nhdsWithin (0 : ℝ) (Set.Ioi 0)) (nhds z) := by
      have : Continuous fun t : ℝ => z + t • v := by fun_prop
      have h := this.tendsto 0
      simp only [zero_smul, add_zero] at h
      exact h.mono_left nhdsWithin_le_nhds
    have e2 := hcont.eventually hd
    obtain ⟨t, h1, h2, h3⟩ := (e1.and (e2.and hs2)).exists
    refine absurd (hz.2.2 _ (fun j => ?_) h2) (not_le.2 h1)
    by_cases hj : j = i
    · subst hj
      refine (mem_of_bd (hi j).1).2 ?_
      rw [Pi.add_apply, Pi.smul_apply, hv, Pi.single_eq_same, smul_eq_mul]; exact h3
    · rw [Pi.add_apply, Pi.smul_apply, hv, Pi.single_eq_of_ne hj, smul_zero, add_zero]; exact hz.1 j
  rw [Bool.or_eq_true, Bool.and_eq_true, Bool.and_eq_true] at hc
  rcases hc with ⟨h1, h2⟩ | ⟨h1, h2⟩
  · have h3 : dbl (init i).inf < dbl (I i).inf := lt_of_le_of_ne hsub.1 (ne (hI i).1.1 (hi i).1.1 h2).symm
    have h4 : 0 < g i := by
      unfold gtIS at h1
      rw [lt_iff] at h1
      have h5 := h1.2.2.trans_le (hg i).1.2
      rw [is_zero.2] at h5
      exact EReal.coe_lt_coe_iff.1 h5
    refine key (-1) (by linarith) ?_
    have : (0 : ℝ) < z i - dbl (init i).inf := by linarith [hzi.1]
    filter_upwards [Ioo_mem_nhdsGT this] with t ht
    constructor <;> linarith [ht.1, ht.2, hzn.2]
  · have h3 : dbl (I i).sup < dbl (init i).sup := lt_of_le_of_ne hsub.2 (ne (hI i).1.2 (hi i).1.2 h2)
    have h4 : g i < 0 := by
      unfold ltIS at h1
      rw [lt_iff] at h1
      have h5 := lt_of_le_of_lt (hg i).2.2 h1.2.2
      rw [is_zero.2] at h5
      exact EReal.coe_lt_coe_iff.1 h5
    refine key 1 (by linarith) ?_
    have : (0 : ℝ) < dbl (init i).sup - z i := by linarith [hzi.2]
    filter_upwards [Ioo_mem_nhdsGT this] with t ht
    constructor <;> linarith [ht.1, ht.2, hzn.1]

theorem corner_mem (hI : BdB I) (fdi : Vec n (Interval D)) : ∃ c : Fin n → ℝ, InB (corner I fdi) c ∧ InB I c := by
  have : ∀ i, ∃ c : ℝ, c ∈ corner I fdi i ∧ c ∈ I i := fun i => by
    have hm := mid_bd (hI i).1 (hI i).2
    have hle := (hI i).1.le (hI i).2
    unfold corner
    dsimp only
    split_ifs
    · exact ⟨_, point_mem (is_dbl' (hI i).1.1), (mem_of_bd (hI i).1).2 ⟨le_refl _, hle⟩⟩
    · exact ⟨_, point_mem (is_dbl' (hI i).1.2), (mem_of_bd (hI i).1).2 ⟨hle, le_refl _⟩⟩
    · exact ⟨_, point_mem (is_dbl' hm.1), hm.2⟩
  choose c h1 h2 using this
  exact ⟨c, h1, h2⟩

/-- the tests: a minimiser is not discarded, and `delta` stays correct -/
theorem examine_ok (hP : P.Sound dom f) (hi : BdB init) (hI : BdB I) (hs : ∀ x, InB I x → InB init x) (hz : IsMin dom f init z)
    (hdel : DeltaOk delta (f z)) {r : Option (Bool × D)} (h : examine P init delta I = .ok r) :
    (InB I z → r ≠ none) ∧ ∀ e delta', r = some (e, delta') → DeltaOk delta' (f z) := by
  have keep : ∀ {delta' e}, DeltaOk delta' (f z) → r = some (e, delta') → (InB I z → r ≠ none) ∧ ∀ e delta', r = some (e, delta') → DeltaOk delta' (f z) := by
    intro delta' e hd hr
    refine ⟨fun _ => by rw [hr]; simp, fun e' d' h => ?_⟩
    rw [hr] at h; cases h; exact hd
  have drop : (InB I z → False) → r = none → (InB I z → r ≠ none) ∧ ∀ e delta', r = some (e, delta') → DeltaOk delta' (f z) := by
    intro hn hr
    refine ⟨fun h => (hn h).elim, fun e' d' h => ?_⟩
    rw [hr] at h; cases h
  unfold examine at h
  obtain ⟨a, ha, h⟩ := bind_ok.1 h
  match a, ha, h with
  | none, ha, h => cases h; exact keep hdel rfl
  | some fi, ha, h =>
    have hfi := Kraw.catchDom_some.1 ha
    simp only at h
    by_cases c1 : Rop.lt delta fi.inf = true
    · rw [if_pos c1] at h; cases h
      exact drop (fun hzI => hdel _ (hP.val hfi hzI hz.2.1).1 c1) rfl
    · rw [if_neg c1] at h
      obtain ⟨b, hb, h⟩ := bind_ok.1 h
      match b, hb, h with
      | none, hb, h => cases h; exact keep hdel rfl
      | some (fc, fdi), hb, h =>
        obtain ⟨fc', hfc, hb⟩ := bind_ok.1 (Kraw.catchDom_some.1 hb)
        obtain ⟨⟨fi2, J2⟩, hJ, hb⟩ := bind_ok.1 hb
        obtain ⟨rfl, rfl⟩ : fc = fc' ∧ fdi = J2 := by injection hb with hb; injection hb with h1 h2; exact ⟨h1.symm, h2.symm⟩
        simp only at h
        have hm := fun i => mid_bd (hI i).1 (hI i).2
        have hpt : ∀ i, dbl (mid (I i)) ∈ pointV (midV I) i := fun i => point_mem (is_dbl' (hm i).1)
        have hcd := (hP.der hJ fun i => (hm i).2).1.self_of_nhds
        have hf := hP.val hfc hpt hcd
        by_cases c2 : Rop.lt delta (Interval.add fc (sumI fun j => Interval.mul (fdi j) (Interval.sub (I j) (pointV (midV I) j)))).inf = true
        · rw [if_pos c2] at h; cases h
          refine drop (fun hzI => hdel _ ?_ c2) rfl
          obtain ⟨g, hg, e⟩ := s_mvt (S := fun i => {x : ℝ | x ∈ I i}) (Q := fun g => ∀ j, g j ∈ fdi j) (f := f) (fun i => Kraw.ordConnected_mem (I i))
            (fun x hx => (hP.der hJ hx).2.2) (x := z) (y := fun i => dbl (mid (I i))) hzI (fun i => (hm i).2)
          have h1 := add_mem hf (sumI_mem fun j => mul_mem (hg j) (sub_mem (hzI j) (hpt j)))
          rw [← e] at h1
          have h2 : f z ∈ Interval.add fc (sumI fun j => Interval.mul (fdi j) (Interval.sub (I j) (pointV (midV I) j))) := by
            rw [show f z = f (fun i => dbl (mid (I i))) + (f z - f (fun i => dbl (mid (I i)))) by ring]; exact h1
          exact h2.1
        · rw [if_neg c2] at h
          by_cases c3 : slope init I fdi = true
          · rw [if_pos c3] at h; cases h
            refine drop (fun hzI => ?_) rfl
            obtain ⟨hd, -, g, hg, hder⟩ := hP.der hJ hzI
            rw [slope_ok hz hzI hI hi hs hd hg hder] at c3; cases c3
          · rw [if_neg c3] at h
            have hd1 := deltaOk_improve hdel (hz.2.2 _ (hs _ fun i => (hm i).2) hcd) hf.2
            obtain ⟨b, hb, h⟩ := bind_ok.1 h
            match b, hb, h with
            | none, hb, h => cases h; exact keep hd1 rfl
            | some fc2, hb, h =>
              cases h
              obtain ⟨c, k1, k2⟩ := corner_mem hI fdi
              have hcd2 := (hP.der hJ k2).1.self_of_nhds
              exact keep (deltaOk_improve hd1 (hz.2.2 _ (hs _ k2) hcd2) (hP.val (Kraw.catchDom_some.1 hb) k1 hcd2).2) rfl

/-- the same for `optimize_nd`, where the function has to be defined on the whole box -/
theorem examineNd_ok (hP : ∀ {X Y x}, P.F X = .ok Y → (∀ i, x i ∈ X i) → dom x → f x ∈ Y) (hdom : ∀ x, InB init x → dom x) (hI : BdB I)
    (hs : ∀ x, InB I x → InB init x) (hz : IsMin dom f init z)
    (hdel : DeltaOk delta (f z)) {r : Option (Bool × D)} (h : examineNd P delta I = .ok r) :
    (InB I z → r ≠ none) ∧ ∀ e delta', r = some (e, delta') → DeltaOk delta' (f z) := by
  have keep : ∀ {delta' e}, DeltaOk delta' (f z) → r = some (e, delta') → (InB I z → r ≠ none) ∧ ∀ e delta', r = some (e, delta') → DeltaOk delta' (f z) := by
    intro delta' e hd hr
    refine ⟨fun _ => by rw [hr]; simp, fun e' d' h => ?_⟩
    rw [hr] at h; cases h; exact hd
  unfold examineNd at h
  obtain ⟨a, ha, h⟩ := bind_ok.1 h
  match a, ha, h with
  | none, ha, h => cases h; exact keep hdel rfl
  | some fi, ha, h =>
    have hfi := Kraw.catchDom_some.1 ha
    simp only at h
    by_cases c1 : Rop.lt delta fi.inf = true
    · rw [if_pos c1] at h; cases h
      exact ⟨fun hzI _ => hdel _ (hP hfi hzI hz.2.1).1 c1, fun e d h => by cases h⟩
    · rw [if_neg c1] at h
      obtain ⟨b, hb, h⟩ := bind_ok.1 h
      match b, hb, h with
      | none, hb, h => cases h; exact keep hdel rfl
      | some fc, hb, h =>
        cases h
        have hm := fun i => mid_bd (hI i).1 (hI i).2
        have hin := hs _ fun i => (hm i).2
        exact keep (deltaOk_improve hdel (hz.2.2 _ hin (hdom _ hin)) (hP (Kraw.catchDom_some.1 hb) (fun i => point_mem (is_dbl' (hm i).1)) (hdom _ hin)).2) rfl
end

/-! ## the list of solutions -/

/-- a box inside the initial box -/
def Ok (init B : Vec n (Interval D)) : Prop := BdB B ∧ ∀ x, InB B x → InB init x

theorem hullV_mem {I p : Vec n (Interval D)} (hI : BdB I) (hp : BdB p) {x : Fin n → ℝ} (h : InB I x ∨ InB p x) : InB (hullV I p) x := fun i =>
  C07_hull_contains (hI i).2 (hp i).2 (h.imp (· i) (· i))

/-- subset per component -/
theorem sub_comp {B init : Vec n (Interval D)} (hB : BdB B) (h : ∀ x, InB B x → InB init x) (i : Fin n) (x : ℝ) (hx : x ∈ B i) : x ∈ init i := by
  choose c hc using fun i => (hB i).2
  have : InB B (Function.update c i x) := fun j => by
    by_cases hj : j = i
    · subst hj; rw [Function.update_self]; exact hx
    · rw [Function.update_of_ne hj]; exact hc j
  have := h _ this i
  rwa [Function.update_self] at this

theorem hullV_ok {init I p : Vec n (Interval D)} (hi : BdB init) (hI : Ok init I) (hp : Ok init p) : Ok init (hullV I p) := by
  have hsub : ∀ i (x : ℝ), x ∈ hullV I p i → x ∈ init i := fun i x hx =>
    C07_hull_least (hI.1 i).2 (hp.1 i).2 (sub_comp hI.1 hI.2 i) (sub_comp hp.1 hp.2 i) hx
  have hne : ∀ i, (hullV I p i).Nonempty := fun i => by
    obtain ⟨x, hx⟩ := (hI.1 i).2
    exact ⟨x, C07_hull_contains (hI.1 i).2 (hp.1 i).2 (.inl hx)⟩
  exact ⟨fun i => ⟨bd_of_sub (hi i).1 (hne i) (hsub i), hne i⟩, fun x hx i => hsub i _ (hx i)⟩

theorem sweep_ok {init : Vec n (Interval D)} (hi : BdB init) : ∀ {l : List (Vec n (Interval D))} {I : Vec n (Interval D)}, Ok init I → (∀ p ∈ l, Ok init p) →
    Ok init (sweep I l).1 ∧ (∀ p ∈ (sweep I l).2.1, p ∈ l) ∧ (sweep I l).2.1.Sublist l ∧
    (∀ x, (InB I x ∨ ∃ p ∈ l, InB p x) → InB (sweep I l).1 x ∨ ∃ p ∈ (sweep I l).2.1, InB p x) ∧
    ((sweep I l).2.2 = false → (∀ p ∈ (sweep I l).2.1, overlapV p (sweep I l).1 = false)) ∧
    ((sweep I l).2.2 = false → (sweep I l).1 = I) ∧
    ((sweep I l).2.2 = true → (sweep I l).2.1.length < l.length)
  | [], I, hI, _ => by
    refine ⟨hI, fun p hp => hp, List.Sublist.refl _, fun x hx => ?_, fun _ p hp => (by cases hp), fun _ => rfl, fun h => by cases h⟩
    rcases hx with hx | ⟨p, hp, -⟩
    · exact .inl hx
    · cases hp
  | p :: l, I, hI, hl => by
    have hp := hl p (by simp)
    have hl' : ∀ q ∈ l, Ok init q := fun q hq => hl q (by simp [hq])
    unfold sweep
    by_cases c : overlapV p I = true
    · rw [if_pos c]
      obtain ⟨a1, a2, a3, a4, a5, a6, a7⟩ := sweep_ok hi (hullV_ok hi hI hp) hl'
      refine ⟨a1, fun q hq => by simp [a2 q hq], a3.cons _, fun x hx => a4 x ?_, fun h => (by cases h), fun h => (by cases h), fun _ => ?_⟩
      · rcases hx with hx | ⟨q, hq, hx⟩
        · exact .inl (hullV_mem hI.1 hp.1 (.inl hx))
        · rcases List.mem_cons.1 hq with rfl | hq
          · exact .inl (hullV_mem hI.1 hp.1 (.inr hx))
          · exact .inr ⟨q, hq, hx⟩
      · simpa using Nat.lt_succ_of_le a3.length_le
    · rw [if_neg c]
      obtain ⟨a1, a2, a3, a4, a5, a6, a7⟩ := sweep_ok hi hI hl'
      refine ⟨a1, fun q hq => ?_, a3.cons_cons _, fun x hx => ?_, fun h q hq => ?_, a6, fun h => ?_⟩
      · rcases List.mem_cons.1 hq with rfl | hq
        · simp
        · simp [a2 q hq]
      · rcases hx with hx | ⟨q, hq, hx⟩
        · rcases a4 x (.inl hx) with h | ⟨q, hq, h⟩
          · exact .inl h
          · exact .inr ⟨q, by simp [hq], h⟩
        · rcases List.mem_cons.1 hq with rfl | hq
          · exact .inr ⟨q, by simp, hx⟩
          · rcases a4 x (.inr ⟨q, hq, hx⟩) with h | ⟨q, hq, h⟩
            · exact .inl h
            · exact .inr ⟨q, by simp [hq], h⟩
      · rcases List.mem_cons.1 hq with rfl | hq
        · have h' : (sweep I l).1 = I := a6 h
          show overlapV q (sweep I l).1 = false
          rw [h', ← Bool.not_eq_true]; exact c
        · exact a5 h q hq
      · simpa using a7 h

/-- pairwise no overlap -/
def Apart (l : List (Vec n (Interval D))) : Prop := l.Pairwise fun p q => overlapV p q = false

theorem unify_ok {init : Vec n (Interval D)} (hi : BdB init) : ∀ {k : ℕ} {l : List (Vec n (Interval D))} {I : Vec n (Interval D)},
    Ok init I → (∀ p ∈ l, Ok init p) →
    Ok init (unify k I l).1 ∧ (unify k I l).2.Sublist l ∧
    (∀ x, (InB I x ∨ ∃ p ∈ l, InB p x) → InB (unify k I l).1 x ∨ ∃ p ∈ (unify k I l).2, InB p x) ∧
    (l.length < k → ∀ p ∈ (unify k I l).2, overlapV p (unify k I l).1 = false)
  | 0, l, I, hI, hl => ⟨hI, List.Sublist.refl _, fun _ hx => hx, fun h => absurd h (by simp)⟩
  | k + 1, l, I, hI, hl => by
    obtain ⟨a1, a2, a3, a4, a5, a6, a7⟩ := sweep_ok hi hI hl
    unfold unify
    dsimp only
    by_cases c : (sweep I l).2.2 = true
    · rw [if_pos c]
      obtain ⟨b1, b2, b3, b4⟩ := unify_ok (k := k) hi a1 fun p hp => hl p (a2 p hp)
      exact ⟨b1, b2.trans a3, fun x hx => b3 x (a4 x hx), fun h => b4 (by have := a7 c; omega)⟩
    · rw [if_neg c]
      rw [Bool.not_eq_true] at c
      exact ⟨a1, a3, a4, fun _ => a5 c⟩

theorem accept_ok {init : Vec n (Interval D)} (hi : BdB init) {uni : Bool} {l : List (Vec n (Interval D))} {I : Vec n (Interval D)}
    (hI : Ok init I) (hl : ∀ p ∈ l, Ok init p) :
    (∀ p ∈ accept uni I l, Ok init p) ∧ (∀ x, (InB I x ∨ ∃ p ∈ l, InB p x) → ∃ p ∈ accept uni I l, InB p x) ∧
    (uni = true → Apart l → Apart (accept uni I l)) := by
  unfold accept
  cases uni with
  | false =>
    rw [if_neg (by simp)]
    refine ⟨fun p hp => ?_, fun x hx => ?_, fun h => by cases h⟩
    · rcases List.mem_append.1 hp with hp | hp
      · exact hl p hp
      · rw [List.mem_singleton] at hp; rw [hp]; exact hI
    · rcases hx with hx | ⟨p, hp, hx⟩
      · exact ⟨I, by simp, hx⟩
      · exact ⟨p, by simp [hp], hx⟩
  | true =>
    rw [if_pos rfl]
    obtain ⟨b1, b2, b3, b4⟩ := unify_ok (k := l.length + 1) hi hI hl
    refine ⟨fun p hp => ?_, fun x hx => ?_, fun _ ha => ?_⟩
    · rcases List.mem_append.1 hp with hp | hp
      · exact hl p (b2.subset hp)
      · rw [List.mem_singleton] at hp; rw [hp]; exact b1
    · rcases b3 x hx with h | ⟨p, hp, h⟩
      · exact ⟨_, by simp, h⟩
      · exact ⟨p, by simp [hp], h⟩
    · refine List.pairwise_append.2 ⟨ha.sublist b2, List.pairwise_singleton _ _, fun p hp q hq => ?_⟩
      rw [List.mem_singleton] at hq
      rw [hq]
      exact b4 (by omega) p hp

theorem maxWidth_ge {B : Vec n (Interval D)} {limit : D} {mi : Option (Fin n)} (h : Rop.lt (maxWidth mi B).1 limit = true) (hB : BdB B) (i : Fin n) :
    Rop.lt (width (B i)) limit = true := by
  have key : ∀ (l : List (Fin n)) (s : D × Option (Fin n)), ¬ nan s.1 →
      ¬ nan (l.foldl (fun (s : D × Option (Fin n)) i => if Rop.lt s.1 (width (B i)) then (width (B i), some i) else s) s).1 ∧
      val s.1 ≤ val (l.foldl (fun (s : D × Option (Fin n)) i => if Rop.lt s.1 (width (B i)) then (width (B i), some i) else s) s).1 ∧
      ∀ j ∈ l, ¬ nan (width (B j)) → val (width (B j)) ≤ val (l.foldl (fun (s : D × Option (Fin n)) i => if Rop.lt s.1 (width (B i)) then (width (B i), some i) else s) s).1 := by
    intro l
    induction l with
    | nil => intro s hs; exact ⟨hs, le_refl _, fun j hj => by cases hj⟩
    | cons a l ih =>
      intro s hs
      rw [List.foldl_cons]
      by_cases c : Rop.lt s.1 (width (B a)) = true
      · rw [if_pos c]
        rw [lt_iff] at c
        obtain ⟨h1, h2, h3⟩ := ih (width (B a), some a) c.2.1
        refine ⟨h1, c.2.2.le.trans h2, fun j hj hn => ?_⟩
        rcases List.mem_cons.1 hj with rfl | hj
        · exact h2
        · exact h3 j hj hn
      · rw [if_neg c]
        obtain ⟨h1, h2, h3⟩ := ih s hs
        refine ⟨h1, h2, fun j hj hn => ?_⟩
        rcases List.mem_cons.1 hj with rfl | hj
        · rw [lt_iff] at c
          exact (not_lt.1 fun h' => c ⟨hs, hn, h'⟩).trans h2
        · exact h3 j hj hn
  obtain ⟨h1, -, h3⟩ := key (List.finRange n) (lit 0, mi) is_zero.1
  have hw : ¬ nan (width (B i)) := by
    obtain ⟨x, hx⟩ := (hB i).2
    exact (C09_width hx hx).1
  rw [lt_iff] at h ⊢
  exact ⟨hw, h.2.1, lt_of_le_of_lt (h3 i (List.mem_finRange i) hw) h.2.2⟩

/-! ## the main loop -/

theorem finish_ok {init : Vec n (Interval D)} (hi : BdB init) {uni err : Bool} {limit delta : D} {rest sols : List (Vec n (Interval D))} {I : Vec n (Interval D)}
    {s : St n} {mi : Option (Fin n)} (hI : Ok init I) (hr : ∀ p ∈ rest, Ok init p) (hl : ∀ p ∈ sols, Ok init p) (h : finish uni limit rest sols mi I err delta = .ok s) :
    (∀ p ∈ s.targets, Ok init p) ∧ (∀ p ∈ s.solutions, Ok init p) ∧ s.delta = delta ∧
    (∀ x, (InB I x ∨ (∃ p ∈ rest, InB p x) ∨ ∃ p ∈ sols, InB p x) → (∃ p ∈ s.targets, InB p x) ∨ ∃ p ∈ s.solutions, InB p x) ∧
    (uni = true → Apart sols → Apart s.solutions) ∧
    (uni = false → ∀ p ∈ s.solutions, p ∈ sols ∨ ∀ i, Rop.lt (width (p i)) limit = true) := by
  unfold finish at h
  dsimp only at h
  by_cases c : (Rop.lt (maxWidth mi I).1 limit && !err) = true
  · rw [if_pos c] at h; cases h
    obtain ⟨a1, a2, a3⟩ := accept_ok (uni := uni) hi hI hl
    refine ⟨hr, a1, rfl, fun x hx => ?_, a3, fun hu p hp => ?_⟩
    · rcases hx with hx | hx | hx
      · exact .inr (a2 x (.inl hx))
      · exact .inl hx
      · exact .inr (a2 x (.inr hx))
    · rw [hu] at hp
      rcases List.mem_append.1 hp with hp | hp
      · exact .inl hp
      · rw [List.mem_singleton] at hp; rw [hp]; exact .inr (maxWidth_ge (Bool.and_eq_true _ _ ▸ c).1 hI.1)
  · rw [if_neg c] at h
    split at h
    · cases h
    · rename_i mi hmi
      cases h
      have hm := mid_bd (hI.1 mi).1 (hI.1 mi).2
      have im := is_dbl' hm.1
      have hmm := (mem_of_bd (hI.1 mi).1).1 hm.2
      have hb1 : Bd (⟨(I mi).inf, mid (I mi)⟩ : Interval D) := ⟨(hI.1 mi).1.1, hm.1⟩
      have hb2 : Bd (⟨mid (I mi), (I mi).sup⟩ : Interval D) := ⟨hm.1, (hI.1 mi).1.2⟩
      have okset : ∀ Z : Interval D, Bd Z → Z.Nonempty → (∀ x : ℝ, x ∈ Z → x ∈ I mi) → Ok init (AllsolSimple.setI I mi Z) := by
        intro Z h1 h2 h3
        refine ⟨fun i => ?_, fun x hx => hI.2 x fun i => ?_⟩
        · unfold AllsolSimple.setI; split_ifs
          · exact ⟨h1, h2⟩
          · exact hI.1 i
        · have := hx i
          unfold AllsolSimple.setI at this
          split_ifs at this with hi
          · rw [hi] at this ⊢; exact h3 _ this
          · exact this
      refine ⟨fun p hp => ?_, hl, rfl, fun x hx => ?_, fun _ h => h, fun _ p hp => .inl hp⟩
      · rcases List.mem_append.1 hp with hp | hp
        · exact hr p hp
        · simp only [List.mem_cons, List.not_mem_nil, or_false] at hp
          rcases hp with rfl | rfl
          · refine okset _ hb1 (hb1.nonempty hmm.1) fun x hx => ?_
            have := (mem_of_bd hb1).1 hx
            exact (mem_of_bd (hI.1 mi).1).2 ⟨this.1, this.2.trans hmm.2⟩
          · refine okset _ hb2 (hb2.nonempty hmm.2) fun x hx => ?_
            have := (mem_of_bd hb2).1 hx
            exact (mem_of_bd (hI.1 mi).1).2 ⟨hmm.1.trans this.1, this.2⟩
      · rcases hx with hx | ⟨p, hp, hx⟩ | hx
        · left
          rcases le_total (x mi) (dbl (mid (I mi))) with hle | hle
          · refine ⟨_, List.mem_append_right _ (List.mem_cons_self ..), fun i => ?_⟩
            unfold AllsolSimple.setI
            split_ifs with hi
            · rw [hi]; exact ⟨(hx mi).1, im.1, by rw [im.2]; exact EReal.coe_le_coe_iff.2 hle⟩
            · exact hx i
          · refine ⟨_, List.mem_append_right _ (List.mem_cons_of_mem _ (List.mem_cons_self ..)), fun i => ?_⟩
            unfold AllsolSimple.setI
            split_ifs with hi
            · rw [hi]; exact ⟨⟨im.1, by rw [im.2]; exact EReal.coe_le_coe_iff.2 hle⟩, (hx mi).2⟩
            · exact hx i
        · exact .inl ⟨p, List.mem_append_left _ hp, hx⟩
        · exact .inr hx

/-- what the examination of a box has to guarantee for the minimisers `M` -/
def ExOk (ex : D → Vec n (Interval D) → Res (Option (Bool × D))) (init : Vec n (Interval D)) (v : ℝ) (z : Fin n → ℝ) : Prop :=
  ∀ {I delta r}, Ok init I → DeltaOk delta v → ex delta I = .ok r →
    (InB I z → r ≠ none) ∧ ∀ e delta', r = some (e, delta') → DeltaOk delta' v

theorem loop_ok {init : Vec n (Interval D)} (hi : BdB init) {ex : D → Vec n (Interval D) → Res (Option (Bool × D))} {uni : Bool} {limit : D} :
    ∀ {k : ℕ} {s t : St n}, (∀ p ∈ s.targets, Ok init p) → (∀ p ∈ s.solutions, Ok init p) → loop ex uni limit k s = .ok t →
    (∀ p ∈ t.solutions, Ok init p) ∧ (uni = true → Apart s.solutions → Apart t.solutions) ∧
    (uni = false → (∀ p ∈ s.solutions, ∀ i, Rop.lt (width (p i)) limit = true) → ∀ p ∈ t.solutions, ∀ i, Rop.lt (width (p i)) limit = true) ∧
    ∀ v z, ExOk ex init v z → DeltaOk s.delta v → ((∃ p ∈ s.targets, InB p z) ∨ ∃ p ∈ s.solutions, InB p z) → ∃ p ∈ t.solutions, InB p z := by
  intro k
  induction k with
  | zero =>
    rintro ⟨tg, so, de, mi⟩ t hg hs h
    rw [loop.eq_def] at h
    cases tg with
    | nil =>
      cases h
      refine ⟨hs, fun _ h => h, fun _ h => h, fun v z _ _ hz => ?_⟩
      rcases hz with ⟨p, hp, -⟩ | hz
      · cases hp
      · exact hz
    | cons I rest => cases h
  | succ k ih =>
    rintro ⟨tg, so, de, mi⟩ t hg hs h
    rw [loop.eq_def] at h
    cases tg with
    | nil =>
      cases h
      refine ⟨hs, fun _ h => h, fun _ h => h, fun v z _ _ hz => ?_⟩
      rcases hz with ⟨p, hp, -⟩ | hz
      · cases hp
      · exact hz
    | cons I rest =>
      simp only at h
      obtain ⟨r, hr, h⟩ := bind_ok.1 h
      have hI := hg I (by simp)
      have hrest : ∀ p ∈ rest, Ok init p := fun p hp => hg p (by simp [hp])
      match r, hr, h with
      | none, hr, h =>
        obtain ⟨t1, t2, t3, t4⟩ := ih (s := ⟨rest, so, de, mi⟩) hrest hs h
        refine ⟨t1, t2, t3, fun v z hex hde hz => t4 v z hex hde ?_⟩
        rcases hz with ⟨p, hp, hz⟩ | hz
        · rcases List.mem_cons.1 hp with rfl | hp
          · exact absurd rfl ((hex hI hde hr).1 hz)
          · exact .inl ⟨p, hp, hz⟩
        · exact .inr hz
      | some (err, delta), hr, h =>
        obtain ⟨s', hs', h⟩ := bind_ok.1 h
        obtain ⟨f1, f2, f3, f4, f5, f6⟩ := finish_ok hi hI hrest hs hs'
        obtain ⟨t1, t2, t3, t4⟩ := ih f1 f2 h
        refine ⟨t1, fun hu ha => t2 hu (f5 hu ha), fun hu hw => t3 hu fun p hp => ?_, fun v z hex hde hz => t4 v z hex ?_ (f4 z ?_)⟩
        · rcases f6 hu p hp with h | h
          · exact hw p h
          · exact h
        · rw [f3]; exact (hex hI hde hr).2 _ _ rfl
        · rcases hz with ⟨p, hp, hz⟩ | hz
          · rcases List.mem_cons.1 hp with rfl | hp
            · exact .inl hz
            · exact .inr (.inl ⟨p, hp, hz⟩)
          · exact .inr (.inr hz)

theorem lo_min {c d : D} {v : ℝ} (hcd : Lo c v ∨ Lo d v) (hd : ¬ nan d) : Lo (if Rop.lt c d = true then c else d) v := by
  split_ifs with h
  · rw [lt_iff] at h
    rcases hcd with hc | hd
    · exact hc
    · exact ⟨h.1, h.2.2.le.trans hd.2⟩
  · rcases hcd with hc | hd
    · rw [lt_iff] at h
      exact ⟨hd, (not_lt.1 fun h' => h ⟨hc.1, hd, h'⟩).trans hc.2⟩
    · exact hd

theorem values_ok {P : SProg n} {v : ℝ} : ∀ {l : List (Vec n (Interval D))} {a b : D} {Z : Interval D}, values P l a b = .ok Z →
    (∀ p ∈ l, ∀ Y, P.F p = .ok Y → Hi Y.sup v) → Hi b v → ¬ nan a → (Lo a v ∨ ∃ p ∈ l, ∀ Y, P.F p = .ok Y → Lo Y.inf v) → v ∈ Z
  | [], a, b, Z, h, _, hb, _, ha => by
    cases h
    rcases ha with ha | ⟨p, hp, -⟩
    · exact ⟨ha, hb⟩
    · cases hp
  | p :: l, a, b, Z, h, hu, hb, hn, ha => by
    rw [values] at h
    obtain ⟨Y, hY, h⟩ := bind_ok.1 h
    refine values_ok h (fun q hq => hu q (by simp [hq])) ?_ ?_ ?_
    · split_ifs
      · exact hu p (by simp) Y hY
      · exact hb
    · split_ifs with h
      · rw [lt_iff] at h; exact h.1
      · exact hn
    · rcases ha with ha | ⟨q, hq, ha⟩
      · exact .inl (lo_min (.inr ha) hn)
      · rcases List.mem_cons.1 hq with rfl | hq
        · exact .inl (lo_min (.inl (ha Y hY)) hn)
        · exact .inr ⟨q, hq, ha⟩

end Optimize
end Kv
