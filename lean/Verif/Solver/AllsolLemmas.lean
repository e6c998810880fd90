import Verif.Solver.AllsolSimple
import Verif.Solver.KrawLemmas
import Verif.Props.Optimal

/-! # All-solutions search: helper lemmas -/

namespace Kv
open RopSem Kv.Interval
open Rop (lit)
open LA

variable {n : ℕ}

/-- the point `x` lies in the box `B` -/
def InB (B : Vec n (Interval D)) (x : Fin n → ℝ) : Prop := ∀ i, x i ∈ B i

/-- a nonempty interval whose width does not overflow -/
def Good (Z : Interval D) : Prop := FinD (width Z) ∧ Z.Nonempty

def GoodB (B : Vec n (Interval D)) : Prop := ∀ i, Good (B i)

theorem Good.bd {Z : Interval D} (h : Good Z) : Bd Z := (subUp_fin h.1).symm

theorem Good.le {Z : Interval D} (h : Good Z) : dbl Z.inf ≤ dbl Z.sup := by
  obtain ⟨x, hx⟩ := h.2
  have := (mem_of_bd h.bd).1 hx
  linarith

theorem Bd.le {Z : Interval D} (h : Bd Z) (hn : Z.Nonempty) : dbl Z.inf ≤ dbl Z.sup := by
  obtain ⟨x, hx⟩ := hn
  have := (mem_of_bd h).1 hx
  linarith

theorem Bd.nonempty {Z : Interval D} (h : Bd Z) (hle : dbl Z.inf ≤ dbl Z.sup) : Z.Nonempty :=
  ⟨_, (mem_of_bd h).2 ⟨le_refl _, hle⟩⟩

theorem width_fin_of_le {Z : Interval D} (h : Bd Z) {a : D} (ha : FinD a) (hle : dbl Z.sup - dbl Z.inf ≤ dbl a) :
    FinD (width Z) := by
  have i1 := is_dbl' h.1
  have i2 := is_dbl' h.2
  have ia := is_dbl' ha
  obtain ⟨u1, u2, u3⟩ := Fl.sub_up_isUp (F := binary64) (x := Z.sup) (y := Z.inf) i2.1 i1.1
    (fun hh => EReal.coe_ne_top _ (i2.2.symm.trans hh.1)) (fun hh => EReal.coe_ne_bot _ (i2.2.symm.trans hh.1))
  have e1 : Fl.toE (F := binary64) Z.sup = (dbl Z.sup : ℝ) := i2.2
  have e2 : Fl.toE (F := binary64) Z.inf = (dbl Z.inf : ℝ) := i1.2
  have e3 : Fl.toE (F := binary64) a = (dbl a : ℝ) := ia.2
  have u4 := u3 a ia.1 (by rw [e1, e2, e3, ← EReal.coe_sub]; exact EReal.coe_le_coe_iff.2 hle)
  rw [e3] at u4
  rw [e1, e2, ← EReal.coe_sub] at u2
  rcases D_cases (width Z) with hw | hw | hw | hw
  · exact absurd hw u1
  · exact absurd (u4.trans_lt (EReal.coe_lt_top _)) (by
      have : Fl.toE (F := binary64) (Fl.sub .up Z.sup Z.inf) = ⊤ := by rw [show Fl.sub (F := binary64) .up Z.sup Z.inf = dPinf from hw]; rfl
      rw [this]; exact lt_irrefl _)
  · exact absurd ((EReal.bot_lt_coe _).trans_le u2) (by
      have : Fl.toE (F := binary64) (Fl.sub .up Z.sup Z.inf) = ⊥ := by rw [show Fl.sub (F := binary64) .up Z.sup Z.inf = dNinf from hw]; rfl
      rw [this]; exact lt_irrefl _)
  · exact hw

theorem width_val {Z : Interval D} (h : Good Z) : dbl Z.sup - dbl Z.inf ≤ dbl (width Z) := by
  have hb := h.bd
  have := C09_width (X := Z) ((mem_of_bd hb).2 ⟨h.le, le_refl _⟩) ((mem_of_bd hb).2 ⟨le_refl _, h.le⟩)
  have h2 := this.2
  rw [(is_dbl' h.1).2, EReal.coe_le_coe_iff] at h2
  exact (le_abs_self _).trans h2

theorem Good.mono {Z W : Interval D} (h : Good Z) (hb : Bd W) (h0 : dbl W.inf ≤ dbl W.sup) (h1 : dbl Z.inf ≤ dbl W.inf)
    (h2 : dbl W.sup ≤ dbl Z.sup) : Good W :=
  ⟨width_fin_of_le hb h.1 (by have := width_val h; linarith), hb.nonempty h0⟩

theorem mid_bd {Z : Interval D} (h : Bd Z) (hn : Z.Nonempty) : FinD (mid Z) ∧ dbl (mid Z) ∈ Z := by
  obtain ⟨a, ha, e1⟩ := finD_iff.1 h.1
  obtain ⟨b, hb, e2⟩ := finD_iff.1 h.2
  have d1 : dbl Z.inf = (a : ℝ) := is_dbl ⟨by rw [e1]; exact Hw.not_nan_fin a ha, by rw [e1]; exact Hw.val_fin a ha⟩
  have d2 : dbl Z.sup = (b : ℝ) := is_dbl ⟨by rw [e2]; exact Hw.not_nan_fin b hb, by rw [e2]; exact Hw.val_fin b hb⟩
  have hle := h.le hn
  rw [d1, d2] at hle
  have e : Z = Hw.ivl a b ha hb := by
    cases Z; simp only at e1 e2; rw [e1, e2]; rfl
  obtain ⟨m, hm, e3, h1, h2⟩ := C08_mid (ha := ha) (hb := hb) (by exact_mod_cast hle)
  rw [← e] at e3
  refine ⟨by rw [e3]; exact finD_fin, ?_⟩
  have d3 : dbl (mid Z) = (m : ℝ) := is_dbl ⟨by rw [e3]; exact Hw.not_nan_fin m hm, by rw [e3]; exact Hw.val_fin m hm⟩
  rw [d3, mem_of_bd h, d1, d2]
  exact ⟨by exact_mod_cast h1, by exact_mod_cast h2⟩

theorem bd_of_sub {K L : Interval D} (hK : Bd K) (hn : L.Nonempty) (hs : ∀ x : ℝ, x ∈ L → x ∈ K) : Bd L := by
  have h := (C07_subset hn).2 hs
  unfold Interval.subset at h
  rw [Bool.and_eq_true, le_iff, le_iff] at h
  obtain ⟨n1, n2, n3, n4, -⟩ := hn.not_nan
  constructor
  · rcases D_cases L.inf with h' | h' | h' | h'
    · exact absurd h' n1
    · rw [h', val_dPinf] at n3; exact absurd rfl n3
    · have := h.1.2.2
      rw [h', val_dNinf, (is_dbl' hK.1).2] at this
      exact absurd (le_bot_iff.1 this) (EReal.coe_ne_bot _)
    · exact h'
  · rcases D_cases L.sup with h' | h' | h' | h'
    · exact absurd h' n2
    · have := h.2.2.2
      rw [h', val_dPinf, (is_dbl' hK.2).2] at this
      exact absurd (top_le_iff.1 this) (EReal.coe_ne_top _)
    · rw [h', val_dNinf] at n4; exact absurd rfl n4
    · exact h'

theorem properSubset_sub {K I : Interval D} (h : properSubset K I = true) {x : ℝ} (hx : x ∈ K) : x ∈ I := by
  obtain ⟨⟨n1, n2, n3, n4⟩, l1, l2, -⟩ := properSubset_iff.1 h
  exact ⟨⟨n3, l1.trans hx.1.2⟩, n4, hx.2.2.trans l2⟩

theorem subset_sub {K I : Interval D} (h : Interval.subset K I = true) {x : ℝ} (hx : x ∈ K) : x ∈ I := by
  unfold Interval.subset at h
  rw [Bool.and_eq_true, le_iff, le_iff] at h
  exact ⟨⟨h.1.1, h.1.2.2.trans hx.1.2⟩, h.2.2.1, hx.2.2.trans h.2.2.2⟩

/-- `overlap` of anything with a good interval: both contain a common point -/
theorem overlap_good {K I : Interval D} (hI : Bd I) (hn : I.Nonempty) (h : overlap K I = true) :
    ¬ nan K.inf ∧ ¬ nan K.sup ∧ Bd (intersect I K) ∧ (intersect I K).Nonempty ∧ ∀ x : ℝ, x ∈ intersect I K ↔ x ∈ I ∧ x ∈ K := by
  unfold overlap at h
  rw [le_iff] at h
  have nI := hn.not_nan
  have n1 : ¬ nan K.inf := by
    intro hk
    have : ¬ Rop.lt K.inf I.inf = true := by rw [lt_iff]; exact fun h => h.1 hk
    rw [if_neg this] at h; exact h.1 hk
  have n2 : ¬ nan K.sup := by
    intro hk
    have : ¬ Rop.lt I.sup K.sup = true := by rw [lt_iff]; exact fun h => h.2.1 hk
    rw [if_neg this] at h; exact h.2.1 hk
  have hm := fun x : ℝ => mem_intersect (x := x) ⟨nI.1, nI.2.1⟩ ⟨n1, n2⟩
  have hex : ∃ x : ℝ, x ∈ I ∧ x ∈ K := by
    obtain ⟨-, -, h3⟩ := h
    have i1 := is_dbl' hI.1
    have i2 := is_dbl' hI.2
    have hle := hI.le hn
    -- the larger lower end is a common point
    rw [show (if Rop.lt K.inf I.inf = true then I.inf else K.inf) = if val K.inf < val I.inf then I.inf else K.inf by
      simp only [lt_iff, n1, nI.1, not_false_iff, true_and]] at h3
    rw [show (if Rop.lt I.sup K.sup = true then I.sup else K.sup) = if val I.sup < val K.sup then I.sup else K.sup by
      simp only [lt_iff, n2, nI.2.1, not_false_iff, true_and]] at h3
    split_ifs at h3 with c1 c2 c2
    · exact ⟨dbl I.inf, (mem_of_bd hI).2 ⟨le_refl _, hle⟩, ⟨n1, by rw [← i1.2]; exact c1.le⟩, n2, by rw [← i1.2]; exact h3.trans c2.le⟩
    · exact ⟨dbl I.inf, (mem_of_bd hI).2 ⟨le_refl _, hle⟩, ⟨n1, by rw [← i1.2]; exact c1.le⟩, n2, by rw [← i1.2]; exact h3⟩
    · exact ⟨dbl I.sup, (mem_of_bd hI).2 ⟨hle, le_refl _⟩, ⟨n1, by rw [← i2.2]; exact h3⟩, n2, by rw [← i2.2]; exact c2.le⟩
    · rcases D_cases K.inf with h' | h' | h' | h'
      · exact absurd h' n1
      · rw [h', val_dPinf] at h3
        have := h3.trans (not_lt.1 c2)
        rw [i2.2] at this
        exact absurd (top_le_iff.1 this) (EReal.coe_ne_top _)
      · rw [h', val_dNinf, i1.2] at c1
        exact absurd (EReal.bot_lt_coe _) c1
      · have ik := is_dbl' h'
        refine ⟨dbl K.inf, ⟨⟨nI.1, ?_⟩, nI.2.1, ?_⟩, ⟨n1, ik.2.le⟩, n2, ?_⟩
        · rw [← ik.2]; exact not_lt.1 c1
        · rw [← ik.2]; exact h3.trans (not_lt.1 c2)
        · rw [← ik.2]; exact h3
  obtain ⟨x, hx⟩ := hex
  have hne : (intersect I K).Nonempty := ⟨x, (hm x).2 hx⟩
  exact ⟨n1, n2, bd_of_sub hI hne fun y hy => ((hm y).1 hy).1, hne, hm⟩

/-- boxes with no common point according to `overlap` have none -/
theorem overlapV_false {K p : Vec n (Interval D)} (hK : ∀ i, (K i).Nonempty) (hp : ∀ i, (p i).Nonempty) (h : overlapV K p = false)
    (x : Fin n → ℝ) : ¬ (InB K x ∧ InB p x) := by
  rintro ⟨h1, h2⟩
  have : overlapV K p = true := allV_iff.2 fun i => (overlap_iff (hK i) (hp i)).2 ⟨x i, h1 i, h2 i⟩
  rw [h] at this; cases this

/-- mean value theorem for the components of `f` on a box -/
theorem f_mvt {S : Fin n → Set ℝ} {f : (Fin n → ℝ) → Fin n → ℝ} {P : (Fin n → Fin n → ℝ) → Prop} (hS : ∀ i, (S i).OrdConnected)
    (hder : ∀ x, (∀ i, x i ∈ S i) → ∃ A, P A ∧ ∀ i, HasFDerivAt (fun y => f y i) (lin (A i)) x) {x y : Fin n → ℝ}
    (hx : ∀ i, x i ∈ S i) (hy : ∀ i, y i ∈ S i) (i : Fin n) : ∃ A, P A ∧ f x i - f y i = ∑ j, A i j * (x j - y j) := by
  let s : Set (Fin n → ℝ) := Set.pi Set.univ S
  have hs : Convex ℝ s := convex_pi fun i _ => (hS i).convex
  have hms : ∀ {z}, z ∈ s ↔ ∀ i, z i ∈ S i := by simp [s]
  choose! A hA1 hA2 using hder
  have hd : ∀ z ∈ s, HasFDerivWithinAt (fun z => f z i) (lin (A z i)) s z := fun z hz => (hA2 z (hms.1 hz) i).hasFDerivWithinAt
  obtain ⟨z, hz, h⟩ := domain_mvt hd hs (hms.2 hy) (hms.2 hx)
  have hz' := hs.segment_subset (hms.2 hy) (hms.2 hx) hz
  exact ⟨A z, hA1 z (hms.1 hz'), by rw [h, lin_apply]; rfl⟩

namespace AllsolSimple

/-- what is known about a returned box `q.1` found in the box `q.2` -/
def Sol (f : (Fin n → ℝ) → Fin n → ℝ) (q : Vec n (Interval D) × Vec n (Interval D)) : Prop :=
  (∀ x, InB q.1 x → InB q.2 x) ∧ ∃ z, InB q.1 z ∧ f z = 0 ∧ ∀ y, InB q.2 y → f y = 0 → y = z

theorem Sol.nonempty {f : (Fin n → ℝ) → Fin n → ℝ} {q : Vec n (Interval D) × Vec n (Interval D)} (h : Sol f q) (i : Fin n) : (q.1 i).Nonempty := by
  obtain ⟨-, z, hz, -⟩ := h
  exact ⟨z i, hz i⟩

section
variable {P : Prog n} {dom : (Fin n → ℝ) → Prop} {f : (Fin n → ℝ) → Fin n → ℝ} {I fi : Vec n (Interval D)} {J : Mat n n (Interval D)}
  {R : Mat n n D}

theorem emRA_mem {A : Fin n → Fin n → ℝ} (hA : ∀ i j, A i j ∈ J i j) (hR : ∀ i k, NoInf (R i k)) (i j : Fin n) :
    kG (fun i k => rv (R i k)) A i j ∈ Vleq.emRA R J i j :=
  sSub_mem (prodSM_mem (hR i) fun k => hA k j) (eye_is i j)

/-- the Krawczyk image of a box contains its zeros -/
theorem image_mem (hP : P.Sound dom f) (hJ : P.FD I = .ok (fi, J)) (hR : ∀ i k, NoInf (R i k)) {K K' : Vec n (Interval D)} {z : Fin n → ℝ}
    (hz : InB K z) (h0 : f z = 0) (hb : ∀ i, Bd (K i)) (hs : ∀ x, InB K x → InB I x) (h : image P R (Vleq.emRA R J) K = .ok K') : InB K' z := by
  unfold image at h
  obtain ⟨fC, hfC, h⟩ := bind_ok.1 h
  cases h
  have hm := fun i => mid_bd (hb i) ⟨z i, hz i⟩
  have hc : InB I fun i => dbl (mid (K i)) := hs _ fun i => (hm i).2
  have hpt : ∀ i, dbl (mid (K i)) ∈ pointV (midV K) i := fun i => point_mem (is_dbl' (hm i).1)
  have hf := hP.val hfC hpt (hP.der hJ hc).1
  intro i
  obtain ⟨A, hA, e⟩ := kraw_mvt (S := fun i => {x : ℝ | x ∈ I i}) (P := fun A => ∀ i j, A i j ∈ J i j) (f := f) (fun i => Kraw.ordConnected_mem (I i))
    (fun x hx => (hP.der hJ hx).2.2) (x := z) (y := fun i => dbl (mid (K i))) (hs z hz) hc (fun i k => rv (R i k)) i
  have e2 : z i = (dbl (mid (K i)) - ∑ k, rv (R i k) * f (fun i => dbl (mid (K i))) k)
      + ∑ j, kG (fun i k => rv (R i k)) A i j * (z j - dbl (mid (K j))) := by
    rw [← e, h0]; simp
  rw [e2]
  exact add_mem (sub_mem (hpt i) (prodSV_mem (hR i) hf))
    (prodIV_mem (G := kG (fun i k => rv (R i k)) A) (fun j => emRA_mem hA hR i j) fun j => sub_mem (hz j) (hpt j))

/-- intersection with a box containing the zero -/
theorem shrink {K K' : Vec n (Interval D)} {z : Fin n → ℝ} (hz : InB K z) (hz' : InB K' z) (hb : ∀ i, Bd (K i)) :
    InB (intersectV K K') z ∧ (∀ x, InB (intersectV K K') x → InB K x) ∧ ∀ i, Bd (intersectV K K' i) := by
  have hm := fun i (x : ℝ) => mem_intersect (X := K i) (Y := K' i) (x := x) ⟨(hz i).1.1, (hz i).2.1⟩ ⟨(hz' i).1.1, (hz' i).2.1⟩
  have h1 : InB (intersectV K K') z := fun i => (hm i _).2 ⟨hz i, hz' i⟩
  exact ⟨h1, fun x hx i => ((hm i _).1 (hx i)).1, fun i => bd_of_sub (hb i) ⟨_, h1 i⟩ fun x hx => ((hm i x).1 hx).1⟩

theorem separate_ok (hP : P.Sound dom f) (hJ : P.FD I = .ok (fi, J)) (hR : ∀ i k, NoInf (R i k)) {p p2 : Vec n (Interval D)} {z : Fin n → ℝ}
    (h0 : f z = 0) : ∀ {k : ℕ} {K K' : Vec n (Interval D)} {b : Bool}, InB K z → (∀ i, Bd (K i)) → (∀ x, InB K x → InB I x) →
    separate P R (Vleq.emRA R J) p p2 k K = .ok (K', b) →
    InB K' z ∧ (∀ x, InB K' x → InB K x) ∧ (∀ i, Bd (K' i)) ∧ (if b then subsetV K' p2 = true else overlapV K' p = false)
  | 0, _, _, _, _, _, _, h => by cases h
  | k + 1, K, K', b, hz, hb, hs, h => by
    rw [separate] at h
    obtain ⟨I1, hI1, h⟩ := bind_ok.1 h
    obtain ⟨s1, s2, s3⟩ := shrink hz (image_mem hP hJ hR hz h0 hb hs hI1) hb
    simp only at h
    by_cases c1 : subsetV (intersectV K I1) p2 = true
    · rw [if_pos c1] at h; cases h
      exact ⟨s1, s2, s3, c1⟩
    · rw [if_neg c1] at h
      by_cases c2 : overlapV (intersectV K I1) p = true
      · rw [if_neg (by simp [c2])] at h
        obtain ⟨t1, t2, t3, t4⟩ := separate_ok hP hJ hR h0 s1 s3 (fun x hx => hs x (s2 x hx)) h
        exact ⟨t1, fun x hx => s2 x (t2 x hx), t3, t4⟩
      · rw [Bool.not_eq_true] at c2
        rw [if_pos (by simp [c2])] at h; cases h
        exact ⟨s1, s2, s3, c2⟩

theorem subsetV_sub {K L : Vec n (Interval D)} (h : subsetV K L = true) {x : Fin n → ℝ} (hx : InB K x) : InB L x := fun i =>
  subset_sub (allV_iff.1 h i) (hx i)

/-- the comparison with the solutions already found -/
theorem known_ok {fuel : ℕ} (hP : P.Sound dom f) (hJ : P.FD I = .ok (fi, J)) (hR : ∀ i k, NoInf (R i k)) {z : Fin n → ℝ} (h0 : f z = 0)
    (hu : ∀ y, InB I y → f y = 0 → y = z) :
    ∀ {l : List (Vec n (Interval D) × Vec n (Interval D))} {K : Vec n (Interval D)} {r : Option (Vec n (Interval D))},
    (∀ q ∈ l, Sol f q) → InB K z → (∀ i, Bd (K i)) → (∀ x, InB K x → InB I x) → known fuel P R (Vleq.emRA R J) I l K = .ok r →
    (r = none → ∃ q ∈ l, InB q.1 z) ∧
    ∀ K', r = some K' → InB K' z ∧ (∀ x, InB K' x → InB K x) ∧ (∀ i, Bd (K' i)) ∧ ∀ q ∈ l, ∀ x, ¬ (InB K' x ∧ InB q.1 x)
  | [], K, r, _, hz, hb, _, h => by
    rw [known] at h; cases h
    refine ⟨fun h => (by cases h), fun K' h => ?_⟩
    cases h
    exact ⟨hz, fun _ h => h, hb, fun q hq => by cases hq⟩
  | (p, p2) :: l, K, r, hl, hz, hb, hs, h => by
    have hq := hl (p, p2) (by simp)
    have hl' : ∀ q ∈ l, Sol f q := fun q hq => hl q (by simp [hq])
    rw [known] at h
    by_cases c1 : overlapV K p = true
    · rw [if_pos c1] at h
      by_cases c2 : (subsetV K p2 || subsetV p I) = true
      · rw [if_pos c2] at h; cases h
        refine ⟨fun _ => ⟨(p, p2), by simp, ?_⟩, fun K' h => by cases h⟩
        obtain ⟨-, w, hw, hw0, hwu⟩ := hq
        rw [Bool.or_eq_true] at c2
        rcases c2 with c2 | c2
        · rw [hwu z (subsetV_sub c2 hz) h0]; exact hw
        · rw [← hu w (subsetV_sub c2 hw) hw0]; exact hw
      · rw [if_neg c2] at h
        obtain ⟨⟨K1, fl⟩, hK1, h⟩ := bind_ok.1 h
        obtain ⟨s1, s2, s3, s4⟩ := separate_ok hP hJ hR h0 hz hb hs hK1
        simp only at h
        cases fl with
        | true =>
          rw [if_pos rfl] at h; cases h
          refine ⟨fun _ => ⟨(p, p2), by simp, ?_⟩, fun K' h => by cases h⟩
          obtain ⟨-, w, hw, hw0, hwu⟩ := hq
          rw [hwu z (subsetV_sub s4 s1) h0]; exact hw
        | false =>
          rw [if_neg (by simp)] at h
          obtain ⟨t1, t2⟩ := known_ok hP hJ hR h0 hu hl' s1 s3 (fun x hx => hs x (s2 x hx)) h
          refine ⟨fun hr => ?_, fun K' hr => ?_⟩
          · obtain ⟨q, hq, hqz⟩ := t1 hr
            exact ⟨q, by simp [hq], hqz⟩
          · obtain ⟨v1, v2, v3, v4⟩ := t2 K' hr
            refine ⟨v1, fun x hx => s2 x (v2 x hx), v3, fun q hq' x hx => ?_⟩
            rcases List.mem_cons.1 hq' with rfl | hq'
            · exact overlapV_false (fun i => ⟨z i, s1 i⟩) hq.nonempty (by simpa using s4) x ⟨v2 x hx.1, hx.2⟩
            · exact v4 q hq' x hx
    · rw [if_neg c1] at h
      rw [Bool.not_eq_true] at c1
      obtain ⟨t1, t2⟩ := known_ok hP hJ hR h0 hu hl' hz hb hs h
      refine ⟨fun hr => ?_, fun K' hr => ?_⟩
      · obtain ⟨q, hq, hqz⟩ := t1 hr
        exact ⟨q, by simp [hq], hqz⟩
      · obtain ⟨v1, v2, v3, v4⟩ := t2 K' hr
        refine ⟨v1, v2, v3, fun q hq' x hx => ?_⟩
        rcases List.mem_cons.1 hq' with rfl | hq'
        · exact overlapV_false (fun i => ⟨z i, hz i⟩) hq.nonempty c1 x ⟨v2 x hx.1, hx.2⟩
        · exact v4 q hq' x hx

theorem refine_ok (hP : P.Sound dom f) (hJ : P.FD I = .ok (fi, J)) (hR : ∀ i k, NoInf (R i k)) {z : Fin n → ℝ} (h0 : f z = 0) :
    ∀ {k : ℕ} {K K' : Vec n (Interval D)}, InB K z → (∀ i, Bd (K i)) → (∀ x, InB K x → InB I x) →
    refine P R (Vleq.emRA R J) k K = .ok K' → InB K' z ∧ ∀ x, InB K' x → InB K x
  | 0, _, _, _, _, _, h => by cases h
  | k + 1, K, K', hz, hb, hs, h => by
    rw [refine] at h
    obtain ⟨I1, hI1, h⟩ := bind_ok.1 h
    obtain ⟨s1, s2, s3⟩ := shrink hz (image_mem hP hJ hR hz h0 hb hs hI1) hb
    simp only at h
    by_cases c : Rop.lt (lit (9 / 10)) (widthratioMin (intersectV K I1) K) = true
    · rw [if_pos c] at h; cases h
      exact ⟨s1, s2⟩
    · rw [if_neg c] at h
      obtain ⟨t1, t2⟩ := refine_ok hP hJ hR h0 s1 s3 (fun x hx => hs x (s2 x hx)) h
      exact ⟨t1, fun x hx => s2 x (t2 x hx)⟩

end

/-- the effect of an outcome on a zero `z` of the examined box -/
def Out.keeps (sols : List (Vec n (Interval D) × Vec n (Interval D))) (z : Fin n → ℝ) : Out n → Prop
  | .drop => ∃ q ∈ sols, InB q.1 z
  | .found K _ => InB K z
  | .push l => ∃ B ∈ l, InB B z
  | .giveUp I => InB I z

theorem divide_keeps {I : Vec n (Interval D)} {o : Out n} (h : divide I = .ok o) (hb : GoodB I) {sols} {z : Fin n → ℝ} (hz : InB I z) :
    o.keeps sols z := by
  unfold divide at h
  split at h
  · cases h
  · rename_i mi hmi
    simp only at h
    split_ifs at h with c
    · cases h; exact hz
    · cases h
      have hm := mid_bd (hb mi).bd (hb mi).2
      have im := is_dbl' hm.1
      have hzm := hz mi
      rcases le_total (z mi) (dbl (mid (I mi))) with hle | hle
      · refine ⟨_, List.mem_cons_self .., fun i => ?_⟩
        unfold setI
        split_ifs with hi
        · rw [hi]; exact ⟨hzm.1, im.1, by rw [im.2]; exact EReal.coe_le_coe_iff.2 hle⟩
        · exact hz i
      · refine ⟨_, List.mem_cons_of_mem _ (List.mem_cons_self ..), fun i => ?_⟩
        unfold setI
        split_ifs with hi
        · rw [hi]; exact ⟨⟨im.1, by rw [im.2]; exact EReal.coe_le_coe_iff.2 hle⟩, hzm.2⟩
        · exact hz i

/-- boxes put back are good -/
def Out.good : Out n → Prop
  | .push l => ∀ B ∈ l, GoodB B
  | _ => True

theorem divide_good {I : Vec n (Interval D)} {o : Out n} (h : divide I = .ok o) (hb : GoodB I) : o.good := by
  unfold divide at h
  split at h
  · cases h
  · rename_i mi hmi
    simp only at h
    split_ifs at h with c
    · cases h; trivial
    · cases h
      have hm := mid_bd (hb mi).bd (hb mi).2
      have hmm := (mem_of_bd (hb mi).bd).1 hm.2
      intro B hB
      simp only [List.mem_cons, List.not_mem_nil, or_false] at hB
      rcases hB with rfl | rfl
      · intro i
        unfold setI
        split_ifs with hi
        · exact (hb mi).mono ⟨(hb mi).bd.1, hm.1⟩ hmm.1 (le_refl _) hmm.2
        · exact hb i
      · intro i
        unfold setI
        split_ifs with hi
        · exact (hb mi).mono ⟨hm.1, (hb mi).bd.2⟩ hmm.2 hmm.1 (le_refl _)
        · exact hb i

section
variable {P : Prog n} {dom : (Fin n → ℝ) → Prop} {f : (Fin n → ℝ) → Fin n → ℝ} {I fi fc : Vec n (Interval D)} {J : Mat n n (Interval D)}
  {R : Mat n n D} {fuel : ℕ} {sols : List (Vec n (Interval D) × Vec n (Interval D))} {o : Out n}

/-- the Krawczyk box contains the image of every point -/
theorem boxK_mem (hP : P.Sound dom f) (hJ : P.FD I = .ok (fi, J)) (hI : GoodB I) (hfc : P.F (pointV (midV I)) = .ok fc)
    (hR : ∀ i k, NoInf (R i k)) {A : Fin n → Fin n → ℝ} (hA : ∀ i j, A i j ∈ J i j) {x : Fin n → ℝ} (hx : InB I x) (i : Fin n) :
    (dbl (mid (I i)) - ∑ k, rv (R i k) * f (fun i => dbl (mid (I i))) k) + ∑ j, kG (fun i k => rv (R i k)) A i j * (x j - dbl (mid (I j)))
      ∈ Kraw.boxK (midV I) (prodSV R fc) (Vleq.emRA R J) I i := by
  have hm := fun i => mid_bd (hI i).bd (hI i).2
  have hpt : ∀ i, dbl (mid (I i)) ∈ pointV (midV I) i := fun i => point_mem (is_dbl' (hm i).1)
  have hf := hP.val hfc hpt (hP.der hJ fun i => (hm i).2).1
  exact add_mem (sub_mem (hpt i) (prodSV_mem (hR i) hf))
    (prodIV_mem (G := kG (fun i k => rv (R i k)) A) (fun j => emRA_mem hA hR i j) fun j => sub_mem (hx j) (hpt j))

theorem zero_mem_boxK (hP : P.Sound dom f) (hJ : P.FD I = .ok (fi, J)) (hI : GoodB I) (hfc : P.F (pointV (midV I)) = .ok fc)
    (hR : ∀ i k, NoInf (R i k)) {z : Fin n → ℝ} (hz : InB I z) (h0 : f z = 0) :
    InB (Kraw.boxK (midV I) (prodSV R fc) (Vleq.emRA R J) I) z := by
  intro i
  obtain ⟨A, hA, e⟩ := kraw_mvt (S := fun i => {x : ℝ | x ∈ I i}) (P := fun A => ∀ i j, A i j ∈ J i j) (f := f) (fun i => Kraw.ordConnected_mem (I i))
    (fun x hx => (hP.der hJ hx).2.2) (x := z) (y := fun i => dbl (mid (I i))) hz (fun i => (mid_bd (hI i).bd (hI i).2).2) (fun i k => rv (R i k)) i
  have := boxK_mem hP hJ hI hfc hR hA hz i
  rw [← e, h0] at this
  simpa using this

/-- a successful existence test -/
theorem exists_unique (hP : P.Sound dom f) (hJ : P.FD I = .ok (fi, J)) (hI : GoodB I) (hfc : P.F (pointV (midV I)) = .ok fc)
    (ho : overlapV (Kraw.boxK (midV I) (prodSV R fc) (Vleq.emRA R J) I) I = true)
    (hp : properSubsetV (Kraw.boxK (midV I) (prodSV R fc) (Vleq.emRA R J) I) I = true) :
    (∀ i, Bd (Kraw.boxK (midV I) (prodSV R fc) (Vleq.emRA R J) I i)) ∧ (∀ i k, NoInf (R i k)) ∧
    ∃ z, InB (Kraw.boxK (midV I) (prodSV R fc) (Vleq.emRA R J) I) z ∧ f z = 0 ∧ ∀ y, InB I y → f y = 0 → y = z := by
  have hb : ∀ i, Bd (Kraw.boxK (midV I) (prodSV R fc) (Vleq.emRA R J) I i) := fun i => by
    obtain ⟨-, -, -, ⟨x, hx⟩, hm⟩ := overlap_good (hI i).bd (hI i).2 (allV_iff.1 ho i)
    exact bd_of_sub (hI i).bd ⟨x, ((hm x).1 hx).2⟩ fun x hx => properSubset_sub (allV_iff.1 hp i) hx
  have hR : ∀ i k, NoInf (R i k) := fun i => (Kraw.boxK_fin (hb i).1).2
  obtain ⟨-, -, z, h1, h2, h3⟩ := Kraw.test_sound hP hJ (c := fun i => dbl (mid (I i))) (fun i => (mid_bd (hI i).bd (hI i).2).2)
    (R := fun i k => rv (R i k)) (fun A hA x hx i => boxK_mem hP hJ hI hfc hR hA hx i) hb hp
  exact ⟨hb, hR, z, h1, h2, h3⟩

/-- the width of `K` is finite if its ratio to the width of a good interval is small -/
theorem ratio_good {K I : Interval D} (hI : Good I) (ho : overlap K I = true)
    (hr : nan (Rop.div (width K) (width I)) ∨ val (Rop.div (width K) (width I)) < ⊤) : Good K := by
  obtain ⟨n1, n2, -, ⟨x, hx⟩, hm⟩ := overlap_good hI.bd hI.2 ho
  have hn : K.Nonempty := ⟨x, ((hm x).1 hx).2⟩
  refine ⟨?_, hn⟩
  have hh : Hi (width K) 0 := by
    have := C09_width (X := K) hn.choose_spec hn.choose_spec
    simpa using this
  rcases D_cases (width K) with h | h | h | h
  · exact absurd h hh.1
  · exfalso
    have hw := hI.1
    have hw0 : 0 ≤ dbl (width I) := by have := width_val hI; have := hI.le; linarith
    obtain ⟨q, hq, e⟩ := finD_iff.1 hw
    have hq0 : ¬ q < 0 := by
      have : dbl (width I) = (q : ℝ) := is_dbl ⟨by rw [e]; exact Hw.not_nan_fin q hq, by rw [e]; exact Hw.val_fin q hq⟩
      rw [this] at hw0
      exact not_lt.2 (by exact_mod_cast hw0)
    have e2 : Rop.div (width K) (width I) = dPinf := by
      rw [h, e]
      show Fl.infOfSign (if q < 0 then _ else _) = _
      rw [if_neg hq0]; rfl
    rw [e2] at hr
    rcases hr with hr | hr
    · exact not_nan_dPinf hr
    · rw [val_dPinf] at hr; exact lt_irrefl _ hr
  · have := hh.2
    rw [h, val_dNinf] at this
    exact absurd (le_bot_iff.1 this) (EReal.coe_ne_bot _)
  · exact h

theorem maxFold_nan : ∀ {l : List D} {r : D}, ¬ nan r → ∀ t ∈ l, nan t ∨ val t ≤ val (l.foldl (fun r t => if Rop.lt r t then t else r) r) := by
  intro l
  induction l with
  | nil => intro r _ t ht; cases ht
  | cons a l ih =>
    intro r hr t ht
    rw [List.foldl_cons]
    have key : ∀ (l : List D) (r : D), ¬ nan r → val r ≤ val (l.foldl (fun r t => if Rop.lt r t then t else r) r) := by
      intro l
      induction l with
      | nil => exact fun r _ => le_refl _
      | cons b l ih2 =>
        intro r hr
        rw [List.foldl_cons]
        split_ifs with h
        · rw [lt_iff] at h; exact h.2.2.le.trans (ih2 b h.2.1)
        · exact ih2 r hr
    have hn : ¬ nan (if Rop.lt r a = true then a else r) := by
      split_ifs with h
      · rw [lt_iff] at h; exact h.2.1
      · exact hr
    rcases List.mem_cons.1 ht with rfl | ht
    · by_cases hna : nan t
      · exact .inl hna
      · right
        refine le_trans ?_ (key l _ hn)
        split_ifs with h
        · exact le_refl _
        · rw [lt_iff] at h; exact not_lt.1 fun h' => h ⟨hr, hna, h'⟩
    · exact ih hn t ht

theorem ratioV_good {K : Vec n (Interval D)} (hI : GoodB I) (ho : overlapV K I = true) (hr : Rop.lt (widthratioMax K I) (lit (9 / 10)) = true) :
    GoodB K := by
  intro i
  refine ratio_good (hI i) (allV_iff.1 ho i) ?_
  refine (maxFold_nan (l := List.ofFn fun i => Rop.div (width (K i)) (width (I i))) (r := (lit 0 : D)) is_zero.1 _ ((List.mem_ofFn' _ _).2 ⟨i, rfl⟩)).imp id fun h => ?_
  rw [lt_iff] at hr
  exact lt_of_le_of_lt h (lt_of_lt_of_le hr.2.2 le_top)

theorem divide_found {K I' : Vec n (Interval D)} (h : divide I = .ok (.found K I')) : False := by
  unfold divide at h
  split at h
  · cases h
  · simp only at h; split_ifs at h <;> cases h

/-- effect of the Krawczyk test: (1) boxes put back are good; (2) a box found is new and contains exactly one zero;
(3) zeros are kept, if `R` has no infinite entries -/
theorem krawTest_ok (hP : P.Sound dom f) (hJ : P.FD I = .ok (fi, J)) (hI : GoodB I) (hfc : P.F (pointV (midV I)) = .ok fc)
    (hs : ∀ q ∈ sols, Sol f q) (h : krawTest fuel P sols I (pointV (midV I)) fc J R = .ok o) :
    o.good ∧ (∀ K I', o = .found K I' → Sol f (K, I') ∧ ∀ q ∈ sols, ∀ x, ¬ (InB K x ∧ InB q.1 x)) ∧
    ((∀ i k, NoInf (R i k)) → ∀ z, InB I z → f z = 0 → o.keeps sols z) := by
  have hK : ∀ i, Interval.add (Interval.sub (pointV (midV I) i) (prodSV R fc i)) (prodIV (Vleq.emRA R J) (fun j => Interval.sub (I j) (pointV (midV I) j)) i)
      = Kraw.boxK (midV I) (prodSV R fc) (Vleq.emRA R J) I i := fun i => rfl
  unfold krawTest at h
  simp only [hK] at h
  set K : Vec n (Interval D) := fun i => Kraw.boxK (midV I) (prodSV R fc) (Vleq.emRA R J) I i with hKdef
  by_cases ho : overlapV K I = true
  · rw [if_neg (by simp [ho])] at h
    by_cases hp : properSubsetV K I = true
    · rw [if_pos hp] at h
      obtain ⟨hb, hR, z, h1, h2, h3⟩ := exists_unique hP hJ hI hfc ho hp
      have hsub : ∀ x, InB K x → InB I x := fun x hx i => properSubset_sub (allV_iff.1 hp i) (hx i)
      obtain ⟨r, hr, h⟩ := bind_ok.1 h
      obtain ⟨t1, t2⟩ := known_ok hP hJ hR h2 h3 hs h1 hb hsub hr
      match r, t1, t2, h with
      | none, t1, t2, h =>
        cases h
        refine ⟨trivial, fun K I' h => (by cases h), fun _ w hw hw0 => ?_⟩
        rw [h3 w hw hw0]; exact t1 rfl
      | some K1, t1, t2, h =>
        obtain ⟨K2, hK2, h⟩ := bind_ok.1 h
        cases h
        obtain ⟨v1, v2, v3, v4⟩ := t2 K1 rfl
        obtain ⟨w1, w2⟩ := refine_ok hP hJ hR h2 v1 v3 (fun x hx => hsub x (v2 x hx)) hK2
        refine ⟨trivial, ?_, fun _ w hw hw0 => ?_⟩
        · rintro K I' h
          cases h
          exact ⟨⟨fun x hx => hsub x (v2 x (w2 x hx)), z, w1, h2, h3⟩, fun q hq x hx => v4 q hq x ⟨w2 x hx.1, hx.2⟩⟩
        · rw [h3 w hw hw0]; exact w1
    · rw [if_neg hp] at h
      by_cases hr : Rop.lt (widthratioMax K I) (lit (9 / 10)) = true
      · rw [if_pos hr] at h; cases h
        refine ⟨fun B hB => ?_, fun K I' h => (by cases h), fun hR z hz h0 => ⟨K, by simp, zero_mem_boxK hP hJ hI hfc hR hz h0⟩⟩
        rw [List.mem_singleton] at hB
        rw [hB]; exact ratioV_good hI ho hr
      · rw [if_neg hr] at h
        have hg : GoodB (intersectV I K) := fun i => by
          obtain ⟨-, -, g1, g2, g3⟩ := overlap_good (hI i).bd (hI i).2 (allV_iff.1 ho i)
          have l1 := (g3 _).1 ((mem_of_bd g1).2 ⟨le_refl _, g1.le g2⟩)
          have l2 := (g3 _).1 ((mem_of_bd g1).2 ⟨g1.le g2, le_refl _⟩)
          exact (hI i).mono g1 (g1.le g2) ((mem_of_bd (hI i).bd).1 l1.1).1 ((mem_of_bd (hI i).bd).1 l2.1).2
        refine ⟨divide_good h hg, fun K' I' e => ?_, fun hR z hz h0 => divide_keeps h hg fun i => ?_⟩
        · rw [e] at h
          exact (divide_found h).elim
        · obtain ⟨-, -, -, -, g3⟩ := overlap_good (hI i).bd (hI i).2 (allV_iff.1 ho i)
          exact (g3 _).2 ⟨hz i, zero_mem_boxK hP hJ hI hfc hR hz h0 i⟩
  · rw [Bool.not_eq_true] at ho
    rw [if_pos (by simp [ho])] at h; cases h
    refine ⟨trivial, fun K I' h => (by cases h), fun hR z hz h0 => ?_⟩
    have hzK := zero_mem_boxK hP hJ hI hfc hR hz h0
    exact absurd ⟨hzK, hz⟩ (overlapV_false (fun i => ⟨z i, hzK i⟩) (fun i => ⟨z i, hz i⟩) ho z)

/-- the approximate inverse computed for the box `B`, if any, has no infinite entries -/
def NoOverflow (inv : Inverter n) (P : Prog n) (B : Vec n (Interval D)) : Prop :=
  ∀ fi J R, P.FD B = .ok (fi, J) → inv (midM J) = some R → ∀ i k, NoInf (R i k)

/-- the boxes processed by the main loop, in order -/
def trace (fuel : ℕ) (inv : Inverter n) (P : Prog n) : ℕ → St n → List (Vec n (Interval D))
  | 0, _ => []
  | k + 1, s =>
    match s.targets with
    | [] => []
    | I :: rest =>
      I :: match step fuel inv P s.sols I with
        | .ok o => trace fuel inv P k (s.apply rest o)
        | .error _ => []

theorem step_ok {inv : Inverter n} (hP : P.Sound dom f) (hI : GoodB I) (hs : ∀ q ∈ sols, Sol f q) (h : step fuel inv P sols I = .ok o) :
    o.good ∧ (∀ K I', o = .found K I' → Sol f (K, I') ∧ ∀ q ∈ sols, ∀ x, ¬ (InB K x ∧ InB q.1 x)) ∧
    (NoOverflow inv P I → ∀ z, InB I z → dom z → f z = 0 → o.keeps sols z) := by
  have hdiv : divide I = .ok o → o.good ∧ (∀ K I', o = .found K I' → Sol f (K, I') ∧ ∀ q ∈ sols, ∀ x, ¬ (InB K x ∧ InB q.1 x)) ∧
      (NoOverflow inv P I → ∀ z, InB I z → dom z → f z = 0 → o.keeps sols z) := fun h =>
    ⟨divide_good h hI, fun K I' e => (divide_found (e ▸ h)).elim, fun _ z hz _ _ => divide_keeps h hI hz⟩
  unfold step at h
  obtain ⟨a, ha, h⟩ := bind_ok.1 h
  match a, ha, h with
  | none, ha, h => exact hdiv h
  | some fi, ha, h =>
    have hfi := Kraw.catchDom_some.1 ha
    simp only at h
    by_cases c1 : zeroInV fi = true
    · rw [if_neg (by simp [c1])] at h
      obtain ⟨b, hb, h⟩ := bind_ok.1 h
      match b, hb, h with
      | none, hb, h => exact hdiv h
      | some (fc, J), hb, h =>
        obtain ⟨fc', hfc, hb⟩ := bind_ok.1 (Kraw.catchDom_some.1 hb)
        obtain ⟨⟨fi2, J2⟩, hJ, hb⟩ := bind_ok.1 hb
        obtain ⟨rfl, rfl⟩ : fc = fc' ∧ J = J2 := by injection hb with hb; injection hb with h1 h2; exact ⟨h1.symm, h2.symm⟩
        simp only at h
        by_cases c2 : zeroInV (fun i => Interval.add (fc i) (prodIV J (fun j => Interval.sub (I j) (pointV (midV I) j)) i)) = true
        · rw [if_neg (by simp [c2])] at h
          split at h
          · exact hdiv h
          · rename_i R hR
            obtain ⟨k1, k2, k3⟩ := krawTest_ok hP hJ hI hfc hs h
            exact ⟨k1, k2, fun hinv z hz _ h0 => k3 (hinv _ _ _ hJ hR) z hz h0⟩
        · rw [Bool.not_eq_true] at c2
          rw [if_pos (by simp [c2])] at h; cases h
          refine ⟨trivial, fun K I' h => (by cases h), fun _ z hz _ h0 => ?_⟩
          exfalso
          have hm := fun i => mid_bd (hI i).bd (hI i).2
          have hpt : ∀ i, dbl (mid (I i)) ∈ pointV (midV I) i := fun i => point_mem (is_dbl' (hm i).1)
          have hf := hP.val hfc hpt (hP.der hJ fun i => (hm i).2).1
          have : zeroInV (fun i => Interval.add (fc i) (prodIV J (fun j => Interval.sub (I j) (pointV (midV I) j)) i)) = true := by
            refine allV_iff.2 fun i => (C07_zero_in _).2 ?_
            obtain ⟨A, hA, e⟩ := f_mvt (S := fun i => {x : ℝ | x ∈ I i}) (P := fun A => ∀ i j, A i j ∈ J i j) (f := f) (fun i => Kraw.ordConnected_mem (I i))
              (fun x hx => (hP.der hJ hx).2.2) (x := z) (y := fun i => dbl (mid (I i))) hz (fun i => (hm i).2) i
            have h1 := add_mem (hf i) (prodIV_mem (G := A) (i := i) (hA i) fun j => sub_mem (hz j) (hpt j))
            rw [← e, h0] at h1
            simpa using h1
          rw [c2] at this; cases this
    · rw [Bool.not_eq_true] at c1
      rw [if_pos (by simp [c1])] at h; cases h
      refine ⟨trivial, fun K I' h => (by cases h), fun _ z hz hd h0 => ?_⟩
      exfalso
      have : zeroInV fi = true := allV_iff.2 fun i => (C07_zero_in _).2 (by
        have := hP.val hfi hz hd i
        rw [h0] at this; exact this)
      rw [c1] at this; cases this

/-- pairwise disjoint boxes -/
def Disj (l : List (Vec n (Interval D) × Vec n (Interval D))) : Prop := l.Pairwise fun q q' => ∀ x, ¬ (InB q.1 x ∧ InB q'.1 x)

/-- a zero is accounted for by the state -/
def St.keeps (s : St n) (z : Fin n → ℝ) : Prop := (∃ B ∈ s.targets, InB B z) ∨ (∃ q ∈ s.sols, InB q.1 z) ∨ ∃ B ∈ s.given, InB B z

theorem loop_ok {inv : Inverter n} (hP : P.Sound dom f) : ∀ {k : ℕ} {s t : St n}, (∀ B ∈ s.targets, GoodB B) → (∀ q ∈ s.sols, Sol f q) →
    Disj s.sols → loop fuel inv P k s = .ok t →
    (∀ q ∈ t.sols, Sol f q) ∧ Disj t.sols ∧
    ((∀ B ∈ trace fuel inv P k s, NoOverflow inv P B) → ∀ z, s.keeps z → dom z → f z = 0 → (∃ q ∈ t.sols, InB q.1 z) ∨ ∃ B ∈ t.given, InB B z) := by
  intro k
  induction k with
  | zero =>
    rintro ⟨tg, so, gi⟩ t hg hs hd h
    rw [loop.eq_def] at h
    cases tg with
    | nil =>
      cases h
      refine ⟨hs, hd, fun _ z hz _ _ => ?_⟩
      rcases hz with ⟨B, hB, -⟩ | hz
      · cases hB
      · exact hz
    | cons I rest => cases h
  | succ k ih =>
    rintro ⟨tg, so, gi⟩ t hg hs hd h
    rw [loop.eq_def] at h
    cases tg with
    | nil =>
      cases h
      refine ⟨hs, hd, fun _ z hz _ _ => ?_⟩
      rcases hz with ⟨B, hB, -⟩ | hz
      · cases hB
      · exact hz
    | cons I rest =>
      simp only at h
      obtain ⟨o, ho, h⟩ := bind_ok.1 h
      obtain ⟨s1, s2, s3⟩ := step_ok hP (hg I (by simp)) hs ho
      have hrest : ∀ B ∈ rest, GoodB B := fun B hB => hg B (by simp [hB])
      have key : ∀ s', s' = St.apply ⟨I :: rest, so, gi⟩ rest o → (∀ B ∈ s'.targets, GoodB B) ∧ (∀ q ∈ s'.sols, Sol f q) ∧ Disj s'.sols := by
        rintro s' rfl
        cases o with
        | drop => exact ⟨hrest, hs, hd⟩
        | giveUp J => exact ⟨hrest, hs, hd⟩
        | push l =>
          refine ⟨fun B hB => ?_, hs, hd⟩
          rcases List.mem_append.1 hB with hB | hB
          · exact hrest B hB
          · exact s1 B hB
        | found K I' =>
          obtain ⟨f1, f2⟩ := s2 K I' rfl
          refine ⟨hrest, fun q hq => ?_, ?_⟩
          · rcases List.mem_append.1 hq with hq | hq
            · exact hs q hq
            · rw [List.mem_singleton] at hq; rw [hq]; exact f1
          · refine List.pairwise_append.2 ⟨hd, List.pairwise_singleton _ _, fun q hq q' hq' x hx => ?_⟩
            rw [List.mem_singleton] at hq'
            rw [hq'] at hx
            exact f2 q hq x hx.symm
      obtain ⟨k1, k2, k3⟩ := key _ rfl
      obtain ⟨t1, t2, t3⟩ := ih k1 k2 k3 h
      have etr : trace fuel inv P (k + 1) ⟨I :: rest, so, gi⟩ = I :: trace fuel inv P k (St.apply ⟨I :: rest, so, gi⟩ rest o) := by
        rw [trace]
        simp only [ho]
      refine ⟨t1, t2, fun hinv z hz hdz h0 => ?_⟩
      rw [etr] at hinv
      refine t3 (fun B hB => hinv B (by simp [hB])) z ?_ hdz h0
      rcases hz with ⟨B, hB, hBz⟩ | ⟨q, hq, hqz⟩ | ⟨B, hB, hBz⟩
      · rcases List.mem_cons.1 hB with rfl | hB
        · have := s3 (hinv B (by simp)) z hBz hdz h0
          cases o with
          | drop => exact .inr (.inl this)
          | giveUp J => exact .inr (.inr ⟨J, by simp [St.apply], this⟩)
          | push l =>
            obtain ⟨B', hB', h'⟩ := this
            exact .inl ⟨B', by simp [St.apply, hB'], h'⟩
          | found K I' => exact .inr (.inl ⟨(K, I'), by simp [St.apply], this⟩)
        · refine .inl ⟨B, ?_, hBz⟩
          cases o <;> simp [St.apply, hB]
      · refine .inr (.inl ⟨q, ?_, hqz⟩)
        clear * - hq
        change q ∈ so at hq
        cases o <;> simp [St.apply, hq]
      · refine .inr (.inr ⟨B, ?_, hBz⟩)
        clear * - hB
        change B ∈ gi at hB
        cases o <;> simp [St.apply, hB]

end

end AllsolSimple

end Kv
