import Verif.Solver.AllsolBox

/-! # One pass of the main loop of allsol.hpp (helper lemmas) -/

namespace Kv
open RopSem Kv.Interval
open Rop (lit)
open LA

namespace Allsol
open AllsolSimple (Sol image separate known setI NoOverflow Disj)
variable {n : ℕ}

/-! ## trimming -/

/-- the box is not left by trimming; boxes produced by a division are nonempty -/
def Trim.sub (I : Vec n (Interval D)) : Trim n → Prop
  | .empty => True
  | .split I1 I2 => NeB I1 ∧ NeB I2
  | .done IR _ => ∀ j, Sub (IR j) (I j)

/-- effect of trimming on a zero -/
def Trim.keeps (z : Fin n → ℝ) : Trim n → Prop
  | .empty => False
  | .split I1 I2 => InB I1 z ∨ InB I2 z
  | .done IR _ => InB IR z

theorem recover_mem {I J : Vec n (Interval D)} {z : Fin n → ℝ} (h : InB I z) : InB (recover I J) z := fun i => recover1_mem (h i)

theorem recover_ne {I J : Vec n (Interval D)} (h : NeB I) : NeB (recover I J) := fun i => (h i).imp fun _ h => recover1_mem h

theorem setI_sub {IR I : Vec n (Interval D)} {j : Fin n} {Z : Interval D} (h : ∀ j, Sub (IR j) (I j)) (hZ : Sub Z (I j)) (i : Fin n) :
    Sub (setI IR j Z i) (I i) := by
  unfold setI
  split_ifs with hi
  · rw [hi]; exact hZ
  · exact h i

theorem trimGo_ok {fc : Vec n (Interval D)} {J : Mat n n (Interval D)} {I C : Vec n (Interval D)} {w : D} :
    ∀ {l : List (Fin n × Fin n)} {IR : Vec n (Interval D)} {fl : Bool} {r : Trim n}, (∀ j, Sub (IR j) (I j)) →
    trimGo fc J I C w l IR fl = .ok r →
    r.sub I ∧ ∀ z, InB IR z → (∀ i j, ∃ c0 a b : ℝ, c0 ∈ C j ∧ a ∈ numer fc J I C i j ∧ b ∈ J i j ∧ a + b * (z j - c0) = 0) →
      (∀ i j, TrimSafe (numer fc J I C i j) (J i j)) → r.keeps z
  | [], IR, fl, r, hs, h => by
    rw [trimGo] at h; cases h
    exact ⟨hs, fun z hz _ _ => hz⟩
  | (i, j) :: l, IR, fl, r, hs, h => by
    rw [trimGo] at h
    split_ifs at h with c
    · exact trimGo_ok hs h
    · obtain ⟨o, ho, h⟩ := bind_ok.1 h
      obtain ⟨k1, k2⟩ := cut_ok (hs j).1 ho
      have k1 := k1 (hs j).2.1
      have k3 : ∀ z, InB IR z → (∀ i j, ∃ c0 a b : ℝ, c0 ∈ C j ∧ a ∈ numer fc J I C i j ∧ b ∈ J i j ∧ a + b * (z j - c0) = 0) →
          (∀ i j, TrimSafe (numer fc J I C i j) (J i j)) → o.keeps (z j) := by
        intro z hz he ht
        obtain ⟨c0, a, b, h1, h2, h3, h4⟩ := he i j
        exact k2 (z j) c0 a b (hz j) h1 h2 h3 h4 (ht i j)
      have hne : NeB IR := fun j => (hs j).2.1
      cases o with
      | keep => exact trimGo_ok hs h
      | narrow Z =>
        obtain ⟨g1, g2⟩ := trimGo_ok (setI_sub hs (Sub.trans k1 (hs j))) h
        exact ⟨g1, fun z hz he ht => g2 z (setI_mem hz (k3 z hz he ht)) he ht⟩
      | empty =>
        cases h
        exact ⟨trivial, k3⟩
      | split Z1 Z2 =>
        cases h
        exact ⟨⟨recover_ne (setI_ne hne k1.1.2.1), recover_ne (setI_ne hne k1.2.2.1)⟩, fun z hz he ht =>
          (k3 z hz he ht).imp (fun h => recover_mem (setI_mem hz h)) fun h => recover_mem (setI_mem hz h)⟩

/-! ## sub-boxes with the derivatives of the original box -/

theorem good_of_sub {W Z : Interval D} (h : Sub W Z) (hm : Moderate Z) : Good W := by
  have hbig : (binary64).Rep big := Format.rep_of_repU big_repU (by
    have := maxQ_large
    have := big_pos
    rw [abs_of_pos (by linarith)]; linarith)
  refine ⟨width_fin_of_le h.1 (a := (Hw.fin big hbig : D)) finD_fin ?_, h.2.1⟩
  have e : ((big : ℚ) : ℝ) = 2 ^ 1023 := by unfold big; push_cast; rfl
  have := hm.2.2
  rw [dbl_fin, e]
  generalize (2 : ℝ) ^ 1023 = w at *
  linarith [h.2.2.1, h.2.2.2]

open Classical in
/-- the program which differentiates on `Iorg` when asked for `I` -/
noncomputable def narrow (P : Prog n) (I Iorg : Vec n (Interval D)) : Prog n where
  F := P.F
  FD X := if X = I then P.FD Iorg else .error .undefined

section
variable {P : Prog n} {dom : (Fin n → ℝ) → Prop} {f : (Fin n → ℝ) → Fin n → ℝ} {I Iorg fi fc : Vec n (Interval D)} {J : Mat n n (Interval D)}
  {R : Mat n n D} {fuel : ℕ} {giveup : D} {inv : Inverter n}

theorem narrow_sound (hP : P.Sound dom f) (hs : ∀ x, InB I x → InB Iorg x) : (narrow P I Iorg).Sound dom f where
  val := hP.val
  der := by
    intro X Y J x h hx
    unfold narrow at h
    dsimp only at h
    split_ifs at h with e
    rw [e] at hx
    exact hP.der h (hs x hx)

theorem narrow_FD : (narrow P I Iorg).FD I = P.FD Iorg := by
  unfold narrow
  dsimp only
  rw [if_pos rfl]

theorem image_narrow (M : Mat n n (Interval D)) (K : Vec n (Interval D)) : image (narrow P I Iorg) R M K = image P R M K := rfl

theorem separate_narrow (M : Mat n n (Interval D)) (p p2 : Vec n (Interval D)) : ∀ (k : ℕ) (K : Vec n (Interval D)),
    separate (narrow P I Iorg) R M p p2 k K = separate P R M p p2 k K
  | 0, _ => rfl
  | k + 1, K => by
    rw [separate, separate, image_narrow]
    congr 1
    funext I1
    dsimp only
    rw [separate_narrow M p p2 k]

theorem known_narrow (M : Mat n n (Interval D)) (B : Vec n (Interval D)) : ∀ (l : List (Vec n (Interval D) × Vec n (Interval D))) (K : Vec n (Interval D)),
    known fuel (narrow P I Iorg) R M B l K = known fuel P R M B l K
  | [], _ => rfl
  | (p, p2) :: l, K => by
    rw [known, known, separate_narrow, known_narrow M B l]
    split_ifs
    · rfl
    · congr 1
      funext ⟨K1, b⟩
      dsimp only
      rw [known_narrow M B l]
    · rfl

/-- what is known when the existence test was successful -/
structure Tested (P : Prog n) (dom : (Fin n → ℝ) → Prop) (f : (Fin n → ℝ) → Fin n → ℝ) (I K : Vec n (Interval D)) (R : Mat n n D)
    (M : Mat n n (Interval D)) : Prop where
  bd : ∀ i, Bd (K i)
  noInf : ∀ i k, NoInf (R i k)
  sub : ∀ x, InB K x → InB I x
  zero : ∃ z, InB K z ∧ f z = 0 ∧ ∀ y, InB I y → f y = 0 → y = z
  prog : ∃ (P' : Prog n) (fi : Vec n (Interval D)) (J : Mat n n (Interval D)), P'.Sound dom f ∧ P'.FD I = .ok (fi, J) ∧ M = Vleq.emRA R J ∧
    ∀ fuel B l K, known fuel P' R M B l K = known fuel P R M B l K

theorem exTest_ok (hP : P.Sound dom f) (hJ : P.FD Iorg = .ok (fi, J)) (hO : ∀ i, Bd (Iorg i)) (hM : ∀ i, Moderate (Iorg i))
    (hs : ∀ i, Sub (I i) (Iorg i)) (hfc : P.F (pointV (midV I)) = .ok fc) {o : Pre n} (h : exTest giveup inv Iorg I (pointV (midV I)) fc J = .ok o) :
    o.ne ∧ (∀ I' K R M, o = .test I' K R M → Tested P dom f I' K R M) ∧
    ((∀ R, inv (midM J) = some R → ∀ i k, NoInf (R i k)) → ∀ z, InB I z → f z = 0 → o.keeps z) := by
  have hne : NeB I := fun i => (hs i).2.1
  have hdiv : ∀ I', NeB I' → divide giveup I' Iorg = .ok o → o.ne ∧ (∀ I' K R M, o = .test I' K R M → Tested P dom f I' K R M) ∧
      ∀ z, InB I' z → o.keeps z := fun I' hI' h => by
    obtain ⟨h1, h2, h3⟩ := divide_ok h hI'
    exact ⟨h1, fun I'' K R M e => absurd e (h2 I'' K R M), h3⟩
  have hsub : ∀ x, InB I x → InB Iorg x := fun x hx i => (hs i).mem (hO i) (hx i)
  have hP' := narrow_sound hP hsub
  have hJ' : (narrow P I Iorg).FD I = .ok (fi, J) := narrow_FD.trans hJ
  have hfc' : (narrow P I Iorg).F (pointV (midV I)) = .ok fc := hfc
  have hG : GoodB I := fun i => good_of_sub (hs i) (hM i)
  unfold exTest at h
  by_cases c1 : zeroInV (skipBox fc J I (pointV (midV I))) = true
  swap
  · rw [if_pos (by simpa using c1)] at h
    obtain ⟨h1, h2, h3⟩ := hdiv I hne h
    exact ⟨h1, h2, fun _ z hz _ => h3 z hz⟩
  rw [if_neg (by simp [c1])] at h
  split at h
  · obtain ⟨h1, h2, h3⟩ := hdiv I hne h
    exact ⟨h1, h2, fun _ z hz _ => h3 z hz⟩
  rename_i R hR
  have hK : ∀ i, Interval.add (Interval.sub (pointV (midV I) i) (prodSV R fc i)) (prodIV (Vleq.emRA R J) (fun j => Interval.sub (I j) (pointV (midV I) j)) i)
      = Kraw.boxK (midV I) (prodSV R fc) (Vleq.emRA R J) I i := fun i => rfl
  simp only [hK] at h
  set K : Vec n (Interval D) := fun i => Kraw.boxK (midV I) (prodSV R fc) (Vleq.emRA R J) I i with hKdef
  by_cases ho : overlapV K I = true
  swap
  · rw [if_pos (by simpa using ho)] at h; cases h
    rw [Bool.not_eq_true] at ho
    refine ⟨trivial, fun I' K R M h => (by cases h), fun hN z hz h0 => ?_⟩
    have hzK := AllsolSimple.zero_mem_boxK hP' hJ' hG hfc' (hN R hR) hz h0
    exact absurd ⟨hzK, hz⟩ (overlapV_false (fun i => ⟨z i, hzK i⟩) (fun i => ⟨z i, hz i⟩) ho z)
  rw [if_neg (by simp [ho])] at h
  have hov := fun i => overlap_good (hG i).bd (hG i).2 (allV_iff.1 ho i)
  split_ifs at h with hp hr
  · cases h
    rw [Bool.and_eq_true] at hp
    obtain ⟨e1, e2, e3⟩ := AllsolSimple.exists_unique hP' hJ' hG hfc' ho hp.1
    refine ⟨trivial, fun I' K' R' M' h => ?_, fun _ z hz _ => hz⟩
    cases h
    exact ⟨e1, e2, fun x hx i => properSubset_sub (allV_iff.1 hp.1 i) (hx i), e3,
      ⟨_, fi, J, hP', hJ', rfl, fun fuel B l K => known_narrow _ _ l K⟩⟩
  · cases h
    have hmem : ∀ i (x : ℝ), x ∈ K i → x ∈ recover2 K Iorg i := by
      intro i x hx
      unfold recover2
      dsimp only
      split_ifs
      · exact hull_mem hx
      · exact hx
    refine ⟨fun B hB => ?_, fun I' K R M h => (by cases h), fun hN z hz h0 => ?_⟩
    · rw [List.mem_singleton] at hB
      rw [hB]
      intro i
      obtain ⟨-, -, -, ⟨x, hx⟩, g⟩ := hov i
      exact ⟨x, hmem i x ((g x).1 hx).2⟩
    · exact ⟨_, by simp, fun i => hmem i _ (AllsolSimple.zero_mem_boxK hP' hJ' hG hfc' (hN R hR) hz h0 i)⟩
  · obtain ⟨h1, h2, h3⟩ := hdiv _ (recover_ne fun i => (hov i).2.2.2.1) h
    refine ⟨h1, h2, fun hN z hz h0 => h3 z (recover_mem fun i => ?_)⟩
    exact ((hov i).2.2.2.2 _).2 ⟨hz i, AllsolSimple.zero_mem_boxK hP' hJ' hG hfc' (hN R hR) hz h0 i⟩

/-- the mean value form contains zero if the box contains a zero of `f` -/
theorem mvf_zero (hP : P.Sound dom f) (hJ : P.FD Iorg = .ok (fi, J)) (hsub : ∀ x, InB I x → InB Iorg x) {c : Fin n → D}
    (hc : ∀ i, FinD (c i) ∧ dbl (c i) ∈ I i) (hfc : P.F (pointV c) = .ok fc) {z : Fin n → ℝ} (hz : InB I z) (h0 : f z = 0) :
    (∀ i, f (fun i => dbl (c i)) i ∈ fc i) ∧
    ∀ i, ∃ A : Fin n → Fin n → ℝ, (∀ i j, A i j ∈ J i j) ∧ f (fun i => dbl (c i)) i + ∑ j, A i j * (z j - dbl (c j)) = 0 := by
  have hpt : ∀ i, dbl (c i) ∈ pointV c i := fun i => point_mem (is_dbl' (hc i).1)
  have hci : InB Iorg fun i => dbl (c i) := hsub _ fun i => (hc i).2
  refine ⟨hP.val hfc hpt (hP.der hJ hci).1, fun i => ?_⟩
  obtain ⟨A, hA, e⟩ := f_mvt (S := fun i => {x : ℝ | x ∈ Iorg i}) (P := fun A => ∀ i j, A i j ∈ J i j) (f := f) (fun i => Kraw.ordConnected_mem (Iorg i))
    (fun x hx => (hP.der hJ hx).2.2) (x := z) (y := fun i => dbl (c i)) (hsub z hz) hci i
  exact ⟨A, hA, by rw [← e, h0]; simp⟩

theorem mvf_test (hP : P.Sound dom f) (hJ : P.FD Iorg = .ok (fi, J)) (hsub : ∀ x, InB I x → InB Iorg x) {c : Fin n → D}
    (hc : ∀ i, FinD (c i) ∧ dbl (c i) ∈ I i) (hfc : P.F (pointV c) = .ok fc) {z : Fin n → ℝ} (hz : InB I z) (h0 : f z = 0) :
    zeroInV (mvf fc J I (pointV c)) = true := by
  obtain ⟨h1, h2⟩ := mvf_zero hP hJ hsub hc hfc hz h0
  refine allV_iff.2 fun i => (C07_zero_in _).2 ?_
  obtain ⟨A, hA, e⟩ := h2 i
  have := add_mem (h1 i) (prodIV_mem (G := A) (i := i) (hA i) fun j => sub_mem (hz j) (point_mem (is_dbl' (hc j).1)))
  rw [e] at this
  exact this

/-- Conditions on a processed box for zeros to be kept: (1) the approximate inverse has no infinite entries; (2) trimming meets no
numerator with zero on its boundary. -/
structure Fit (inv : Inverter n) (P : Prog n) (I : Vec n (Interval D)) : Prop where
  noOverflow : NoOverflow inv P I
  safe : ∀ fi J fc, hasInfV I = false → P.FD I = .ok (fi, J) → P.F (pointV (midInfV I)) = .ok fc →
    ∀ i j, TrimSafe (numer fc J I (pointV (midInfV I)) i j) (J i j)

/-- a finite box which may contain a zero has moderate bounds -/
def Mod (P : Prog n) (I : Vec n (Interval D)) : Prop :=
  ∀ fi, hasInfV I = false → P.F I = .ok fi → zeroInV fi = true → ∀ i, Moderate (I i)

theorem afterTrim_ok (hP : P.Sound dom f) (hJ : P.FD Iorg = .ok (fi, J)) (hO : ∀ i, Bd (Iorg i)) (hN : NeB Iorg) (hM : ∀ i, Moderate (Iorg i))
    (hfc : P.F (pointV (midV Iorg)) = .ok fc) {t : Trim n} {o : Pre n} (ht : t.sub Iorg)
    (h : afterTrim giveup inv P Iorg (pointV (midV Iorg)) fc J t = .ok o) :
    o.ne ∧ (∀ I' K R M, o = .test I' K R M → Tested P dom f I' K R M) ∧
    ((∀ R, inv (midM J) = some R → ∀ i k, NoInf (R i k)) → ∀ z, InB Iorg z → t.keeps z → f z = 0 → o.keeps z) := by
  match t, ht, h with
  | .empty, ht, h =>
    cases h
    exact ⟨trivial, fun I' K R M h => (by cases h), fun _ z _ hk _ => hk⟩
  | .split I1 I2, ht, h =>
    cases h
    refine ⟨fun B hB => ?_, fun I' K R M h => (by cases h), fun _ z _ hk _ => ?_⟩
    · simp only [List.mem_cons, List.not_mem_nil, or_false] at hB
      rcases hB with rfl | rfl
      · exact ht.1
      · exact ht.2
    · rcases hk with hk | hk
      · exact ⟨I1, by simp, hk⟩
      · exact ⟨I2, by simp, hk⟩
  | .done IR false, ht, h =>
    obtain ⟨h1, h2, h3⟩ := exTest_ok hP hJ hO hM (fun i => Sub.refl (hO i) (hN i)) hfc h
    exact ⟨h1, h2, fun hR z hz _ h0 => h3 hR z hz h0⟩
  | .done IR true, ht, h =>
    have hs : ∀ i, Sub (recover IR Iorg i) (Iorg i) := fun i => by
      obtain ⟨r1, r2, r3⟩ := recover1_room (ht i).1 (ht i).2.1 (hO i) (hM i) (ht i).2.2.1 (ht i).2.2.2
      exact ⟨r1, (ht i).2.1.imp fun _ h => recover1_mem h, r2, r3⟩
    have hsub : ∀ x, InB (recover IR Iorg) x → InB Iorg x := fun x hx i => (hs i).mem (hO i) (hx i)
    unfold afterTrim at h
    dsimp only at h
    obtain ⟨a, ha, h⟩ := bind_ok.1 h
    match a, ha, h with
    | none, ha, h =>
      obtain ⟨h1, h2, h3⟩ := divide_ok h fun i => (hs i).2.1
      exact ⟨h1, fun I'' K R M e => absurd e (h2 I'' K R M), fun _ z _ hk _ => h3 z (recover_mem hk)⟩
    | some fc', ha, h =>
      have hfc' := Kraw.catchDom_some.1 ha
      dsimp only at h
      split_ifs at h with c
      · cases h
        refine ⟨trivial, fun I' K R M h => (by cases h), fun _ z _ hk h0 => ?_⟩
        have := mvf_test hP hJ hsub (c := midV (recover IR Iorg)) (fun i => mid_bd (hs i).1 (hs i).2.1) hfc' (recover_mem hk) h0
        rw [this] at c; cases c
      · obtain ⟨h1, h2, h3⟩ := exTest_ok hP hJ hO hM hs hfc' h
        exact ⟨h1, h2, fun hR z _ hk h0 => h3 hR z (recover_mem hk) h0⟩

theorem pre_ok (hP : P.Sound dom f) (hI : NeB I) (hM : Mod P I) {o : Pre n} (h : pre giveup inv P I = .ok o) :
    o.ne ∧ (∀ I' K R M, o = .test I' K R M → Tested P dom f I' K R M) ∧
    (Fit inv P I → ∀ z, InB I z → dom z → f z = 0 → o.keeps z) := by
  have hdiv : divide giveup I I = .ok o → o.ne ∧ (∀ I' K R M, o = .test I' K R M → Tested P dom f I' K R M) ∧
      (Fit inv P I → ∀ z, InB I z → dom z → f z = 0 → o.keeps z) := fun h => by
    obtain ⟨h1, h2, h3⟩ := divide_ok h hI
    exact ⟨h1, fun I'' K R M e => absurd e (h2 I'' K R M), fun _ z hz _ _ => h3 z hz⟩
  unfold pre at h
  obtain ⟨a, ha, h⟩ := bind_ok.1 h
  match a, ha, h with
  | none, ha, h => exact hdiv h
  | some f1, ha, h =>
    have hf1 := Kraw.catchDom_some.1 ha
    dsimp only at h
    by_cases c1 : zeroInV f1 = true
    swap
    · rw [if_pos (by simpa using c1)] at h; cases h
      refine ⟨trivial, fun I' K R M h => (by cases h), fun _ z hz hd h0 => c1 ?_⟩
      exact allV_iff.2 fun i => (C07_zero_in _).2 (by
        have := hP.val hf1 hz hd i
        rw [h0] at this; exact this)
    rw [if_neg (by simp [c1])] at h
    obtain ⟨b, hb, h⟩ := bind_ok.1 h
    match b, hb, h with
    | none, hb, h => exact hdiv h
    | some (f2, J), hb, h =>
      have hJ := Kraw.catchDom_some.1 hb
      dsimp only at h
      obtain ⟨b, hb, h⟩ := bind_ok.1 h
      match b, hb, h with
      | none, hb, h => exact hdiv h
      | some fc, hb, h =>
        have hfc := Kraw.catchDom_some.1 hb
        dsimp only at h
        have hm : ∀ i, FinD (midInfV I i) ∧ dbl (midInfV I i) ∈ I i := fun i => midInf_mem (hI i)
        by_cases c2 : zeroInV (mvf fc J I (pointV (midInfV I))) = true
        swap
        · rw [if_pos (by simpa using c2)] at h; cases h
          exact ⟨trivial, fun I' K R M h => (by cases h), fun _ z hz _ h0 => c2 (mvf_test hP hJ (fun _ h => h) hm hfc hz h0)⟩
        rw [if_neg (by simp [c2])] at h
        by_cases c3 : hasInfV I = true
        · rw [if_pos c3] at h
          exact hdiv h
        rw [if_neg c3] at h
        rw [Bool.not_eq_true] at c3
        have hO := hasInfV_false hI c3
        have hMo := hM f1 c3 hf1 c1
        have em : midInfV I = midV I := funext fun i => midInf_bd (hO i)
        obtain ⟨t, ht, h⟩ := bind_ok.1 h
        obtain ⟨t1, t2⟩ := trimGo_ok (fun j => Sub.refl (hO j) (hI j)) ht
        have h' := h
        rw [em] at h' hfc
        obtain ⟨k1, k2, k3⟩ := afterTrim_ok hP hJ hO hI hMo hfc t1 h'
        refine ⟨k1, k2, fun hF z hz _ h0 => k3 (fun R hR => hF.noOverflow _ _ _ hJ hR) z hz (t2 z hz (fun i j => ?_) ?_) h0⟩
        · rw [← em] at hfc
          obtain ⟨m1, m2⟩ := mvf_zero hP hJ (fun _ h => h) hm hfc hz h0
          obtain ⟨A, hA, e⟩ := m2 i
          have hpt : ∀ j, dbl (midInfV I j) ∈ pointV (midInfV I) j := fun j => point_mem (is_dbl' (hm j).1)
          obtain ⟨a, ha, e'⟩ := numer_mem j (m1 i) (hA i) hz hpt e
          exact ⟨_, a, A i j, hpt j, ha, hA i j, e'⟩
        · rw [← em] at hfc
          exact hF.safe _ _ _ c3 hJ hfc

/-! ## the critical section -/

theorem refine_ok (hP : P.Sound dom f) {z : Fin n → ℝ} (h0 : f z = 0) :
    ∀ {k : ℕ} {R : Mat n n D} {K K' : Vec n (Interval D)} {l : List (Vec n (Interval D))}, (∀ i k, NoInf (R i k)) → InB K z → (∀ i, Bd (K i)) →
    refine inv P k R K = .ok (K', l) → (∀ B ∈ l, NoOverflow inv P B) → InB K' z ∧ ∀ x, InB K' x → InB K x
  | 0, _, _, _, _, _, _, _, h, _ => by cases h
  | k + 1, R, K, K', l, hR, hz, hb, h, hl => by
    rw [refine] at h
    obtain ⟨⟨f1, J⟩, hJ, h⟩ := bind_ok.1 h
    dsimp only at h
    obtain ⟨I1, hI1, h⟩ := bind_ok.1 h
    have hK : K ∈ l := by
      split_ifs at h
      · cases h; simp
      · obtain ⟨t, -, h⟩ := bind_ok.1 h
        cases h; simp
    have hR' : ∀ i k, NoInf (((inv (midM J)).getD R) i k) := by
      cases e : inv (midM J) with
      | none => exact hR
      | some R1 => exact hl K hK f1 J R1 hJ e
    obtain ⟨s1, s2, s3⟩ := AllsolSimple.shrink hz (AllsolSimple.image_mem hP hJ hR' hz h0 hb (fun _ h => h) hI1) hb
    split_ifs at h
    · cases h
      exact ⟨s1, s2⟩
    · obtain ⟨⟨K2, l2⟩, ht, h⟩ := bind_ok.1 h
      cases h
      obtain ⟨t1, t2⟩ := refine_ok hP h0 hR' s1 s3 ht fun B hB => hl B (by simp [hB])
      exact ⟨t1, fun x hx => s2 x (t2 x hx)⟩

theorem crit_ok (hP : P.Sound dom f) {sols : List (Vec n (Interval D) × Vec n (Interval D))} (hs : ∀ q ∈ sols, Sol f q) {K : Vec n (Interval D)}
    {M : Mat n n (Interval D)} (hT : Tested P dom f I K R M) {r : Option (Vec n (Interval D) × List (Vec n (Interval D)))}
    (h : crit fuel inv P sols I K R M = .ok r) :
    (r = none → ∀ z, InB I z → f z = 0 → ∃ q ∈ sols, InB q.1 z) ∧
    ∀ K' l, r = some (K', l) → (∀ B ∈ l, NoOverflow inv P B) → Sol f (K', I) ∧ (∀ q ∈ sols, ∀ x, ¬ (InB K' x ∧ InB q.1 x)) ∧
      ∀ z, InB I z → f z = 0 → InB K' z := by
  obtain ⟨hb, hR, hsub, ⟨z, z1, z2, z3⟩, P', f1, J, hP', hJ', rfl, hk⟩ := hT
  unfold crit at h
  obtain ⟨o, ho, h⟩ := bind_ok.1 h
  rw [← hk] at ho
  obtain ⟨t1, t2⟩ := AllsolSimple.known_ok hP' hJ' hR z2 z3 hs z1 hb hsub ho
  match o, t1, t2, h with
  | none, t1, t2, h =>
    cases h
    exact ⟨fun _ w hw hw0 => by rw [z3 w hw hw0]; exact t1 rfl, fun K' l h => by cases h⟩
  | some K1, t1, t2, h =>
    obtain ⟨t, ht, h⟩ := bind_ok.1 h
    cases h
    refine ⟨fun h => (by cases h), ?_⟩
    rintro K' l h hl
    cases h
    obtain ⟨v1, v2, v3, v4⟩ := t2 K1 rfl
    obtain ⟨w1, w2⟩ := refine_ok hP z2 hR v1 v3 ht hl
    exact ⟨⟨fun x hx => hsub x (v2 x (w2 x hx)), z, w1, z2, z3⟩, fun q hq x hx => v4 q hq x ⟨w2 x hx.1, hx.2⟩, fun w hw hw0 => by
      rw [z3 w hw hw0]; exact w1⟩

/-! ## the main loop -/

/-- the boxes processed by the main loop, in order, with the boxes used for refinement -/
def trace (fuel : ℕ) (giveup : D) (inv : Inverter n) (P : Prog n) : ℕ → St n → List (Vec n (Interval D) × List (Vec n (Interval D)))
  | 0, _ => []
  | k + 1, s =>
    match s.targets with
    | [] => []
    | I :: tg =>
      match step fuel giveup inv P s I tg with
      | .ok t => (I, t.2) :: trace fuel giveup inv P k t.1
      | .error _ => [(I, [])]

/-- a zero is accounted for by the state -/
def St.keeps (s : St n) (z : Fin n → ℝ) : Prop := (∃ B ∈ s.targets, InB B z) ∨ (∃ q ∈ s.sols, InB q.1 z) ∨ ∃ B ∈ s.rest, InB B z

/-- the invariant of the main loop -/
structure Inv (f : (Fin n → ℝ) → Fin n → ℝ) (s : St n) : Prop where
  targets : ∀ B ∈ s.targets, NeB B
  rest : ∀ B ∈ s.rest, NeB B
  sol : ∀ q ∈ s.sols, Sol f q
  disj : Disj s.sols

/-- one pass of the main loop; `s` is a state with the same solutions, `tg` the remaining targets -/
theorem step_ok (hP : P.Sound dom f) {s t : St n} {l tg : List (Vec n (Interval D))} (hs : Inv f ⟨I :: tg, s.sols, s.rest⟩) (hM : Mod P I)
    (h : step fuel giveup inv P s I tg = .ok (t, l)) (hl : ∀ B ∈ l, NoOverflow inv P B) :
    Inv f t ∧ (Fit inv P I → ∀ z, dom z → f z = 0 → St.keeps ⟨I :: tg, s.sols, s.rest⟩ z → t.keeps z) := by
  unfold step at h
  obtain ⟨o, ho, h⟩ := bind_ok.1 h
  obtain ⟨p1, p2, p3⟩ := pre_ok hP (hs.targets I (by simp)) hM ho
  have htg : ∀ B ∈ tg, NeB B := fun B hB => hs.targets B (by simp [hB])
  -- where a point can be
  have split : ∀ z, St.keeps ⟨I :: tg, s.sols, s.rest⟩ z → InB I z ∨ St.keeps ⟨tg, s.sols, s.rest⟩ z := by
    rintro z (⟨B, hB, hz⟩ | hz | hz)
    · rcases List.mem_cons.1 hB with rfl | hB
      · exact .inl hz
      · exact .inr (.inl ⟨B, hB, hz⟩)
    · exact .inr (.inr (.inl hz))
    · exact .inr (.inr (.inr hz))
  cases o with
  | drop =>
    cases h
    exact ⟨⟨htg, hs.rest, hs.sol, hs.disj⟩, fun hF z hd h0 hz => (split z hz).elim (fun hz => (p3 hF z hz hd h0).elim) id⟩
  | push l =>
    cases h
    refine ⟨⟨fun B hB => ?_, hs.rest, hs.sol, hs.disj⟩, fun hF z hd h0 hz => ?_⟩
    · rcases List.mem_append.1 hB with hB | hB
      · exact htg B hB
      · exact p1 B hB
    · rcases split z hz with hz | ⟨B, hB, hz⟩ | hz
      · obtain ⟨B, hB, hz⟩ := p3 hF z hz hd h0
        exact .inl ⟨B, by simp [hB], hz⟩
      · exact .inl ⟨B, by simp [hB], hz⟩
      · exact .inr hz
  | giveUp B =>
    cases h
    obtain ⟨u1, u2⟩ := unify_ok hs.rest p1
    refine ⟨⟨htg, u1, hs.sol, hs.disj⟩, fun hF z hd h0 hz => ?_⟩
    rcases split z hz with hz | hz | hz | hz
    · exact .inr (.inr (u2 z (.inr (p3 hF z hz hd h0))))
    · exact .inl hz
    · exact .inr (.inl hz)
    · exact .inr (.inr (u2 z (.inl hz)))
  | test I' K R M =>
    obtain ⟨r, hr, h⟩ := bind_ok.1 h
    obtain ⟨c1, c2⟩ := crit_ok hP hs.sol (p2 I' K R M rfl) hr
    match r, c1, c2, h with
    | none, c1, c2, h =>
      cases h
      refine ⟨⟨htg, hs.rest, hs.sol, hs.disj⟩, fun hF z hd h0 hz => (split z hz).elim (fun hz => ?_) id⟩
      exact .inr (.inl (c1 rfl z (p3 hF z hz hd h0) h0))
    | some (K', l'), c1, c2, h =>
      cases h
      obtain ⟨d1, d2, d3⟩ := c2 K' l rfl hl
      refine ⟨⟨htg, hs.rest, fun q hq => ?_, ?_⟩, fun hF z hd h0 hz => ?_⟩
      · rcases List.mem_append.1 hq with hq | hq
        · exact hs.sol q hq
        · rw [List.mem_singleton] at hq; rw [hq]; exact d1
      · refine List.pairwise_append.2 ⟨hs.disj, List.pairwise_singleton _ _, fun q hq q' hq' x hx => ?_⟩
        rw [List.mem_singleton] at hq'
        rw [hq'] at hx
        exact d2 q hq x hx.symm
      · rcases split z hz with hz | hz | ⟨q, hq, hz⟩ | hz
        · exact .inr (.inl ⟨(K', I'), by simp, d3 z (p3 hF z hz hd h0) h0⟩)
        · exact .inl hz
        · exact .inr (.inl ⟨q, by simp [hq], hz⟩)
        · exact .inr (.inr hz)

theorem loop_ok (hP : P.Sound dom f) : ∀ {k : ℕ} {s t : St n}, Inv f s →
    (∀ T ∈ trace fuel giveup inv P k s, NeB T.1 → Mod P T.1 ∧ ∀ B ∈ T.2, NoOverflow inv P B) → loop fuel giveup inv P k s = .ok t →
    Inv f t ∧ ((∀ T ∈ trace fuel giveup inv P k s, NeB T.1 → Fit inv P T.1) → ∀ z, dom z → f z = 0 → s.keeps z →
      (∃ q ∈ t.sols, InB q.1 z) ∨ ∃ B ∈ t.rest, InB B z) := by
  have fin : ∀ {k : ℕ} {s t : St n}, s.targets = [] → Inv f s → loop fuel giveup inv P k s = .ok t →
      Inv f t ∧ ((∀ T ∈ trace fuel giveup inv P k s, NeB T.1 → Fit inv P T.1) → ∀ z, dom z → f z = 0 → s.keeps z →
      (∃ q ∈ t.sols, InB q.1 z) ∨ ∃ B ∈ t.rest, InB B z) := by
    rintro k ⟨tg, so, re⟩ t rfl hi h
    rw [loop.eq_def] at h
    cases h
    refine ⟨hi, fun _ z _ _ hz => ?_⟩
    rcases hz with ⟨B, hB, -⟩ | hz
    · cases hB
    · exact hz
  intro k
  induction k with
  | zero =>
    rintro ⟨tg, so, re⟩ t hi hM h
    cases tg with
    | nil => exact fin rfl hi h
    | cons I tg => rw [loop.eq_def] at h; cases h
  | succ k ih =>
    rintro ⟨tg, so, re⟩ t hi hM h
    cases tg with
    | nil => exact fin rfl hi h
    | cons I tg =>
      rw [loop.eq_def] at h
      obtain ⟨⟨s', l⟩, hst, h⟩ := bind_ok.1 h
      have etr : trace fuel giveup inv P (k + 1) ⟨I :: tg, so, re⟩ = (I, l) :: trace fuel giveup inv P k s' := by
        rw [trace]
        simp only [hst]
      rw [etr] at hM ⊢
      obtain ⟨m1, m2⟩ := hM (I, l) (by simp) (hi.targets I (by simp))
      obtain ⟨s1, s2⟩ := step_ok (s := ⟨I :: tg, so, re⟩) hP hi m1 hst m2
      obtain ⟨t1, t2⟩ := ih s1 (fun T hT => hM T (by simp [hT])) h
      exact ⟨t1, fun hF z hd h0 hz => t2 (fun T hT => hF T (by simp [hT])) z hd h0 (s2 (hF (I, l) List.mem_cons_self (hi.targets I (by simp))) z hd h0 hz)⟩

end

end Allsol
end Kv
