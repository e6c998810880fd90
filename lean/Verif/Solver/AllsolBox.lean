import Verif.Solver.AllsolTrim

/-! # Boxes in allsol.hpp: midpoints of infinite boxes, division, the list `rest` (helper lemmas) -/

namespace Kv
open RopSem Kv.Interval
open Rop (lit)
open LA

namespace Allsol
variable {n : ℕ}

theorem mid_comm (a b : D) : mid (⟨a, b⟩ : Interval D) = mid ⟨b, a⟩ := by
  have hadd : ∀ x y : D, Rop.add x y = Rop.add y x := by
    intro x y
    show (Fl.add .near x y : Fl binary64) = Fl.add .near y x
    cases x <;> cases y <;> simp [Fl.add, add_comm]
  unfold mid
  dsimp only
  rw [Bool.and_comm, hadd (Rop.mul a _), hadd a b]

theorem maxv_fin : FinD (Rop.maxv : D) := isFinD_iff.1 (by decide +kernel)

theorem negMaxv_fin : FinD (Rop.neg Rop.maxv : D) := isFinD_iff.1 (by decide +kernel)

theorem le_maxv {a : D} (h : FinD a) : dbl (Rop.neg Rop.maxv : D) ≤ dbl a ∧ dbl a ≤ dbl (Rop.maxv : D) := by
  obtain ⟨q, hq, e⟩ := finD_fin' h
  have e1 : (Rop.maxv : D) = Hw.fin (binary64.maxQ) Format.maxQ_rep := rfl
  have e2 : (Rop.neg Rop.maxv : D) = Hw.fin (-binary64.maxQ) Format.maxQ_rep.neg := rfl
  have := abs_le.1 hq.abs_le
  rw [e, e2, e1, dbl_fin, dbl_fin, dbl_fin]
  exact ⟨by exact_mod_cast this.1, by exact_mod_cast this.2⟩

/-- the four shapes of a nonempty interval -/
theorem shape {I : Interval D} (h : I.Nonempty) :
    (I.inf = Rop.neg Rop.inf ∨ FinD I.inf) ∧ (I.sup = Rop.inf ∨ FinD I.sup) := by
  obtain ⟨n1, n2, n3, n4, -⟩ := h.not_nan
  constructor
  · rcases D_cases I.inf with h' | h' | h' | h'
    · exact absurd h' n1
    · rw [h', val_dPinf] at n3; exact absurd rfl n3
    · exact .inl h'
    · exact .inr h'
  · rcases D_cases I.sup with h' | h' | h' | h'
    · exact absurd h' n2
    · exact .inl h'
    · rw [h', val_dNinf] at n4; exact absurd rfl n4
    · exact .inr h'

theorem eq_inf_fin {a : D} (h : FinD a) : Rop.eq a (Rop.inf : D) = false ∧ Rop.eq a (Rop.neg Rop.inf : D) = false := by
  obtain ⟨q, hq, e⟩ := finD_fin' h
  rw [e]
  exact ⟨rfl, rfl⟩

theorem eq_inf : Rop.eq (Rop.inf : D) Rop.inf = true := rfl
theorem eq_ninf : Rop.eq (Rop.neg Rop.inf : D) (Rop.neg Rop.inf) = true := rfl

theorem hasInf_false {I : Interval D} (h : I.Nonempty) (hi : hasInf I = false) : Bd I := by
  unfold hasInf at hi
  rw [Bool.or_eq_false_iff] at hi
  obtain ⟨h1, h2⟩ := shape h
  constructor
  · rcases h1 with h1 | h1
    · rw [h1, eq_ninf] at hi; cases hi.1
    · exact h1
  · rcases h2 with h2 | h2
    · rw [h2, eq_inf] at hi; cases hi.2
    · exact h2

theorem hasInfV_false {I : Vec n (Interval D)} (h : ∀ i, (I i).Nonempty) (hi : hasInfV I = false) (i : Fin n) : Bd (I i) := by
  unfold hasInfV at hi
  rw [List.any_eq_false] at hi
  refine hasInf_false (h i) ?_
  have := hi (hasInf (I i)) (by rw [List.mem_ofFn']; exact ⟨i, rfl⟩)
  simpa using this

theorem hasInfV_bd {I : Vec n (Interval D)} (h : ∀ i, Bd (I i)) : hasInfV I = false := by
  unfold hasInfV
  rw [List.any_eq_false]
  intro b hb
  rw [List.mem_ofFn'] at hb
  obtain ⟨i, rfl⟩ := hb
  simp [hasInf, (eq_inf_fin (h i).1).2, (eq_inf_fin (h i).2).1]

/-- `mid_infinity` is a finite point of the interval -/
theorem midInf_mem {I : Interval D} (h : I.Nonempty) : FinD (midInf I) ∧ dbl (midInf I) ∈ I := by
  obtain ⟨h1, h2⟩ := shape h
  unfold midInf
  rcases h2 with h2 | h2
  · rw [h2, eq_inf, if_pos rfl]
    rcases h1 with h1 | h1
    · rw [h1, eq_ninf, if_pos rfl]
      refine ⟨isFinD_iff.1 (by decide +kernel), ?_, ?_⟩
      · rw [h1]; exact lo_neg_inf _
      · rw [h2]; exact hi_inf _
    · rw [(eq_inf_fin h1).2, if_neg (by simp), mid_comm]
      have hb : Bd (⟨I.inf, Rop.maxv⟩ : Interval D) := ⟨h1, maxv_fin⟩
      obtain ⟨m1, m2⟩ := mid_bd hb (hb.nonempty (le_maxv h1).2)
      exact ⟨m1, m2.1, by rw [h2]; exact hi_inf _⟩
  · rw [(eq_inf_fin h2).1, if_neg (by simp)]
    rcases h1 with h1 | h1
    · rw [h1, eq_ninf, if_pos rfl]
      have hb : Bd (⟨Rop.neg Rop.maxv, I.sup⟩ : Interval D) := ⟨negMaxv_fin, h2⟩
      obtain ⟨m1, m2⟩ := mid_bd hb (hb.nonempty (le_maxv h2).1)
      exact ⟨m1, by rw [h1]; exact lo_neg_inf _, m2.2⟩
    · rw [(eq_inf_fin h1).2, if_neg (by simp)]
      exact mid_bd ⟨h1, h2⟩ h

theorem midInf_bd {I : Interval D} (h : Bd I) : midInf I = mid I := by
  unfold midInf
  rw [(eq_inf_fin h.2).1, (eq_inf_fin h.1).2]; rfl

/-! ## division -/

/-- every component is nonempty -/
def NeB (B : Vec n (Interval D)) : Prop := ∀ i, (B i).Nonempty

/-- the halves of an interval -/
theorem half_mem {I : Interval D} {m : D} (hm : FinD m) {x : ℝ} (hx : x ∈ I) : (x ∈ (⟨I.inf, m⟩ : Interval D)) ∨ x ∈ (⟨m, I.sup⟩ : Interval D) := by
  have im := is_dbl' hm
  rcases le_total x (dbl m) with hle | hle
  · exact .inl ⟨hx.1, im.1, by rw [im.2]; exact EReal.coe_le_coe_iff.2 hle⟩
  · exact .inr ⟨⟨im.1, by rw [im.2]; exact EReal.coe_le_coe_iff.2 hle⟩, hx.2⟩

theorem half_ne {I : Interval D} {m : D} (hm : FinD m) (h : dbl m ∈ I) : (⟨I.inf, m⟩ : Interval D).Nonempty ∧ (⟨m, I.sup⟩ : Interval D).Nonempty := by
  have im := is_dbl' hm
  exact ⟨⟨dbl m, h.1, im.1, im.2.ge⟩, ⟨dbl m, ⟨im.1, im.2.le⟩, h.2⟩⟩

theorem setI_mem {I : Vec n (Interval D)} {j : Fin n} {Z : Interval D} {z : Fin n → ℝ} (hz : InB I z) (h : z j ∈ Z) :
    InB (AllsolSimple.setI I j Z) z := by
  intro i
  unfold AllsolSimple.setI
  split_ifs with hi
  · rw [hi]; exact h
  · exact hz i

theorem setI_ne {I : Vec n (Interval D)} {j : Fin n} {Z : Interval D} (hI : NeB I) (h : Z.Nonempty) : NeB (AllsolSimple.setI I j Z) := by
  intro i
  unfold AllsolSimple.setI
  split_ifs with hi
  · exact h
  · exact hI i

theorem searchFin_fin {I : Vec n (Interval D)} {i : Fin n} (h : searchFin I = some i) : hasInf (I i) = false := by
  unfold searchFin at h
  have key : ∀ (l : List (Fin n)) (s : D × Option (Fin n)), (∀ i, s.2 = some i → hasInf (I i) = false) →
      ∀ i, (l.foldl (fun (s : D × Option (Fin n)) i =>
        if hasInf (I i) then s
        else
          let tmp := weight (I i)
          if Rop.lt s.1 tmp then (tmp, some i) else s) s).2 = some i → hasInf (I i) = false := by
    intro l
    induction l with
    | nil => exact fun s hs => hs
    | cons a l ih =>
      intro s hs
      rw [List.foldl_cons]
      refine ih _ ?_
      intro i hi
      dsimp only at hi
      split_ifs at hi with c1 c2
      · exact hs i hi
      · cases hi; simpa using c1
      · exact hs i hi
  exact key _ _ (fun i h => by cases h) i h

theorem splitFin_ok {B : Vec n (Interval D)} {mi : Fin n} (hB : NeB B) :
    (∀ X ∈ (splitFin B mi).1, NeB X) ∧ NeB (splitFin B mi).2 ∧
    ∀ z, InB B z → (∃ X ∈ (splitFin B mi).1, InB X z) ∨ InB (splitFin B mi).2 z := by
  unfold splitFin
  split_ifs with c
  · split
    · exact ⟨fun X hX => (by cases hX), hB, fun z hz => .inr hz⟩
    · rename_i mi2 h2
      have hb := hasInf_false (hB mi2) (searchFin_fin h2)
      obtain ⟨m1, m2⟩ := mid_bd hb (hB mi2)
      obtain ⟨e1, e2⟩ := half_ne m1 m2
      dsimp only
      refine ⟨fun X hX => ?_, setI_ne hB e1, fun z hz => ?_⟩
      · rw [List.mem_singleton] at hX; rw [hX]; exact setI_ne hB e2
      · rcases half_mem m1 (hz mi2) with h | h
        · exact .inr (setI_mem hz h)
        · exact .inl ⟨_, List.mem_singleton.2 rfl, setI_mem hz h⟩
  · exact ⟨fun X hX => (by cases hX), hB, fun z hz => .inr hz⟩

/-- boxes put back or given up are nonempty -/
def Pre.ne : Pre n → Prop
  | .push l => ∀ B ∈ l, NeB B
  | .giveUp I => NeB I
  | _ => True

/-- the effect on a zero `z` of the examined box -/
def Pre.keeps (z : Fin n → ℝ) : Pre n → Prop
  | .drop => False
  | .push l => ∃ B ∈ l, InB B z
  | .giveUp I => InB I z
  | .test I _ _ _ => InB I z

theorem divide_ok {giveup : D} {I Iorg : Vec n (Interval D)} {o : Pre n} (h : divide giveup I Iorg = .ok o) (hI : NeB I) :
    o.ne ∧ (∀ I' K R M, o ≠ .test I' K R M) ∧ ∀ z, InB I z → o.keeps z := by
  unfold divide at h
  split_ifs at h with c
  · cases h
    exact ⟨fun B hB => (by rw [List.mem_singleton] at hB; rw [hB]; exact hI), fun _ _ _ _ => nofun, fun z hz => ⟨I, by simp, hz⟩⟩
  · split at h
    · cases h
    · rename_i mi hmi
      dsimp only at h
      split_ifs at h with c2
      · cases h
        exact ⟨hI, fun _ _ _ _ => nofun, fun z hz => hz⟩
      · cases h
        obtain ⟨m1, m2⟩ := midInf_mem (hI mi)
        obtain ⟨e1, e2⟩ := half_ne m1 m2
        obtain ⟨p1, p2, p3⟩ := splitFin_ok (mi := mi) (setI_ne (j := mi) hI e1)
        obtain ⟨q1, q2, q3⟩ := splitFin_ok (mi := mi) (setI_ne (j := mi) hI e2)
        refine ⟨fun B hB => ?_, fun _ _ _ _ => nofun, fun z hz => ?_⟩
        · simp only [List.mem_append, List.mem_cons, List.not_mem_nil, or_false] at hB
          rcases hB with (hB | hB) | rfl | rfl
          · exact p1 B hB
          · exact q1 B hB
          · exact p2
          · exact q2
        · rcases half_mem m1 (hz mi) with h | h
          · rcases p3 z (setI_mem hz h) with ⟨X, hX, h⟩ | h
            · exact ⟨X, by simp [hX], h⟩
            · exact ⟨_, by simp, h⟩
          · rcases q3 z (setI_mem hz h) with ⟨X, hX, h⟩ | h
            · exact ⟨X, by simp [hX], h⟩
            · exact ⟨_, by simp, h⟩

/-! ## the list `rest` -/

theorem hullV_left {I p : Vec n (Interval D)} {x : Fin n → ℝ} (h : InB I x) : InB (hullV I p) x := fun i => hull_mem (h i)

theorem hullV_right {I p : Vec n (Interval D)} (hI : NeB I) (hp : NeB p) {x : Fin n → ℝ} (h : InB p x) : InB (hullV I p) x := fun i =>
  C07_hull_contains (hI i) (hp i) (.inr (h i))

theorem hullV_ne {I p : Vec n (Interval D)} (hI : NeB I) : NeB (hullV I p) := fun i => (hI i).imp fun _ h => hull_mem h

/-- a point is covered by the list or by the box -/
def Cov (l : List (Vec n (Interval D))) (I : Vec n (Interval D)) (z : Fin n → ℝ) : Prop := (∃ B ∈ l, InB B z) ∨ InB I z

theorem unifyPass_ok : ∀ {l : List (Vec n (Interval D))} {I : Vec n (Interval D)}, (∀ B ∈ l, NeB B) → NeB I →
    (∀ B ∈ (unifyPass l I).2.1, NeB B) ∧ NeB (unifyPass l I).1 ∧ ∀ z, Cov l I z → Cov (unifyPass l I).2.1 (unifyPass l I).1 z
  | [], I, _, hI => ⟨fun B hB => (by cases hB), hI, fun z hz => hz⟩
  | p :: l, I, hl, hI => by
    have hp := hl p (by simp)
    have hl' : ∀ B ∈ l, NeB B := fun B hB => hl B (by simp [hB])
    rw [unifyPass]
    split_ifs with c
    · obtain ⟨h1, h2, h3⟩ := unifyPass_ok hl' (hullV_ne (p := p) hI)
      refine ⟨h1, h2, fun z hz => h3 z ?_⟩
      rcases hz with ⟨B, hB, hz⟩ | hz
      · rcases List.mem_cons.1 hB with rfl | hB
        · exact .inr (hullV_right hI hp hz)
        · exact .inl ⟨B, hB, hz⟩
      · exact .inr (hullV_left hz)
    · obtain ⟨h1, h2, h3⟩ := unifyPass_ok hl' hI
      refine ⟨fun B hB => ?_, h2, fun z hz => ?_⟩
      · rcases List.mem_cons.1 hB with rfl | hB
        · exact hp
        · exact h1 B hB
      · have : InB p z ∨ Cov l I z := by
          rcases hz with ⟨B, hB, hz⟩ | hz
          · rcases List.mem_cons.1 hB with rfl | hB
            · exact .inl hz
            · exact .inr (.inl ⟨B, hB, hz⟩)
          · exact .inr (.inr hz)
        rcases this with hz | hz
        · exact .inl ⟨p, by simp, hz⟩
        · rcases h3 z hz with ⟨B, hB, hz⟩ | hz
          · exact .inl ⟨B, by simp [hB], hz⟩
          · exact .inr hz

theorem unifyGo_ok : ∀ {k : ℕ} {l : List (Vec n (Interval D))} {I : Vec n (Interval D)}, (∀ B ∈ l, NeB B) → NeB I →
    (∀ B ∈ unifyGo k l I, NeB B) ∧ ∀ z, Cov l I z → ∃ B ∈ unifyGo k l I, InB B z := by
  have fin : ∀ {l : List (Vec n (Interval D))} {I : Vec n (Interval D)}, (∀ B ∈ l, NeB B) → NeB I →
      (∀ B ∈ l ++ [I], NeB B) ∧ ∀ z, Cov l I z → ∃ B ∈ l ++ [I], InB B z := by
    intro l I hl hI
    refine ⟨fun B hB => ?_, fun z hz => ?_⟩
    · rcases List.mem_append.1 hB with hB | hB
      · exact hl B hB
      · rw [List.mem_singleton] at hB; rw [hB]; exact hI
    · rcases hz with ⟨B, hB, hz⟩ | hz
      · exact ⟨B, by simp [hB], hz⟩
      · exact ⟨I, by simp, hz⟩
  intro k
  induction k with
  | zero => exact fun hl hI => fin hl hI
  | succ k ih =>
    intro l I hl hI
    obtain ⟨h1, h2, h3⟩ := unifyPass_ok hl hI
    rw [unifyGo]
    split_ifs with c
    · obtain ⟨g1, g2⟩ := ih h1 h2
      exact ⟨g1, fun z hz => g2 z (h3 z hz)⟩
    · obtain ⟨g1, g2⟩ := fin h1 h2
      exact ⟨g1, fun z hz => g2 z (h3 z hz)⟩

theorem unify_ok {l : List (Vec n (Interval D))} {I : Vec n (Interval D)} (hl : ∀ B ∈ l, NeB B) (hI : NeB I) :
    (∀ B ∈ unify l I, NeB B) ∧ ∀ z, Cov l I z → ∃ B ∈ unify l I, InB B z := unifyGo_ok hl hI

end Allsol
end Kv
