import Verif.Solver.Lp
import Verif.Solver.LpReal
import Verif.Affine.Lemmas

/-! # The verified simplex method: helper lemmas -/

namespace Kv
namespace Lp
open RopSem Kv.Interval
open Rop (lit lt le)
open Finset (Icc)

/-! ## matrices -/

def Shape (m n : ℕ) (a : Tab) : Prop := a.length = m + 1 ∧ ∀ r ∈ a, r.length = n + 1

theorem shape_tab (m n : ℕ) (f : ℕ → ℕ → D) : Shape m n (tab m n f) := by
  refine ⟨by simp [tab], fun r hr => ?_⟩
  simp only [tab, List.mem_map] at hr
  obtain ⟨i, _, rfl⟩ := hr
  simp

theorem get_tab {m n i j : ℕ} (f : ℕ → ℕ → D) (hi : i ≤ m) (hj : j ≤ n) : get (tab m n f) i j = f i j := by
  unfold get tab
  rw [List.getD_eq_getElem (List.map _ _) [] (by simp; omega)]
  simp only [List.getElem_map, List.getElem_range]
  rw [List.getD_eq_getElem _ _ (by simp; omega)]
  simp

theorem get_put {m n : ℕ} {a : Tab} (h : Shape m n a) {i j : ℕ} (hi : i ≤ m) (hj : j ≤ n) (v : D) (i' j' : ℕ) :
    get (put a i j v) i' j' = if i' = i ∧ j' = j then v else get a i' j' := by
  have hl : i < a.length := by rw [h.1]; omega
  have hr : (a.getD i []).length = n + 1 := by
    rw [List.getD_eq_getElem _ _ hl]; exact h.2 _ (List.getElem_mem _)
  unfold get put
  by_cases h1 : i' = i
  · subst h1
    rw [List.getD_eq_getElem (a.set _ _) _ (by simpa using hl), List.getElem_set_self]
    by_cases h2 : j' = j
    · subst h2
      rw [if_pos ⟨rfl, rfl⟩, List.getD_eq_getElem _ _ (by rw [List.length_set, hr]; omega), List.getElem_set_self]
    · rw [if_neg (by tauto), List.getD_eq_getElem?_getD, List.getElem?_set_ne (Ne.symm h2), ← List.getD_eq_getElem?_getD]
  · rw [if_neg (by tauto), List.getD_eq_getElem?_getD (l := a.set _ _), List.getElem?_set_ne (Ne.symm h1),
      ← List.getD_eq_getElem?_getD]

theorem shape_put {m n : ℕ} {a : Tab} (h : Shape m n a) {i j : ℕ} (hi : i ≤ m) (v : D) : Shape m n (put a i j v) := by
  have hl : i < a.length := by rw [h.1]; omega
  refine ⟨by simp [put, h.1], fun r hr => ?_⟩
  rcases List.mem_or_eq_of_mem_set hr with h1 | h1
  · exact h.2 r h1
  · rw [h1, List.length_set, List.getD_eq_getElem _ _ hl]; exact h.2 _ (List.getElem_mem _)

theorem finD_lit0 : FinD (lit 0 : D) := ⟨0, lit_zero.1, by rw [lit_zero.2]; simp⟩

theorem finTab_get {a : Tab} (h : finTab a = true) (i j : ℕ) : FinD (get a i j) := by
  unfold finTab at h
  rw [List.all_eq_true] at h
  unfold get
  by_cases h1 : i < a.length
  · rw [List.getD_eq_getElem _ _ h1]
    have h2 := h _ (List.getElem_mem h1)
    rw [List.all_eq_true] at h2
    by_cases h3 : j < a[i].length
    · rw [List.getD_eq_getElem _ _ h3]; exact isFinD_iff.1 (h2 _ (List.getElem_mem h3))
    · rw [List.getD_eq_default _ _ (by omega)]; exact finD_lit0
  · rw [List.getD_eq_default a _ (by omega)]
    exact finD_lit0

/-- the real matrix -/
noncomputable def R (a : Tab) (i j : ℕ) : ℝ := dbl (get a i j)

/-! ## choice of the pivot -/

theorem pivotCol_some {a : Tab} {isb : List Bool} {n q : ℕ} (h : pivotCol a isb n = some q) : q ∈ Icc 1 n := by
  have key : ∀ (l : List ℕ) (s : Option ℕ × D), (∀ i ∈ l, i ∈ Icc 1 n) → (∀ q, s.1 = some q → q ∈ Icc 1 n) →
      ∀ q, (l.foldl (fun (s : Option ℕ × D) i =>
        if isb.getD i false then s else if lt s.2 (get a 0 i) then (some i, get a 0 i) else s) s).1 = some q → q ∈ Icc 1 n := by
    intro l
    induction l with
    | nil => intro s _ hs q hq; exact hs q hq
    | cons i l ih =>
      intro s hl hs q hq
      rw [List.foldl_cons] at hq
      refine ih _ (fun k hk => hl k (List.mem_cons_of_mem _ hk)) ?_ q hq
      intro q' hq'
      split_ifs at hq'
      · exact hs q' hq'
      · simp only [Option.some.injEq] at hq'; rw [← hq']; exact hl i List.mem_cons_self
      · exact hs q' hq'
  exact key _ _ (fun i hi => by simp [List.mem_range'] at hi; rw [Finset.mem_Icc]; omega) (fun q hq => by simp at hq) q h

theorem pivotCol_none {a : Tab} {isb : List Bool} {n : ℕ} (h : pivotCol a isb n = none) :
    ∀ j ∈ Icc 1 n, isb.getD j false = false → lt (lit 0) (get a 0 j) = false := by
  have mono : ∀ (l : List ℕ) (s : Option ℕ × D), s.1 ≠ none → (l.foldl (fun (s : Option ℕ × D) i =>
        if isb.getD i false then s else if lt s.2 (get a 0 i) then (some i, get a 0 i) else s) s).1 ≠ none := by
    intro l
    induction l with
    | nil => intro s hs; exact hs
    | cons i l ih =>
      intro s hs
      rw [List.foldl_cons]
      apply ih
      split_ifs <;> simp [hs]
  have key : ∀ (l : List ℕ), (l.foldl (fun (s : Option ℕ × D) i =>
        if isb.getD i false then s else if lt s.2 (get a 0 i) then (some i, get a 0 i) else s) (none, lit 0)).1 = none →
      ∀ j ∈ l, isb.getD j false = false → lt (lit 0) (get a 0 j) = false := by
    intro l
    induction l with
    | nil => intro _ j hj; simp at hj
    | cons i l ih =>
      intro hl j hj hb
      rw [List.foldl_cons] at hl
      by_cases h1 : isb.getD i false = true
      · rw [if_pos h1] at hl
        rcases List.mem_cons.1 hj with h2 | h2
        · rw [h2, h1] at hb; cases hb
        · exact ih hl j h2 hb
      · rw [if_neg h1] at hl
        by_cases h3 : lt (lit 0 : D) (get a 0 i) = true
        · rw [if_pos h3] at hl
          exact absurd hl (mono l _ (by simp))
        · rw [if_neg h3] at hl
          rcases List.mem_cons.1 hj with h2 | h2
          · rw [h2]; exact Bool.eq_false_iff.2 h3
          · exact ih hl j h2 hb
  intro j hj
  exact key _ h j (by rw [Finset.mem_Icc] at hj; rw [List.mem_range'_1]; omega)

theorem pivotRow_some {a : Tab} {q m p : ℕ} (h : pivotRow a q m = some p) : p ∈ Icc 1 m ∧ ¬ le (get a p q) (lit 0) = true := by
  have key : ∀ (l : List ℕ) (s : Option ℕ × D), (∀ i ∈ l, i ∈ Icc 1 m) →
      (∀ p, s.1 = some p → p ∈ Icc 1 m ∧ ¬ le (get a p q) (lit 0) = true) →
      ∀ p, (l.foldl (fun (s : Option ℕ × D) i =>
    if le (get a i q) (lit 0) then s
    else if lt (Rop.div (get a i 0) (get a i q)) s.2 then (some i, Rop.div (get a i 0) (get a i q)) else s) s).1 = some p →
      p ∈ Icc 1 m ∧ ¬ le (get a p q) (lit 0) = true := by
    intro l
    induction l with
    | nil => intro s _ hs p hp; exact hs p hp
    | cons i l ih =>
      intro s hl hs p hp
      rw [List.foldl_cons] at hp
      refine ih _ (fun k hk => hl k (List.mem_cons_of_mem _ hk)) ?_ p hp
      intro p' hp'
      split_ifs at hp' with h1 h2
      · exact hs p' hp'
      · simp only [Option.some.injEq] at hp'; rw [← hp']; exact ⟨hl i List.mem_cons_self, h1⟩
      · exact hs p' hp'
  exact key _ _ (fun i hi => by simp [List.mem_range'] at hi; rw [Finset.mem_Icc]; omega) (fun q hq => by simp at hq) p h

/-! ## moving the right-hand sides -/

theorem hi_denormMin : Hi denormMin 0 := by
  have hr : binary64.Rep (2 ^ (-1074 : ℤ)) := ⟨1, -1074, by decide, by decide, by decide, by simp⟩
  have e : denormMin = (Hw.fin _ hr : D) := Fl.round_of_rep .near hr
  rw [e]
  refine ⟨Hw.not_nan_fin _ hr, ?_⟩
  rw [Hw.val_fin]
  have : (0 : ℝ) ≤ ((2 ^ (-1074 : ℤ) : ℚ) : ℝ) := by positivity
  exact_mod_cast this

theorem raise_hi {Imin : Interval D} {aq : D} {c : ℝ} : ∀ {fuel : ℕ} {b b' : D}, raise Imin aq fuel b = .ok b' → Hi b c → Hi b' c := by
  intro fuel
  induction fuel with
  | zero => intro b b' h; simp [raise] at h
  | succ fuel ih =>
    intro b b' h hb
    obtain ⟨It, h1, h2⟩ := bind_ok.1 h
    by_cases h3 : lt Imin.sup It.inf = true
    · rw [if_pos h3] at h2; cases h2; exact hb
    · rw [if_neg h3] at h2
      refine ih h2 ?_
      have := Hi.add hb hi_denormMin
      rw [add_zero] at this
      exact this

theorem lower_lo {It : Interval D} {aq : D} {c : ℝ} : ∀ {fuel : ℕ} {b : D} {Imin : Interval D} {r : D × Interval D},
    lower It aq fuel b Imin = .ok r → Lo b c → Lo r.1 c := by
  intro fuel
  induction fuel with
  | zero => intro b Imin r h; simp [lower] at h
  | succ fuel ih =>
    intro b Imin r h hb
    unfold lower at h
    by_cases h3 : lt Imin.sup It.inf = true
    · rw [if_pos h3] at h; cases h; exact hb
    · rw [if_neg h3] at h
      obtain ⟨I', h1, h2⟩ := bind_ok.1 h
      refine ih h2 ?_
      have := Lo.sub hb hi_denormMin
      rw [sub_zero] at this
      exact this


theorem adjustRow_down {m n fuel p q : ℕ} {s s' : Tab × Interval D} {i : ℕ} (h : adjustRow fuel (-1) p q s i = .ok s')
    (hs : Shape m n s.1) (hi : i ∈ Icc 1 m) :
    Shape m n s'.1 ∧ (∀ k j, ¬ (j = 0 ∧ k ∈ Icc 1 m) → get s'.1 k j = get s.1 k j) ∧
      ∀ k c, Hi (get s.1 k 0) c → Hi (get s'.1 k 0) c := by
  rw [Finset.mem_Icc] at hi
  unfold adjustRow at h
  by_cases h1 : le (get s.1 i q) (lit 0) = true ∨ i = p
  · rw [if_pos h1] at h; cases h; exact ⟨hs, fun _ _ _ => rfl, fun _ _ h => h⟩
  · rw [if_neg h1, if_pos rfl] at h
    obtain ⟨b, hb, h2⟩ := bind_ok.1 h
    cases h2
    refine ⟨shape_put hs hi.2 b, fun k j hkj => ?_, fun k c hc => ?_⟩
    · rw [get_put hs hi.2 (Nat.zero_le _), if_neg]
      rintro ⟨rfl, rfl⟩
      exact hkj ⟨rfl, Finset.mem_Icc.2 hi⟩
    · rw [get_put hs hi.2 (Nat.zero_le _)]
      by_cases hk : k = i
      · rw [if_pos ⟨hk, rfl⟩]; rw [hk] at hc; exact raise_hi hb hc
      · rw [if_neg (by tauto)]; exact hc

theorem adjustRow_up {m n fuel p q : ℕ} {s s' : Tab × Interval D} {i : ℕ} (h : adjustRow fuel 1 p q s i = .ok s')
    (hs : Shape m n s.1) (hp : p ∈ Icc 1 m) :
    Shape m n s'.1 ∧ (∀ k j, ¬ (j = 0 ∧ k ∈ Icc 1 m) → get s'.1 k j = get s.1 k j) ∧
      ∀ k c, Lo (get s.1 k 0) c → Lo (get s'.1 k 0) c := by
  rw [Finset.mem_Icc] at hp
  unfold adjustRow at h
  by_cases h1 : le (get s.1 i q) (lit 0) = true ∨ i = p
  · rw [if_pos h1] at h; cases h; exact ⟨hs, fun _ _ _ => rfl, fun _ _ h => h⟩
  · rw [if_neg h1, if_neg (by decide)] at h
    obtain ⟨It, _, h2⟩ := bind_ok.1 h
    obtain ⟨⟨b, I⟩, hb, h2⟩ := bind_ok.1 h2
    cases h2
    refine ⟨shape_put hs hp.2 b, fun k j hkj => ?_, fun k c hc => ?_⟩
    · rw [get_put hs hp.2 (Nat.zero_le _), if_neg]
      rintro ⟨rfl, rfl⟩
      exact hkj ⟨rfl, Finset.mem_Icc.2 hp⟩
    · rw [get_put hs hp.2 (Nat.zero_le _)]
      by_cases hk : k = p
      · rw [if_pos ⟨hk, rfl⟩]; rw [hk] at hc; exact lower_lo hb hc
      · rw [if_neg (by tauto)]; exact hc

theorem adjust_down {m n fuel p q : ℕ} {a a' : Tab} (h : adjust fuel (-1) a p q m = .ok a') (hs : Shape m n a) :
    Shape m n a' ∧ (∀ k j, ¬ (j = 0 ∧ k ∈ Icc 1 m) → get a' k j = get a k j) ∧
      ∀ k c, Hi (get a k 0) c → Hi (get a' k 0) c := by
  obtain ⟨I, _, h2⟩ := bind_ok.1 h
  obtain ⟨s, h3, h4⟩ := bind_ok.1 h2
  cases h4
  have key : ∀ (l : List ℕ) (s0 : Tab × Interval D), (∀ i ∈ l, i ∈ Icc 1 m) → Shape m n s0.1 →
      l.foldlM (adjustRow fuel (-1) p q) s0 = .ok s →
      Shape m n s.1 ∧ (∀ k j, ¬ (j = 0 ∧ k ∈ Icc 1 m) → get s.1 k j = get s0.1 k j) ∧
        ∀ k c, Hi (get s0.1 k 0) c → Hi (get s.1 k 0) c := by
    intro l
    induction l with
    | nil => intro s0 _ hs0 h; cases h; exact ⟨hs0, fun _ _ _ => rfl, fun _ _ h => h⟩
    | cons i l ih =>
      intro s0 hl hs0 h
      rw [List.foldlM_cons] at h
      obtain ⟨s1, h5, h6⟩ := bind_ok.1 h
      obtain ⟨g1, g2, g3⟩ := adjustRow_down h5 hs0 (hl i List.mem_cons_self)
      obtain ⟨f1, f2, f3⟩ := ih s1 (fun k hk => hl k (List.mem_cons_of_mem _ hk)) g1 h6
      exact ⟨f1, fun k j hkj => (f2 k j hkj).trans (g2 k j hkj), fun k c hc => f3 k c (g3 k c hc)⟩
  exact key _ _ (fun i hi => by simp [List.mem_range'] at hi; rw [Finset.mem_Icc]; omega) hs h3

theorem adjust_up {m n fuel p q : ℕ} {a a' : Tab} (h : adjust fuel 1 a p q m = .ok a') (hs : Shape m n a) (hp : p ∈ Icc 1 m) :
    Shape m n a' ∧ (∀ k j, ¬ (j = 0 ∧ k ∈ Icc 1 m) → get a' k j = get a k j) ∧
      ∀ k c, Lo (get a k 0) c → Lo (get a' k 0) c := by
  obtain ⟨I, _, h2⟩ := bind_ok.1 h
  obtain ⟨s, h3, h4⟩ := bind_ok.1 h2
  cases h4
  have key : ∀ (l : List ℕ) (s0 : Tab × Interval D), Shape m n s0.1 →
      l.foldlM (adjustRow fuel 1 p q) s0 = .ok s →
      Shape m n s.1 ∧ (∀ k j, ¬ (j = 0 ∧ k ∈ Icc 1 m) → get s.1 k j = get s0.1 k j) ∧
        ∀ k c, Lo (get s0.1 k 0) c → Lo (get s.1 k 0) c := by
    intro l
    induction l with
    | nil => intro s0 hs0 h; cases h; exact ⟨hs0, fun _ _ _ => rfl, fun _ _ h => h⟩
    | cons i l ih =>
      intro s0 hs0 h
      rw [List.foldlM_cons] at h
      obtain ⟨s1, h5, h6⟩ := bind_ok.1 h
      obtain ⟨g1, g2, g3⟩ := adjustRow_up h5 hs0 hp
      obtain ⟨f1, f2, f3⟩ := ih s1 g1 h6
      exact ⟨f1, fun k j hkj => (f2 k j hkj).trans (g2 k j hkj), fun k c hc => f3 k c (g3 k c hc)⟩
  exact key _ _ hs h3

/-! ## the pivot step -/

theorem mapM_getD {α β : Type} {f : α → Res β} : ∀ {l : List α} {r : List β}, l.mapM f = .ok r →
    ∀ (j : ℕ) (hj : j < l.length) (d : β), f l[j] = .ok (r.getD j d) := by
  intro l
  induction l with
  | nil => intro r _ j hj; simp at hj
  | cons x l ih =>
    intro r h j hj d
    rw [List.mapM_cons] at h
    obtain ⟨y, h1, h2⟩ := bind_ok.1 h
    obtain ⟨t, h3, h4⟩ := bind_ok.1 h2
    cases h4
    cases j with
    | zero => simpa using h1
    | succ j => simpa using ih h3 j (by simpa using hj) d

/-- invariant: the basic columns are unit vectors -/
structure Inv (m n : ℕ) (s : St) : Prop where
  shape : Shape m n s.a
  ident : Ident m n (R s.a) fun k => s.bas.getD k 0
  lb : s.bas.length = m + 1
  li : s.isb.length = n + 1
  isb : ∀ j ≤ n, s.isb.getD j false = true ↔ ∃ k ∈ Icc 1 m, s.bas.getD k 0 = j
  fin : ∀ i j, FinD (get s.a i j)

theorem getD_set {α : Type} (l : List α) (i j : ℕ) (x d : α) :
    (l.set i x).getD j d = if i = j ∧ i < l.length then x else l.getD j d := by
  rw [List.getD_eq_getElem?_getD, List.getElem?_set, List.getD_eq_getElem?_getD]
  by_cases h : i = j
  · subst h
    by_cases h2 : i < l.length
    · simp [h2]
    · simp [h2]
  · simp [h]

/-- `isbasic` after the exchange -/
theorem isb_step {m n : ℕ} {s : St} (hI : Inv m n s) {p q : ℕ} (hp : p ∈ Icc 1 m) (hq : q ∈ Icc 1 n) {j : ℕ} (hj : j ≤ n) :
    ((s.isb.set (s.bas.getD p 0) false).set q true).getD j false = true ↔
      ∃ k ∈ Icc 1 m, (s.bas.set p q).getD k 0 = j := by
  have hp' := Finset.mem_Icc.1 hp
  have hq' := Finset.mem_Icc.1 hq
  rw [getD_set, getD_set, List.length_set, hI.li]
  obtain ⟨hb1, hb2⟩ := hI.ident p hp
  rw [Finset.mem_Icc] at hb1
  by_cases h1 : q = j
  · rw [if_pos ⟨h1, by omega⟩]
    refine ⟨fun _ => ⟨p, hp, ?_⟩, fun _ => rfl⟩
    rw [getD_set, hI.lb, if_pos ⟨rfl, by omega⟩, h1]
  · rw [if_neg (by tauto)]
    by_cases h2 : s.bas.getD p 0 = j
    · rw [if_pos ⟨h2, by omega⟩]
      refine ⟨fun h => (by cases h), ?_⟩
      rintro ⟨k, hk, h⟩
      exfalso
      rw [getD_set, hI.lb] at h
      by_cases h3 : p = k
      · rw [if_pos ⟨h3, by omega⟩] at h; exact h1 h
      · rw [if_neg (by tauto)] at h
        have h4 := (hI.ident k hk).2 p hp'.2
        have h5 := hb2 p hp'.2
        simp only at h4 h5
        rw [h] at h4; rw [h2] at h5
        rw [h5, if_neg h3] at h4
        norm_num at h4
    · rw [if_neg (by tauto), hI.isb j hj]
      constructor
      · rintro ⟨k, hk, h⟩
        refine ⟨k, hk, ?_⟩
        rw [getD_set, if_neg, h]
        rintro ⟨h3, _⟩
        rw [h3] at h2; exact h2 h
      · rintro ⟨k, hk, h⟩
        rw [getD_set, hI.lb] at h
        by_cases h3 : p = k
        · rw [if_pos ⟨h3, by omega⟩] at h; exact absurd h h1
        · rw [if_neg (by tauto)] at h; exact ⟨k, hk, h⟩

/-- the new entries compared with the exact pivot step -/
theorem entry_bounds {m n : ℕ} {a : Tab} {isb : List Bool} {row : List (Interval D)} {p q : ℕ} {bas : ℕ → ℕ}
    (hid : Ident m n (R a) bas) (hfin : ∀ i j, FinD (get a i j)) (hp : p ∈ Icc 1 m) (h0 : R a p q ≠ 0)
    (hisb : ∀ j ≤ n, isb.getD j false = true ↔ j = q ∨ ∃ k ∈ Icc 1 m, k ≠ p ∧ bas k = j)
    (hrow : pivRow a isb p q n = .ok row) {round : ℤ} {i j : ℕ} (hj : j ≤ n)
    (hf : FinD (newEntry a isb row round p q i j)) :
    (isb.getD j false = true → dbl (newEntry a isb row round p q i j) = piv (R a) p q i j) ∧
    ((decide (j = 0) ^^ decide (round = 1) ^^ decide (i = 0)) = true → piv (R a) p q i j ≤ dbl (newEntry a isb row round p q i j)) ∧
    ((decide (j = 0) ^^ decide (round = 1) ^^ decide (i = 0)) = false → dbl (newEntry a isb row round p q i j) ≤ piv (R a) p q i j) := by
  have hp' := Finset.mem_Icc.1 hp
  by_cases hb : isb.getD j false = true
  · have key : dbl (newEntry a isb row round p q i j) = piv (R a) p q i j := by
      unfold newEntry
      rw [if_pos hb]
      by_cases h1 : j = q
      · rw [if_pos h1]
        unfold piv
        rw [h1]
        by_cases h2 : i = p
        · rw [if_pos h2, if_pos h2, dbl_one, div_self h0]
        · rw [if_neg h2, if_neg h2, dbl_zero, div_self h0]; ring
      · rw [if_neg h1]
        obtain h | ⟨k, hk, hkp, hkj⟩ := (hisb j hj).1 hb
        · exact absurd h h1
        · obtain ⟨_, h3⟩ := hid k hk
          have h4 := h3 p hp'.2
          rw [if_neg (Ne.symm hkp), hkj] at h4
          unfold piv
          rw [h4]
          by_cases h2 : i = p
          · rw [if_pos h2, h2]; change R a p j = _; rw [h4]; simp
          · rw [if_neg h2]; change R a i j = _; ring
    exact ⟨fun _ => key, fun _ => key.ge, fun _ => key.le⟩
  · refine ⟨fun h => absurd h hb, ?_⟩
    have hr := mapM_getD hrow j (by simp; omega) (Interval.point (lit 0))
    simp only [List.getElem_range] at hr
    rw [if_neg hb] at hr
    set Rj := row.getD j (Interval.point (lit 0)) with hRj
    have hm : R a p j / R a p q ∈ Rj := sDiv_mem hr (point_mem (is_dbl' (hfin p q))) (is_dbl' (hfin p j))
    unfold newEntry at hf ⊢
    rw [if_neg hb] at hf ⊢
    simp only [← hRj] at hf ⊢
    by_cases h2 : i = p
    · rw [if_pos h2] at hf ⊢
      have hi0 : decide (i = 0) = false := by simp; omega
      rw [hi0, Bool.xor_false]
      unfold piv
      rw [if_pos h2]
      by_cases hx : (decide (j = 0) ^^ decide (round = 1)) = true
      · rw [if_pos hx] at hf ⊢
        exact ⟨fun _ => (hiD_iff hf).1 hm.2, fun h => by rw [hx] at h; cases h⟩
      · rw [if_neg hx] at hf ⊢
        exact ⟨fun h => absurd h hx, fun _ => (loD_iff hf).1 hm.1⟩
    · rw [if_neg h2] at hf ⊢
      unfold piv
      rw [if_neg h2]
      have hI : R a i j - R a p j / R a p q * R a i q ∈
          Interval.sSub (get a i j) (Interval.mul Rj (Interval.point (get a i q))) :=
        sSub_mem (mul_mem hm (point_mem (is_dbl' (hfin i q)))) (is_dbl' (hfin i j))
      by_cases hx : (decide (j = 0) ^^ decide (round = 1) ^^ decide (i = 0)) = true
      · rw [if_pos hx] at hf ⊢
        exact ⟨fun _ => (hiD_iff hf).1 hI.2, fun h => by rw [hx] at h; cases h⟩
      · rw [if_neg hx] at hf ⊢
        exact ⟨fun h => absurd h hx, fun _ => (loD_iff hf).1 hI.1⟩

/-- one turn of the outer loop -/
structure Step (fi : ℕ) (round : ℤ) (m n : ℕ) (s : St) (q p : ℕ) (a : Tab) (row : List (Interval D)) (s' : St) : Prop where
  col : pivotCol s.a s.isb n = some q
  prow : pivotRow s.a q m = some p
  adj : adjust fi round s.a p q m = .ok a
  hrow : pivRow a s'.isb p q n = .ok row
  isb : s'.isb = (s.isb.set (s.bas.getD p 0) false).set q true
  bas : s'.bas = s.bas.set p q
  htab : s'.a = tab m n (newEntry a s'.isb row round p q)
  fin : s'.fin = (s.fin && finTab a && finTab s'.a)

theorem loop_step {fi : ℕ} {round : ℤ} {m n fuel : ℕ} {s r : St} (h : loop fi round m n (fuel + 1) s = .ok r) :
    (pivotCol s.a s.isb n = none ∧ r = s) ∨
      ∃ q p a row s', Step fi round m n s q p a row s' ∧ loop fi round m n fuel s' = .ok r := by
  unfold loop at h
  cases hc : pivotCol s.a s.isb n with
  | none => rw [hc] at h; cases h; exact Or.inl ⟨rfl, rfl⟩
  | some q =>
    rw [hc] at h
    cases hr : pivotRow s.a q m with
    | none => simp only [hr] at h; cases h
    | some p =>
      simp only [hr] at h
      obtain ⟨a, h1, h2⟩ := bind_ok.1 h
      obtain ⟨row, h3, h4⟩ := bind_ok.1 h2
      exact Or.inr ⟨q, p, a, row, _, ⟨hc, hr, h1, h3, rfl, rfl, rfl, rfl⟩, h4⟩

theorem loop_fin {fi : ℕ} {round : ℤ} {m n : ℕ} : ∀ {fuel : ℕ} {s r : St}, loop fi round m n fuel s = .ok r → r.fin = true →
    s.fin = true := by
  intro fuel
  induction fuel with
  | zero => intro s r h; cases h
  | succ fuel ih =>
    intro s r h hr
    rcases loop_step h with ⟨_, rfl⟩ | ⟨q, p, a, row, s', hs, h'⟩
    · exact hr
    · have := ih h' hr
      rw [hs.fin, Bool.and_eq_true, Bool.and_eq_true] at this
      exact this.1.1

/-- what one turn does to the real matrices: `R s.a`, then `R a` (right-hand sides moved), the exact pivot step, `R s'.a` -/
theorem step_real {fi : ℕ} {round : ℤ} {m n : ℕ} {s s' : St} {q p : ℕ} {a : Tab} {row : List (Interval D)}
    (hs : Step fi round m n s q p a row s') (hI : Inv m n s) (hf : s'.fin = true) (hround : round = -1 ∨ round = 1) :
    p ∈ Icc 1 m ∧ R a p q ≠ 0 ∧ Ident m n (R a) (fun k => s.bas.getD k 0) ∧ Inv m n s' ∧
    Ident m n (piv (R a) p q) (fun k => s'.bas.getD k 0) ∧
    (round = -1 → Relax m n (R s.a) (R a) ∧ Relax m n (piv (R a) p q) (R s'.a)) ∧
    (round = 1 → Relax m n (R a) (R s.a) ∧ Relax m n (R s'.a) (piv (R a) p q)) := by
  have hq := pivotCol_some hs.col
  obtain ⟨hp, hpos⟩ := pivotRow_some hs.prow
  have hq' := Finset.mem_Icc.1 hq
  have hp' := Finset.mem_Icc.1 hp
  rw [hs.fin, Bool.and_eq_true, Bool.and_eq_true] at hf
  have fa := finTab_get hf.1.2
  have fa' := finTab_get hf.2
  -- moving the right-hand sides
  have hadj : Shape m n a ∧ (∀ k j, ¬ (j = 0 ∧ k ∈ Icc 1 m) → get a k j = get s.a k j) ∧
      (round = -1 → ∀ k, R s.a k 0 ≤ R a k 0) ∧ (round = 1 → ∀ k, R a k 0 ≤ R s.a k 0) := by
    have had := hs.adj
    rcases hround with hr | hr
    · rw [hr] at had
      obtain ⟨h1, h2, h3⟩ := adjust_down had hI.shape
      refine ⟨h1, h2, fun _ k => ?_, fun h => by rw [hr] at h; norm_num at h⟩
      exact (hiD_iff (fa k 0)).1 (h3 k _ ((hiD_iff (hI.fin k 0)).2 le_rfl))
    · rw [hr] at had
      obtain ⟨h1, h2, h3⟩ := adjust_up had hI.shape hp
      refine ⟨h1, h2, fun h => (by rw [hr] at h; norm_num at h), fun _ k => ?_⟩
      exact (loD_iff (fa k 0)).1 (h3 k _ ((loD_iff (hI.fin k 0)).2 le_rfl))
  obtain ⟨ash, asame, adn, aup⟩ := hadj
  have same : ∀ i j, 1 ≤ j → R a i j = R s.a i j := fun i j hj => congrArg dbl (asame i j (by omega))
  have same0 : R a 0 0 = R s.a 0 0 := congrArg dbl (asame 0 0 (by simp))
  have hid : Ident m n (R a) (fun k => s.bas.getD k 0) := by
    intro k hk
    obtain ⟨h1, h2⟩ := hI.ident k hk
    exact ⟨h1, fun i hi => by rw [same i _ (Finset.mem_Icc.1 h1).1]; exact h2 i hi⟩
  have h0 : R a p q ≠ 0 := by
    intro h
    rw [same p q hq'.1] at h
    apply hpos
    rw [le_zero_right]
    have := is_dbl' (hI.fin p q)
    refine ⟨this.1, ?_⟩
    rw [this.2]
    change ((R s.a p q : ℝ) : EReal) ≤ 0
    rw [h]; simp
  have hlen : p < s.bas.length := by rw [hI.lb]; omega
  have hbas : (fun k => s'.bas.getD k 0) = fun k => if k = p then q else s.bas.getD k 0 := by
    funext k
    rw [hs.bas, getD_set]
    by_cases h : k = p
    · rw [if_pos h, if_pos ⟨h.symm, hlen⟩]
    · rw [if_neg h, if_neg (fun h' => h h'.1.symm)]
  have hidp : Ident m n (piv (R a) p q) (fun k => s'.bas.getD k 0) := by
    rw [hbas]; exact piv_ident hid hp hq h0
  have hisb : ∀ j ≤ n, s'.isb.getD j false = true ↔ ∃ k ∈ Icc 1 m, s'.bas.getD k 0 = j := by
    intro j hj
    rw [hs.isb, hs.bas]; exact isb_step hI hp hq hj
  have hisb' : ∀ j ≤ n, s'.isb.getD j false = true ↔ j = q ∨ ∃ k ∈ Icc 1 m, k ≠ p ∧ s.bas.getD k 0 = j := by
    intro j hj
    rw [hisb j hj]
    have hb : ∀ k, s'.bas.getD k 0 = if k = p then q else s.bas.getD k 0 := fun k => congrFun hbas k
    constructor
    · rintro ⟨k, hk, h⟩
      rw [hb] at h
      by_cases h1 : k = p
      · rw [if_pos h1] at h; exact Or.inl h.symm
      · rw [if_neg h1] at h; exact Or.inr ⟨k, hk, h1, h⟩
    · rintro (h | ⟨k, hk, h1, h⟩)
      · exact ⟨p, hp, by rw [hb, if_pos rfl, h]⟩
      · exact ⟨k, hk, by rw [hb, if_neg h1, h]⟩
  have hent : ∀ i j, i ≤ m → j ≤ n →
      (s'.isb.getD j false = true → R s'.a i j = piv (R a) p q i j) ∧
      ((decide (j = 0) ^^ decide (round = 1) ^^ decide (i = 0)) = true → piv (R a) p q i j ≤ R s'.a i j) ∧
      ((decide (j = 0) ^^ decide (round = 1) ^^ decide (i = 0)) = false → R s'.a i j ≤ piv (R a) p q i j) := by
    intro i j hi hj
    have e : get s'.a i j = newEntry a s'.isb row round p q i j := by rw [hs.htab]; exact get_tab _ hi hj
    have := entry_bounds (round := round) (i := i) hid fa hp h0 hisb' hs.hrow hj (by rw [← e]; exact fa' i j)
    rw [← e] at this
    exact this
  refine ⟨hp, h0, hid, ⟨?_, ?_, ?_, ?_, hisb, fa'⟩, hidp, fun hr => ?_, fun hr => ?_⟩
  · rw [hs.htab]; exact shape_tab _ _ _
  · intro k hk
    obtain ⟨h1, h2⟩ := hidp k hk
    refine ⟨h1, fun i hi => ?_⟩
    rw [← h2 i hi]
    have hn := (Finset.mem_Icc.1 h1).2
    exact (hent i _ hi hn).1 ((hisb _ hn).2 ⟨k, hk, rfl⟩)
  · rw [hs.bas, List.length_set, hI.lb]
  · rw [hs.isb, List.length_set, List.length_set, hI.li]
  · subst hr
    refine ⟨⟨fun i hi => ⟨adn rfl i, fun j hj => (same i j (Finset.mem_Icc.1 hj).1).le⟩, same0.le,
      fun j hj => (same 0 j (Finset.mem_Icc.1 hj).1).ge⟩, ⟨fun i hi => ⟨?_, fun j hj => ?_⟩, ?_, fun j hj => ?_⟩⟩
    · have hi := Finset.mem_Icc.1 hi
      exact (hent i 0 hi.2 (Nat.zero_le _)).2.1 (by simp; omega)
    · have hi := Finset.mem_Icc.1 hi
      have hj := Finset.mem_Icc.1 hj
      exact (hent i j hi.2 hj.2).2.2 (by simp; omega)
    · exact (hent 0 0 (Nat.zero_le _) (Nat.zero_le _)).2.2 (by simp)
    · have hj := Finset.mem_Icc.1 hj
      exact (hent 0 j (Nat.zero_le _) hj.2).2.1 (by simp; omega)
  · subst hr
    refine ⟨⟨fun i hi => ⟨aup rfl i, fun j hj => (same i j (Finset.mem_Icc.1 hj).1).ge⟩, same0.ge,
      fun j hj => (same 0 j (Finset.mem_Icc.1 hj).1).le⟩, ⟨fun i hi => ⟨?_, fun j hj => ?_⟩, ?_, fun j hj => ?_⟩⟩
    · have hi := Finset.mem_Icc.1 hi
      exact (hent i 0 hi.2 (Nat.zero_le _)).2.2 (by simp; omega)
    · have hi := Finset.mem_Icc.1 hi
      have hj := Finset.mem_Icc.1 hj
      exact (hent i j hi.2 hj.2).2.1 (by simp; omega)
    · exact (hent 0 0 (Nat.zero_le _) (Nat.zero_le _)).2.1 (by simp)
    · have hj := Finset.mem_Icc.1 hj
      exact (hent 0 j (Nat.zero_le _) hj.2).2.2 (by simp; omega)

/-- the coefficients of the objective function at the end -/
theorem final_nonpos {m n : ℕ} {s : St} (hI : Inv m n s) (h : pivotCol s.a s.isb n = none) :
    ∀ j ∈ Icc 1 n, R s.a 0 j ≤ 0 := by
  intro j hj
  by_cases hb : s.isb.getD j false = true
  · obtain ⟨k, hk, h1⟩ := (hI.isb j (Finset.mem_Icc.1 hj).2).1 hb
    have := (hI.ident k hk).2 0 (Nat.zero_le _)
    simp only [h1] at this
    rw [this, if_neg (by have := (Finset.mem_Icc.1 hk).1; omega)]
  · have h1 := pivotCol_none h j hj (by simpa using hb)
    by_contra h2
    rw [Bool.eq_false_iff] at h1
    apply h1
    rw [lt_zero_left]
    have := is_dbl' (hI.fin 0 j)
    refine ⟨this.1, ?_⟩
    rw [this.2]
    exact_mod_cast not_le.1 h2

theorem loop_lower {fi m n : ℕ} : ∀ {fuel : ℕ} {s r : St}, loop fi (-1) m n fuel s = .ok r → r.fin = true → Inv m n s →
    ∀ v, Sol m n (R s.a) v → R r.a 0 0 ≤ objv n (R s.a) v := by
  intro fuel
  induction fuel with
  | zero => intro s r h; cases h
  | succ fuel ih =>
    intro s r h hr hI v hv
    rcases loop_step h with ⟨h1, rfl⟩ | ⟨q, p, a, row, s', hs, h'⟩
    · exact final_lower (final_nonpos hI h1) hv
    · obtain ⟨hp, h0, hid, hI', hidp, hdn, _⟩ := step_real hs hI (loop_fin h' hr) (Or.inl rfl)
      obtain ⟨r1, r2⟩ := hdn rfl
      obtain ⟨w, hw, hw2⟩ := relax_sol hid r1 hv
      have hw' := (piv_sol (n := n) hp h0).2 hw
      obtain ⟨u, hu, hu2⟩ := relax_sol hI'.ident r2 hw'
      have h3 := ih h' hr hI' u hu
      have h4 := piv_obj (n := n) (q := q) hp hw
      linarith

theorem loop_upper {fi m n : ℕ} : ∀ {fuel : ℕ} {s r : St}, loop fi 1 m n fuel s = .ok r → r.fin = true → Inv m n s →
    (∀ i ∈ Icc 1 m, 0 ≤ R r.a i 0) → ∃ v, Sol m n (R s.a) v ∧ objv n (R s.a) v ≤ R r.a 0 0 := by
  intro fuel
  induction fuel with
  | zero => intro s r h; cases h
  | succ fuel ih =>
    intro s r h hr hI hnn
    rcases loop_step h with ⟨h1, rfl⟩ | ⟨q, p, a, row, s', hs, h'⟩
    · obtain ⟨v, hv, e⟩ := final_upper hI.ident hnn
      exact ⟨v, hv, e.le⟩
    · obtain ⟨hp, h0, hid, hI', hidp, _, hup⟩ := step_real hs hI (loop_fin h' hr) (Or.inr rfl)
      obtain ⟨r1, r2⟩ := hup rfl
      obtain ⟨u, hu, hu2⟩ := ih h' hr hI' hnn
      obtain ⟨w, hw, hw2⟩ := relax_sol hidp r2 hu
      have hw' := (piv_sol (n := n) hp h0).1 hw
      have h4 := piv_obj (n := n) (q := q) hp hw'
      obtain ⟨v, hv, hv2⟩ := relax_sol hI.ident r1 hw'
      exact ⟨v, hv, by linarith⟩

theorem loop_end_fin {fi : ℕ} {round : ℤ} {m n : ℕ} : ∀ {fuel : ℕ} {s r : St}, loop fi round m n fuel s = .ok r →
    r.fin = true → Inv m n s → ∀ i j, FinD (get r.a i j) := by
  have key : ∀ {fuel : ℕ} {s r : St}, loop fi round m n fuel s = .ok r →
      r.fin = true → (∀ i j, FinD (get s.a i j)) → ∀ i j, FinD (get r.a i j) := by
    intro fuel
    induction fuel with
    | zero => intro s r h; cases h
    | succ fuel ih =>
      intro s r h hr hI
      rcases loop_step h with ⟨_, rfl⟩ | ⟨q, p, a, row, s', hs, h'⟩
      · exact hI
      · have hf := loop_fin h' hr
        rw [hs.fin, Bool.and_eq_true, Bool.and_eq_true] at hf
        exact ih h' hr (finTab_get hf.2)
  intro fuel s r h hr hI
  exact key h hr hI.fin

end Lp
end Kv
