import Verif.Solver.AllsolPar
import Mathlib.Algebra.BigOperators.Pi
import Mathlib.Algebra.Order.BigOperators.Group.Finset

/-! # `allsol` with OpenMP: helper lemmas -/

namespace Kv
open RopSem Kv.Interval
open LA

namespace Allsol
namespace Par
open AllsolSimple (Sol NoOverflow Disj)
variable {n t : ℕ}

/-! ## the counter -/

/-- the thread is responsible for a box -/
def busy : Loc n → ℤ
  | .idle => 0
  | .done => 0
  | _ => 1

/-- critical sections in total put back what was taken -/
def Fine : List (List (Vec n (Interval D)) × ℤ) → Prop
  | [] => False
  | [x] => (x.1.length : ℤ) = x.2 + 1
  | x :: l => (x.1.length : ℤ) = x.2 ∧ Fine l

theorem sections_fine : ∀ l : List (Vec n (Interval D)), Fine (sections l)
  | [] => by simp [sections, Fine]
  | [a] => by simp [sections, Fine]
  | [a, b] => by simp [sections, Fine]
  | a :: b :: c :: l => by
    have ih := sections_fine (b :: c :: l)
    rw [sections]
    cases h : sections (b :: c :: l) with
    | nil => rw [h] at ih; exact ih.elim
    | cons x l' => rw [h] at ih; exact ⟨by simp, ih⟩

/-- locations met in executions -/
def Loc.ok : Loc n → Prop
  | .sec l => Fine l
  | _ => True

/-- the invariant -/
structure CInv (init : List (Vec n (Interval D))) (s : St n t) : Prop where
  count : s.count = s.targets.length + ∑ w, busy (s.loc w)
  ok : ∀ w, (s.loc w).ok
  log : init ++ s.pushed = s.took ++ s.targets
  done : ∀ w, s.loc w = .done → s.count = 0

theorem busy_nonneg (x : Loc n) : 0 ≤ busy x := by cases x <;> simp [busy]

theorem sum_update (loc : Fin t → Loc n) (w : Fin t) (x : Loc n) :
    ∑ v, busy (Function.update loc w x v) = ∑ v, busy (loc v) - busy (loc w) + busy x := by
  have e : (fun v => busy (Function.update loc w x v)) = Function.update (fun v => busy (loc v)) w (busy x) := by
    funext v
    by_cases h : v = w
    · subst h; simp
    · simp [h]
  rw [e, Finset.sum_update_of_mem (Finset.mem_univ w), ← Finset.sum_sdiff (Finset.subset_univ {w}), Finset.sum_singleton]
  ring

variable {fuel : ℕ} {giveup : D} {inv : Inverter n} {P : Prog n} {s : St n t} {init0 : List (Vec n (Interval D))}

/-- if the counter is zero there is no box left and no thread is responsible for one -/
theorem CInv.zero (h : CInv init0 s) (h0 : s.count = 0) : s.targets = [] ∧ ∀ w, busy (s.loc w) = 0 := by
  have hs : 0 ≤ ∑ w, busy (s.loc w) := Finset.sum_nonneg fun w _ => busy_nonneg _
  have hc := h.count
  rw [h0] at hc
  have h1 : (s.targets.length : ℤ) = 0 := by have : (0 : ℤ) ≤ s.targets.length := by positivity
                                             linarith
  have h2 : ∑ w, busy (s.loc w) = 0 := by linarith
  refine ⟨List.length_eq_zero_iff.1 (by exact_mod_cast h1), fun w => ?_⟩
  exact (Finset.sum_eq_zero_iff_of_nonneg fun w _ => busy_nonneg _).1 h2 w (Finset.mem_univ w)

theorem idle_or_done {x : Loc n} (h : busy x = 0) : x = .idle ∨ x = .done := by
  cases x <;> simp_all [busy]

/-- an action of a busy thread which leaves the shared counter alone -/
theorem CInv.stay (h : CInv init0 s) {w : Fin t} {x : Loc n} (hx : busy x = busy (s.loc w)) (hok : x.ok) (hd : x ≠ .done) {s' : St n t}
    (e1 : s'.targets = s.targets) (e2 : s'.count = s.count) (e3 : s'.took = s.took) (e4 : s'.pushed = s.pushed)
    (e5 : s'.loc = Function.update s.loc w x) : CInv init0 s' := by
  refine ⟨?_, fun v => ?_, ?_, fun v hv => ?_⟩
  · rw [e2, e1, e5, sum_update, hx, h.count]; ring
  · rw [e5]
    by_cases hv : v = w
    · subst hv; simpa using hok
    · simpa [hv] using h.ok v
  · rw [e4, e3, e1]; exact h.log
  · rw [e5] at hv
    rw [e2]
    by_cases hv' : v = w
    · subst hv'; rw [Function.update_self] at hv; exact absurd hv hd
    · rw [Function.update_of_ne hv'] at hv; exact h.done v hv

theorem act_inv (h : CInv init0 s) (w : Fin t) : CInv init0 (act fuel giveup inv P s w) := by
  have hw := h.ok w
  unfold act
  cases e : s.loc w with
  | idle =>
    dsimp only
    split_ifs with c
    · refine ⟨?_, fun v => ?_, h.log, fun _ _ => c⟩
      · dsimp only
        rw [sum_update, e, h.count]; simp [busy]
      · dsimp only
        by_cases hv : v = w
        · subst hv; simp [Loc.ok]
        · simpa [hv] using h.ok v
    · cases hT : s.targets with
      | nil => exact h
      | cons I tg =>
        refine ⟨?_, fun v => ?_, ?_, fun v hv => ?_⟩
        · dsimp only
          rw [sum_update, e, h.count, hT]; simp [busy]; ring
        · dsimp only
          by_cases hv : v = w
          · subst hv; simp [Loc.ok]
          · simpa [hv] using h.ok v
        · dsimp only
          rw [h.log, hT]; simp
        · dsimp only at hv ⊢
          by_cases hv' : v = w
          · subst hv'; rw [Function.update_self] at hv; cases hv
          · rw [Function.update_of_ne hv'] at hv; exact h.done v hv
  | work I =>
    dsimp only
    cases hp : pre giveup inv P I with
    | error x => exact h.stay (w := w) (x := .crash) (by rw [e]; rfl) trivial nofun rfl rfl rfl rfl rfl
    | ok o =>
      refine h.stay (w := w) (x := start o) ?_ ?_ ?_ rfl rfl rfl rfl rfl
      · rw [e]; cases o <;> rfl
      · cases o with
        | drop => simp [start, minus, Loc.ok, Fine]
        | push l => exact sections_fine l
        | giveUp I => trivial
        | test I K R M => trivial
      · cases o <;> nofun
  | test I K R M =>
    dsimp only
    cases hp : crit fuel inv P s.sols I K R M with
    | error x => exact h.stay (w := w) (x := .crash) (by rw [e]; rfl) trivial nofun rfl rfl rfl rfl rfl
    | ok o =>
      cases o with
      | none => exact h.stay (w := w) (x := minus) (by rw [e]; rfl) (by simp [minus, Loc.ok, Fine]) nofun rfl rfl rfl rfl rfl
      | some q => exact h.stay (w := w) (x := minus) (by rw [e]; rfl) (by simp [minus, Loc.ok, Fine]) nofun rfl rfl rfl rfl rfl
  | give I => exact h.stay (w := w) (x := minus) (by rw [e]; rfl) (by simp [minus, Loc.ok, Fine]) nofun rfl rfl rfl rfl rfl
  | sec l =>
    rw [e] at hw
    cases l with
    | nil => exact hw.elim
    | cons x l =>
      obtain ⟨bs, d⟩ := x
      have hn : ((bs.length : ℤ) = d + 1 ∧ busy (next l) = 0 ∨ (bs.length : ℤ) = d ∧ busy (next l) = 1) ∧ (next l).ok ∧ next l ≠ .done := by
        cases l with
        | nil => exact ⟨.inl ⟨hw, rfl⟩, trivial, nofun⟩
        | cons y l => exact ⟨.inr ⟨hw.1, rfl⟩, hw.2, nofun⟩
      obtain ⟨h1, h2, h3⟩ := hn
      dsimp only
      have hc : s.count ≠ 0 := by
        intro h0
        have := (h.zero h0).2 w
        rw [e] at this
        simp [busy] at this
      refine ⟨?_, fun v => ?_, ?_, fun v hv => ?_⟩
      · dsimp only
        rw [sum_update, e, h.count]
        push_cast [List.length_append]
        rcases h1 with ⟨h1, h1'⟩ | ⟨h1, h1'⟩ <;> rw [h1', h1] <;> simp only [busy] <;> ring
      · dsimp only
        by_cases hv : v = w
        · subst hv; simpa using h2
        · simpa [hv] using h.ok v
      · dsimp only
        rw [← List.append_assoc, h.log, List.append_assoc]
      · dsimp only at hv
        by_cases hv' : v = w
        · subst hv'; rw [Function.update_self] at hv; exact absurd hv h3
        · rw [Function.update_of_ne hv'] at hv; exact absurd (h.done v hv) hc
  | done => exact h
  | crash => exact h

theorem init_inv (targets rest : List (Vec n (Interval D))) : CInv targets (init t targets rest) := by
  refine ⟨?_, fun w => trivial, by simp [init], fun w h => by cases h⟩
  simp [init, busy]

theorem run_inv (ws : List (Fin t)) (h : CInv init0 s) : CInv init0 (run fuel giveup inv P ws s) := by
  induction ws generalizing s with
  | nil => exact h
  | cons w ws ih => exact ih (act_inv h w)

/-! ## zeros -/

/-- a thread accounts for the point `z` -/
def Loc.holds (z : Fin n → ℝ) : Loc n → Prop
  | .work I => InB I z
  | .test I _ _ _ => InB I z
  | .give I => InB I z
  | .sec l => ∃ x ∈ l, ∃ B ∈ x.1, InB B z
  | .crash => True
  | _ => False

/-- the state accounts for the point `z` -/
def St.keeps (s : St n t) (z : Fin n → ℝ) : Prop :=
  (∃ B ∈ s.targets, InB B z) ∨ (∃ q ∈ s.sols, InB q.1 z) ∨ (∃ B ∈ s.rest, InB B z) ∨ ∃ w, (s.loc w).holds z

/-- a thread's boxes -/
def Loc.good (P : Prog n) (dom : (Fin n → ℝ) → Prop) (f : (Fin n → ℝ) → Fin n → ℝ) (took : List (Vec n (Interval D))) : Loc n → Prop
  | .work I => NeB I ∧ I ∈ took
  | .test I K R M => Tested P dom f I K R M
  | .give I => NeB I
  | .sec l => ∀ x ∈ l, ∀ B ∈ x.1, NeB B
  | _ => True

structure ZInv (P : Prog n) (dom : (Fin n → ℝ) → Prop) (f : (Fin n → ℝ) → Fin n → ℝ) (s : St n t) : Prop where
  targets : ∀ B ∈ s.targets, NeB B
  rest : ∀ B ∈ s.rest, NeB B
  sol : ∀ q ∈ s.sols, Sol f q
  disj : Disj s.sols
  good : ∀ w, (s.loc w).good P dom f s.took

variable {dom : (Fin n → ℝ) → Prop} {f : (Fin n → ℝ) → Fin n → ℝ}

theorem good_update {loc : Fin t → Loc n} {tk tk' : List (Vec n (Interval D))} (h : ∀ w, (loc w).good P dom f tk) (ht : ∀ B ∈ tk, B ∈ tk')
    {w : Fin t} {x : Loc n} (hx : x.good P dom f tk') (v : Fin t) : (Function.update loc w x v).good P dom f tk' := by
  by_cases hv : v = w
  · subst hv; simpa using hx
  · rw [Function.update_of_ne hv]
    have := h v
    cases e : loc v with
    | work I => rw [e] at this; exact ⟨this.1, ht _ this.2⟩
    | idle => trivial
    | done => trivial
    | crash => trivial
    | test I K R M => rw [e] at this; exact this
    | give I => rw [e] at this; exact this
    | sec l => rw [e] at this; exact this

/-- a point held by a thread is held after the update, or by the thread that acts -/
theorem holds_update {loc : Fin t → Loc n} {z : Fin n → ℝ} (h : ∃ v, (loc v).holds z) (w : Fin t) (x : Loc n) :
    (∃ v, (Function.update loc w x v).holds z) ∨ (loc w).holds z := by
  obtain ⟨v, hv⟩ := h
  by_cases hw : v = w
  · subst hw; exact .inr hv
  · exact .inl ⟨v, by rwa [Function.update_of_ne hw]⟩

theorem holds_self (loc : Fin t → Loc n) {z : Fin n → ℝ} (w : Fin t) {x : Loc n} (h : x.holds z) : ∃ v, (Function.update loc w x v).holds z :=
  ⟨w, by rwa [Function.update_self]⟩

theorem sections_flat : ∀ l : List (Vec n (Interval D)), ((sections l).map (·.1)).flatten = l
  | [] => rfl
  | [a] => rfl
  | [a, b] => rfl
  | a :: b :: c :: l => by
    rw [sections, List.map_cons, List.flatten_cons, sections_flat (b :: c :: l)]; rfl

theorem mem_sections {l : List (Vec n (Interval D))} {B : Vec n (Interval D)} : (∃ x ∈ sections l, B ∈ x.1) ↔ B ∈ l := by
  conv_rhs => rw [← sections_flat l]
  simp

theorem act_logs (w : Fin t) : (∀ B ∈ s.took, B ∈ (act fuel giveup inv P s w).took) ∧ ∀ B ∈ s.refined, B ∈ (act fuel giveup inv P s w).refined := by
  unfold act
  cases s.loc w with
  | idle =>
    dsimp only
    split_ifs with c
    · exact ⟨fun _ h => h, fun _ h => h⟩
    · cases s.targets with
      | nil => exact ⟨fun _ h => h, fun _ h => h⟩
      | cons I tg => exact ⟨fun _ h => by simp [h], fun _ h => h⟩
  | work I =>
    dsimp only
    cases pre giveup inv P I <;> exact ⟨fun _ h => h, fun _ h => h⟩
  | test I K R M =>
    dsimp only
    cases crit fuel inv P s.sols I K R M with
    | error x => exact ⟨fun _ h => h, fun _ h => h⟩
    | ok o =>
      cases o with
      | none => exact ⟨fun _ h => h, fun _ h => h⟩
      | some q => exact ⟨fun _ h => h, fun _ h => by simp [h]⟩
  | give I => exact ⟨fun _ h => h, fun _ h => h⟩
  | sec l => cases l <;> exact ⟨fun _ h => h, fun _ h => h⟩
  | done => exact ⟨fun _ h => h, fun _ h => h⟩
  | crash => exact ⟨fun _ h => h, fun _ h => h⟩

/-- one action keeps the invariant and the zeros -/
theorem act_ok (hP : P.Sound dom f) (h : ZInv P dom f s) (w : Fin t) (hM : ∀ B ∈ (act fuel giveup inv P s w).took, NeB B → Mod P B)
    (hR : ∀ B ∈ (act fuel giveup inv P s w).refined, NoOverflow inv P B) :
    ZInv P dom f (act fuel giveup inv P s w) ∧ ((∀ B ∈ (act fuel giveup inv P s w).took, NeB B → Fit inv P B) →
      ∀ z, dom z → f z = 0 → s.keeps z → (act fuel giveup inv P s w).keeps z) := by
  have hw := h.good w
  unfold act at hM hR ⊢
  cases e : s.loc w with
  | idle =>
    simp only [e] at hM hR ⊢
    by_cases c : s.count = 0
    · simp only [if_pos c] at hM hR ⊢
      refine ⟨⟨h.targets, h.rest, h.sol, h.disj, good_update h.good (fun _ h => h) trivial⟩, fun _ z _ _ hz => ?_⟩
      rcases hz with hz | hz | hz | hz
      · exact .inl hz
      · exact .inr (.inl hz)
      · exact .inr (.inr (.inl hz))
      · rcases holds_update hz w .done with hz | hz
        · exact .inr (.inr (.inr hz))
        · rw [e] at hz; exact hz.elim
    · simp only [if_neg c] at hM hR ⊢
      cases hT : s.targets with
      | nil => exact ⟨h, fun _ z _ _ hz => hz⟩
      | cons I tg =>
        have hI := h.targets
        rw [hT] at hI
        refine ⟨⟨fun B hB => hI B (by simp [hB]), h.rest, h.sol, h.disj, good_update h.good (fun _ h => by simp [h]) ⟨hI I (by simp), by simp⟩⟩, fun _ z _ _ hz => ?_⟩
        rcases hz with ⟨B, hB, hz⟩ | hz | hz | hz
        · rw [hT] at hB
          rcases List.mem_cons.1 hB with rfl | hB
          · exact .inr (.inr (.inr (holds_self _ w hz)))
          · exact .inl ⟨B, hB, hz⟩
        · exact .inr (.inl hz)
        · exact .inr (.inr (.inl hz))
        · rcases holds_update hz w (.work I) with hz | hz
          · exact .inr (.inr (.inr hz))
          · rw [e] at hz; exact hz.elim
  | work I =>
    simp only [e] at hM hR ⊢
    rw [e] at hw
    cases hp : pre giveup inv P I with
    | error x =>
      refine ⟨⟨h.targets, h.rest, h.sol, h.disj, good_update h.good (fun _ h => h) trivial⟩, fun _ z _ _ hz => ?_⟩
      exact .inr (.inr (.inr (holds_self _ w trivial)))
    | ok o =>
      simp only [hp] at hM hR
      obtain ⟨p1, p2, p3⟩ := pre_ok hP hw.1 (hM I hw.2 hw.1) hp
      refine ⟨⟨h.targets, h.rest, h.sol, h.disj, good_update h.good (fun _ h => h) ?_⟩, fun hF z hd h0 hz => ?_⟩
      · cases o with
        | drop => intro x hx B hB; simp only [List.mem_singleton] at hx; rw [hx] at hB; cases hB
        | push l => exact fun x hx B hB => p1 B (mem_sections.1 ⟨x, hx, hB⟩)
        | giveUp I => exact p1
        | test I K R M => exact p2 I K R M rfl
      · rcases hz with hz | hz | hz | hz
        · exact .inl hz
        · exact .inr (.inl hz)
        · exact .inr (.inr (.inl hz))
        · rcases holds_update hz w (start o) with hz | hz
          · exact .inr (.inr (.inr hz))
          · rw [e] at hz
            have := p3 (hF I hw.2 hw.1) z hz hd h0
            refine .inr (.inr (.inr (holds_self _ w ?_)))
            cases o with
            | drop => exact this.elim
            | push l =>
              obtain ⟨B, hB, hz⟩ := this
              obtain ⟨x, hx, hB⟩ := mem_sections.2 hB
              exact ⟨x, hx, B, hB, hz⟩
            | giveUp I => exact this
            | test I K R M => exact this
  | test I K R M =>
    simp only [e] at hM hR ⊢
    rw [e] at hw
    have hmin : ∀ z : Fin n → ℝ, (minus : Loc n).good P dom f s.took := by
      intro z x hx B hB; simp only [List.mem_singleton] at hx; rw [hx] at hB; cases hB
    cases hp : crit fuel inv P s.sols I K R M with
    | error x =>
      refine ⟨⟨h.targets, h.rest, h.sol, h.disj, good_update h.good (fun _ h => h) trivial⟩, fun _ z _ _ hz => ?_⟩
      exact .inr (.inr (.inr (holds_self _ w trivial)))
    | ok o =>
      simp only [hp] at hM hR
      obtain ⟨c1, c2⟩ := crit_ok hP h.sol hw hp
      cases o with
      | none =>
        refine ⟨⟨h.targets, h.rest, h.sol, h.disj, good_update h.good (fun _ h => h) (hmin 0)⟩, fun _ z _ h0 hz => ?_⟩
        rcases hz with hz | hz | hz | hz
        · exact .inl hz
        · exact .inr (.inl hz)
        · exact .inr (.inr (.inl hz))
        · rcases holds_update hz w minus with hz | hz
          · exact .inr (.inr (.inr hz))
          · rw [e] at hz; exact .inr (.inl (c1 rfl z hz h0))
      | some q =>
        obtain ⟨K', l⟩ := q
        dsimp only at hR
        obtain ⟨d1, d2, d3⟩ := c2 K' l rfl fun B hB => hR B (by simp [hB])
        refine ⟨⟨h.targets, h.rest, fun q hq => ?_, ?_, good_update h.good (fun _ h => h) (hmin 0)⟩, fun _ z _ h0 hz => ?_⟩
        · rcases List.mem_append.1 hq with hq | hq
          · exact h.sol q hq
          · rw [List.mem_singleton] at hq; rw [hq]; exact d1
        · refine List.pairwise_append.2 ⟨h.disj, List.pairwise_singleton _ _, fun q hq q' hq' x hx => ?_⟩
          rw [List.mem_singleton] at hq'
          rw [hq'] at hx
          exact d2 q hq x hx.symm
        · rcases hz with hz | ⟨q, hq, hz⟩ | hz | hz
          · exact .inl hz
          · exact .inr (.inl ⟨q, by simp [hq], hz⟩)
          · exact .inr (.inr (.inl hz))
          · rcases holds_update hz w minus with hz | hz
            · exact .inr (.inr (.inr hz))
            · rw [e] at hz; exact .inr (.inl ⟨(K', I), by simp, d3 z hz h0⟩)
  | give I =>
    simp only [e] at hM hR ⊢
    rw [e] at hw
    obtain ⟨u1, u2⟩ := unify_ok h.rest hw
    refine ⟨⟨h.targets, u1, h.sol, h.disj, good_update h.good (fun _ h => h) ?_⟩, fun _ z _ _ hz => ?_⟩
    · intro x hx B hB; simp only [List.mem_singleton] at hx; rw [hx] at hB; cases hB
    · rcases hz with hz | hz | hz | hz
      · exact .inl hz
      · exact .inr (.inl hz)
      · exact .inr (.inr (.inl (u2 z (.inl hz))))
      · rcases holds_update hz w minus with hz | hz
        · exact .inr (.inr (.inr hz))
        · rw [e] at hz; exact .inr (.inr (.inl (u2 z (.inr hz))))
  | sec l =>
    rw [e] at hw
    cases l with
    | nil =>
      simp only [e] at hM hR ⊢
      refine ⟨⟨h.targets, h.rest, h.sol, h.disj, good_update h.good (fun _ h => h) trivial⟩, fun _ z _ _ hz => ?_⟩
      rcases hz with hz | hz | hz | hz
      · exact .inl hz
      · exact .inr (.inl hz)
      · exact .inr (.inr (.inl hz))
      · rcases holds_update hz w .idle with hz | hz
        · exact .inr (.inr (.inr hz))
        · rw [e] at hz; obtain ⟨x, hx, -⟩ := hz; cases hx
    | cons x l =>
      obtain ⟨bs, d⟩ := x
      simp only [e] at hM hR ⊢
      refine ⟨⟨fun B hB => ?_, h.rest, h.sol, h.disj, good_update h.good (fun _ h => h) ?_⟩, fun _ z _ _ hz => ?_⟩
      · rcases List.mem_append.1 hB with hB | hB
        · exact h.targets B hB
        · exact hw (bs, d) (by simp) B hB
      · cases l with
        | nil => trivial
        | cons y l => exact fun x hx => hw x (List.mem_cons_of_mem _ hx)
      · rcases hz with ⟨B, hB, hz⟩ | hz | hz | hz
        · exact .inl ⟨B, by simp [hB], hz⟩
        · exact .inr (.inl hz)
        · exact .inr (.inr (.inl hz))
        · rcases holds_update hz w (next l) with hz | hz
          · exact .inr (.inr (.inr hz))
          · rw [e] at hz
            obtain ⟨x, hx, B, hB, hz⟩ := hz
            rcases List.mem_cons.1 hx with rfl | hx
            · exact .inl ⟨B, List.mem_append_right _ hB, hz⟩
            · refine .inr (.inr (.inr (holds_self _ w ?_)))
              cases l with
              | nil => cases hx
              | cons y l => exact ⟨x, hx, B, hB, hz⟩
  | done => simp only [e] at hM hR ⊢; exact ⟨h, fun _ z _ _ hz => hz⟩
  | crash => simp only [e] at hM hR ⊢; exact ⟨h, fun _ z _ _ hz => hz⟩

theorem run_logs (ws : List (Fin t)) : (∀ B ∈ s.took, B ∈ (run fuel giveup inv P ws s).took) ∧ ∀ B ∈ s.refined, B ∈ (run fuel giveup inv P ws s).refined := by
  induction ws generalizing s with
  | nil => exact ⟨fun _ h => h, fun _ h => h⟩
  | cons w ws ih =>
    have h1 := act_logs (fuel := fuel) (giveup := giveup) (inv := inv) (P := P) (s := s) w
    have h2 := ih (s := act fuel giveup inv P s w)
    exact ⟨fun B hB => h2.1 B (h1.1 B hB), fun B hB => h2.2 B (h1.2 B hB)⟩

theorem run_ok (hP : P.Sound dom f) (ws : List (Fin t)) (h : ZInv P dom f s) (hM : ∀ B ∈ (run fuel giveup inv P ws s).took, NeB B → Mod P B)
    (hR : ∀ B ∈ (run fuel giveup inv P ws s).refined, NoOverflow inv P B) :
    ZInv P dom f (run fuel giveup inv P ws s) ∧ ((∀ B ∈ (run fuel giveup inv P ws s).took, NeB B → Fit inv P B) →
      ∀ z, dom z → f z = 0 → s.keeps z → (run fuel giveup inv P ws s).keeps z) := by
  induction ws generalizing s with
  | nil => exact ⟨h, fun _ z _ _ hz => hz⟩
  | cons w ws ih =>
    have hl := run_logs (fuel := fuel) (giveup := giveup) (inv := inv) (P := P) (s := act fuel giveup inv P s w) ws
    obtain ⟨a1, a2⟩ := act_ok (fuel := fuel) (giveup := giveup) (inv := inv) hP h w (fun B hB => hM B (hl.1 B hB)) fun B hB => hR B (hl.2 B hB)
    obtain ⟨b1, b2⟩ := ih a1 hM hR
    exact ⟨b1, fun hF z hd h0 hz => b2 hF z hd h0 (a2 (fun B hB => hF B (hl.1 B hB)) z hd h0 hz)⟩

/-! ## one thread does all the work -/

theorem run_append (ws vs : List (Fin t)) : run fuel giveup inv P (ws ++ vs) s = run fuel giveup inv P vs (run fuel giveup inv P ws s) := List.foldl_append

/-- executing the critical sections `targets` -/
theorem run_sec (w : Fin t) : ∀ {l : List (List (Vec n (Interval D)) × ℤ)} {s : St n t}, l ≠ [] → s.loc w = .sec l →
    ∃ m, ∃ s' : St n t, run fuel giveup inv P (List.replicate m w) s = s' ∧ s'.targets = s.targets ++ (l.map (·.1)).flatten ∧ s'.sols = s.sols ∧ s'.rest = s.rest ∧
      s'.loc = Function.update s.loc w .idle
  | [], _, h, _ => absurd rfl h
  | [(bs, d)], s, _, h => by
    refine ⟨1, _, rfl, ?_, ?_, ?_, ?_⟩ <;> simp [run, act, h, next]
  | (bs, d) :: y :: l, s, _, h => by
    obtain ⟨m, s', h1, h2, h3, h4, h5⟩ := run_sec w (l := y :: l) (s := act fuel giveup inv P s w) (by simp) (by simp [act, h, next])
    refine ⟨m + 1, s', ?_, ?_, ?_, ?_, ?_⟩
    · rw [List.replicate_succ]; exact h1
    · rw [h2]; simp [act, h]
    · rw [h3]; simp [act, h]
    · rw [h4]; simp [act, h]
    · rw [h5]; simp [act, h]

/-- one pass of the sequential loop, performed by the thread `w` -/
theorem run_step (w : Fin t) {p : Allsol.St n} {I : Vec n (Interval D)} {tg : List (Vec n (Interval D))} {q : Allsol.St n} {l : List (Vec n (Interval D))}
    (h : step fuel giveup inv P p I tg = .ok (q, l)) (hs : s.targets = I :: tg ∧ s.sols = p.sols ∧ s.rest = p.rest) (hi : s.loc w = .idle) (hc : s.count ≠ 0) :
    ∃ m, ∃ s' : St n t, run fuel giveup inv P (List.replicate m w) s = s' ∧ s'.targets = q.targets ∧ s'.sols = q.sols ∧ s'.rest = q.rest ∧
      s'.loc = s.loc := by
  obtain ⟨h1, h2, h3⟩ := hs
  -- take the box
  set s1 := act fuel giveup inv P s w with hs1
  have a1 : s1 = { s with targets := tg, took := s.took ++ [I], loc := Function.update s.loc w (.work I) } := by
    rw [hs1, act, hi]
    simp only [if_neg hc, h1]
  unfold step at h
  obtain ⟨o, ho, h⟩ := bind_ok.1 h
  set s2 := act fuel giveup inv P s1 w with hs2
  have a2 : s2 = { s with targets := tg, took := s.took ++ [I], loc := Function.update s.loc w (start o) } := by
    rw [hs2, act, a1]
    simp only [Function.update_self, ho, Function.update_idem]
  have back : Function.update s.loc w .idle = s.loc := by rw [← hi, Function.update_eq_self]
  -- finish with critical sections
  have fin : ∀ (s3 : St n t) (l : List (List (Vec n (Interval D)) × ℤ)), l ≠ [] → s3.loc = Function.update s.loc w (.sec l) →
      ∃ m, ∃ s' : St n t, run fuel giveup inv P (List.replicate m w) s3 = s' ∧ s'.targets = s3.targets ++ (l.map (·.1)).flatten ∧ s'.sols = s3.sols ∧
      s'.rest = s3.rest ∧ s'.loc = s.loc := by
    intro s3 l hl h
    obtain ⟨m, s', g1, g2, g3, g4, g5⟩ := run_sec (fuel := fuel) (giveup := giveup) (inv := inv) (P := P) w hl (by rw [h, Function.update_self])
    exact ⟨m, s', g1, g2, g3, g4, by rw [g5, h, Function.update_idem, back]⟩
  have two : ∀ m, run fuel giveup inv P (List.replicate (m + 2) w) s = run fuel giveup inv P (List.replicate m w) s2 := fun m => rfl
  have three : ∀ m, run fuel giveup inv P (List.replicate (m + 3) w) s = run fuel giveup inv P (List.replicate m w) (act fuel giveup inv P s2 w) := fun m => rfl
  cases o with
  | drop =>
    cases h
    obtain ⟨m, s', g1, g2, g3, g4, g5⟩ := fin s2 [([], -1)] (by simp) (by rw [a2]; rfl)
    exact ⟨m + 2, s', (two m).trans g1, by rw [g2, a2]; simp, by rw [g3, a2]; exact h2, by rw [g4, a2]; exact h3, g5⟩
  | push bl =>
    cases h
    obtain ⟨m, s', g1, g2, g3, g4, g5⟩ := fin s2 (sections bl) (fun h => by have := sections_fine bl; rw [h] at this; exact this) (by rw [a2]; rfl)
    exact ⟨m + 2, s', (two m).trans g1, by rw [g2, a2, sections_flat], by rw [g3, a2]; exact h2, by rw [g4, a2]; exact h3, g5⟩
  | giveUp J =>
    cases h
    have a3 : act fuel giveup inv P s2 w = { s with targets := tg, rest := unify s.rest J, took := s.took ++ [I], loc := Function.update s.loc w minus } := by
      rw [act, a2]
      simp only [Function.update_self, start, Function.update_idem]
    obtain ⟨m, s', g1, g2, g3, g4, g5⟩ := fin (act fuel giveup inv P s2 w) [([], -1)] (by simp) (by rw [a3]; rfl)
    exact ⟨m + 3, s', (three m).trans g1, by rw [g2, a3]; simp, by rw [g3, a3]; exact h2, by rw [g4, a3]; dsimp only; rw [h3], g5⟩
  | test J K R M =>
    obtain ⟨r, hr, h⟩ := bind_ok.1 h
    rw [← h2] at hr
    cases r with
    | none =>
      cases h
      have a3 : act fuel giveup inv P s2 w = { s with targets := tg, took := s.took ++ [I], loc := Function.update s.loc w minus } := by
        rw [act, a2]
        simp only [Function.update_self, start, Function.update_idem, hr]
      obtain ⟨m, s', g1, g2, g3, g4, g5⟩ := fin (act fuel giveup inv P s2 w) [([], -1)] (by simp) (by rw [a3]; rfl)
      exact ⟨m + 3, s', (three m).trans g1, by rw [g2, a3]; simp, by rw [g3, a3]; exact h2, by rw [g4, a3]; exact h3, g5⟩
    | some r =>
      obtain ⟨K', l'⟩ := r
      cases h
      have a3 : act fuel giveup inv P s2 w = { s with targets := tg, sols := s.sols ++ [(K', J)], took := s.took ++ [I], refined := s.refined ++ l, loc := Function.update s.loc w minus } := by
        rw [act, a2]
        simp only [Function.update_self, start, Function.update_idem, hr]
      obtain ⟨m, s', g1, g2, g3, g4, g5⟩ := fin (act fuel giveup inv P s2 w) [([], -1)] (by simp) (by rw [a3]; rfl)
      exact ⟨m + 3, s', (three m).trans g1, by rw [g2, a3]; simp, by rw [g3, a3]; dsimp only; rw [h2], by rw [g4, a3]; exact h3, g5⟩

theorem run_loop (w : Fin t) : ∀ {k : ℕ} {p q : Allsol.St n} {s : St n t}, loop fuel giveup inv P k p = .ok q → CInv init0 s →
    s.targets = p.targets ∧ s.sols = p.sols ∧ s.rest = p.rest → s.loc w = .idle →
    ∃ ws, ∃ s' : St n t, run fuel giveup inv P ws s = s' ∧ s'.targets = [] ∧ s'.sols = q.sols ∧ s'.rest = q.rest ∧ s'.loc = s.loc := by
  intro k
  induction k with
  | zero =>
    rintro ⟨tg, so, re⟩ q s h hc hs hi
    cases tg with
    | nil => rw [loop.eq_def] at h; cases h; exact ⟨[], s, rfl, hs.1, hs.2.1, hs.2.2, rfl⟩
    | cons I tg => rw [loop.eq_def] at h; cases h
  | succ k ih =>
    rintro ⟨tg, so, re⟩ q s h hc hs hi
    cases tg with
    | nil => rw [loop.eq_def] at h; cases h; exact ⟨[], s, rfl, hs.1, hs.2.1, hs.2.2, rfl⟩
    | cons I tg =>
      rw [loop.eq_def] at h
      obtain ⟨⟨p', l⟩, hst, h⟩ := bind_ok.1 h
      have h0 : s.count ≠ 0 := fun h0 => by
        have := (hc.zero h0).1
        rw [hs.1] at this; cases this
      obtain ⟨m, s1, g1, g2, g3, g4, g5⟩ := run_step w hst hs hi h0
      obtain ⟨ws, s', k1, k2, k3, k4, k5⟩ := ih h (by rw [← g1]; exact run_inv _ hc) ⟨g2, g3, g4⟩ (by rw [g5]; exact hi)
      exact ⟨List.replicate m w ++ ws, s', by rw [run_append, g1, k1], k2, k3, k4, by rw [k5, g5]⟩

/-- all threads leave the loop -/
theorem run_stop : ∀ (ws : List (Fin t)) {s : St n t}, s.count = 0 → (∀ v, s.loc v = .idle ∨ s.loc v = .done) →
    (run fuel giveup inv P ws s).targets = s.targets ∧ (run fuel giveup inv P ws s).sols = s.sols ∧ (run fuel giveup inv P ws s).rest = s.rest ∧
    ∀ v, (v ∈ ws ∨ s.loc v = .done) → (run fuel giveup inv P ws s).loc v = .done
  | [], s, _, _ => ⟨rfl, rfl, rfl, fun v hv => hv.elim (fun h => by cases h) id⟩
  | w :: ws, s, hc, hl => by
    have key : act fuel giveup inv P s w = { s with loc := Function.update s.loc w .done } := by
      unfold act
      rcases hl w with h | h
      · rw [h]; simp only [if_pos hc]
      · rw [h]; dsimp only; rw [← h, Function.update_eq_self]
    obtain ⟨h1, h2, h3, h4⟩ := run_stop ws (s := act fuel giveup inv P s w) (by rw [key]; exact hc) (fun v => by
      rw [key]; dsimp only
      by_cases hv : v = w
      · subst hv; simp
      · rw [Function.update_of_ne hv]; exact hl v)
    refine ⟨by rw [show run fuel giveup inv P (w :: ws) s = run fuel giveup inv P ws (act fuel giveup inv P s w) from rfl, h1, key],
      by rw [show run fuel giveup inv P (w :: ws) s = run fuel giveup inv P ws (act fuel giveup inv P s w) from rfl, h2, key],
      by rw [show run fuel giveup inv P (w :: ws) s = run fuel giveup inv P ws (act fuel giveup inv P s w) from rfl, h3, key], fun v hv => ?_⟩
    refine h4 v ?_
    by_cases hvw : v = w
    · right; subst hvw; rw [key]; dsimp only; rw [Function.update_self]
    · rcases hv with hv | hv
      · rcases List.mem_cons.1 hv with hv | hv
        · exact absurd hv hvw
        · exact .inl hv
      · right; rw [key]; dsimp only; rw [Function.update_of_ne hvw]; exact hv

theorem run_took : ∀ (ws : List (Fin t)) {s : St n t}, s.count = 0 → (∀ v, s.loc v = .idle ∨ s.loc v = .done) →
    (run fuel giveup inv P ws s).took = s.took ∧ (run fuel giveup inv P ws s).pushed = s.pushed
  | [], s, _, _ => ⟨rfl, rfl⟩
  | w :: ws, s, hc, hl => by
    have key : act fuel giveup inv P s w = { s with loc := Function.update s.loc w .done } := by
      unfold act
      rcases hl w with h | h
      · rw [h]; simp only [if_pos hc]
      · rw [h]; dsimp only; rw [← h, Function.update_eq_self]
    obtain ⟨h1, h2⟩ := run_took ws (s := act fuel giveup inv P s w) (by rw [key]; exact hc) (fun v => by
      rw [key]; dsimp only
      by_cases hv : v = w
      · subst hv; simp
      · rw [Function.update_of_ne hv]; exact hl v)
    rw [key] at h1 h2
    exact ⟨by rw [show run fuel giveup inv P (w :: ws) s = run fuel giveup inv P ws (act fuel giveup inv P s w) from rfl, key, h1],
      by rw [show run fuel giveup inv P (w :: ws) s = run fuel giveup inv P ws (act fuel giveup inv P s w) from rfl, key, h2]⟩

/-- no deadlock -/
theorem progress (h : CInv init0 s) (hc : ∀ v, s.loc v ≠ .crash) (hd : ∃ v, s.loc v ≠ .done) : ∃ w, act fuel giveup inv P s w ≠ s := by
  have moves : ∀ (w : Fin t) (x : Loc n) (s' : St n t), s'.loc = Function.update s.loc w x → x ≠ s.loc w → s' ≠ s := by
    intro w x s' h1 h2 h3
    rw [h3] at h1
    exact h2 (by rw [h1, Function.update_self])
  by_cases hb : ∃ w, busy (s.loc w) ≠ 0
  · obtain ⟨w, hb⟩ := hb
    refine ⟨w, ?_⟩
    have hok := h.ok w
    unfold act
    cases e : s.loc w with
    | idle => rw [e] at hb; exact absurd rfl hb
    | done => rw [e] at hb; exact absurd rfl hb
    | crash => exact absurd e (hc w)
    | work I =>
      dsimp only
      cases pre giveup inv P I with
      | error x => exact moves w .crash _ rfl (by rw [e]; nofun)
      | ok o => exact moves w (start o) _ rfl (by rw [e]; cases o <;> nofun)
    | test I K R M =>
      dsimp only
      cases crit fuel inv P s.sols I K R M with
      | error x => exact moves w .crash _ rfl (by rw [e]; nofun)
      | ok o => cases o <;> exact moves w minus _ rfl (by rw [e]; nofun)
    | give I => exact moves w minus _ rfl (by rw [e]; nofun)
    | sec l =>
      cases l with
      | nil => exact moves w .idle _ rfl (by rw [e]; nofun)
      | cons x l =>
        obtain ⟨bs, d⟩ := x
        refine moves w (next l) _ rfl ?_
        rw [e]
        cases l with
        | nil => nofun
        | cons y l =>
          intro h
          have := congrArg List.length (Loc.sec.inj h)
          simp at this
  · obtain ⟨v, hv⟩ := hd
    have hb' : ∀ w, busy (s.loc w) = 0 := fun w => by_contra fun h => hb ⟨w, h⟩
    have hi : s.loc v = .idle := (idle_or_done (hb' v)).resolve_right hv
    refine ⟨v, ?_⟩
    unfold act
    rw [hi]
    dsimp only
    by_cases c : s.count = 0
    · rw [if_pos c]; exact moves v .done _ rfl (by rw [hi]; nofun)
    · rw [if_neg c]
      have hcount := h.count
      simp only [hb', Finset.sum_const_zero, add_zero] at hcount
      cases hT : s.targets with
      | nil => rw [hT] at hcount; exact absurd hcount c
      | cons I tg => exact moves v (.work I) _ rfl (by rw [hi]; nofun)

end Par
end Allsol
end Kv
