import Verif.Psa.Model
import Verif.Autodif.Sound
import Mathlib.RingTheory.PowerSeries.Basic
import Mathlib.Order.Interval.Set.UnorderedInterval

/-! # Power series arithmetic: partial-correctness triples, meaning of a series, history -/

namespace Kv
open RopSem
open Rop (lit)

/-! ## triples -/

/-- if `m` started in a state with `P` returns normally, then `Q` holds for the result and the new state -/
def Tri {S α : Type} (P : PSt S → Prop) (m : PM S α) (Q : α → PSt S → Prop) : Prop :=
  ∀ st, P st → ∀ a st', m st = (.ok a, st') → Q a st'

namespace PM
variable {S α β : Type}

theorem bind_eq (m : PM S α) (k : α → PM S β) (st : PSt S) : (m >>= k) st = match m st with
    | (.ok a, st') => k a st'
    | (.error e, st') => (.error e, st') := rfl

theorem get_bind (k : PSt S → PM S β) (st : PSt S) : (get >>= k) st = k st st := rfl

theorem bind_run {m : PM S α} {k : α → PM S β} {st st' : PSt S} {b : β} (h : (m >>= k) st = (.ok b, st')) :
    ∃ a st1, m st = (.ok a, st1) ∧ k a st1 = (.ok b, st') := by
  rw [bind_eq] at h
  rcases hm : m st with ⟨r, st1⟩
  rw [hm] at h
  cases r with
  | ok a => exact ⟨a, st1, rfl, h⟩
  | error e => cases h

theorem lift_run {r : Res α} {st st' : PSt S} {a : α} (h : lift r st = (.ok a, st')) : r = .ok a ∧ st' = st := by
  unfold lift at h
  cases h; exact ⟨rfl, rfl⟩

theorem pure_run {a b : α} {st st' : PSt S} (h : (pure a : PM S α) st = (.ok b, st')) : b = a ∧ st' = st := by
  cases h; exact ⟨rfl, rfl⟩

theorem get_run {st st' : PSt S} {a} (h : (get : PM S (PSt S)) st = (.ok a, st')) : a = st ∧ st' = st := by
  cases h; exact ⟨rfl, rfl⟩

end PM

namespace Tri
variable {S α β : Type} {P : PSt S → Prop} {Q : α → PSt S → Prop}

theorem bind {R : β → PSt S → Prop} {m : PM S α} {k : α → PM S β} (h1 : Tri P m Q) (h2 : ∀ a, Tri (Q a) (k a) R) :
    Tri P (m >>= k) R := by
  intro st hP b st' h
  obtain ⟨a, st1, hm, hk⟩ := PM.bind_run h
  exact h2 a st1 (h1 st hP a st1 hm) b st' hk

theorem pure {a : α} (h : ∀ st, P st → Q a st) : Tri P (pure a) Q := by
  intro st hP b st' hb
  obtain ⟨rfl, rfl⟩ := PM.pure_run hb
  exact h _ hP

theorem lift {r : Res α} (h : ∀ a st, r = .ok a → P st → Q a st) : Tri P (PM.lift r) Q := by
  intro st hP b st' hb
  obtain ⟨hr, rfl⟩ := PM.lift_run hb
  exact h _ _ hr hP

/-- a lifted computation does not change the state -/
theorem bind_lift {R : β → PSt S → Prop} {r : Res α} {k : α → PM S β} (h : ∀ a, r = .ok a → Tri P (k a) R) :
    Tri P (PM.lift r >>= k) R := by
  intro st hP b st' hb
  obtain ⟨a, st1, hm, hk⟩ := PM.bind_run hb
  obtain ⟨hr, rfl⟩ := PM.lift_run hm
  exact h a hr _ hP _ _ hk

theorem bind_get {R : β → PSt S → Prop} {k : PSt S → PM S β} (h : ∀ st, P st → Tri (fun s => s = st) (k st) R) :
    Tri P (PM.get >>= k) R := by
  intro st hP b st' hb
  obtain ⟨a, st1, hm, hk⟩ := PM.bind_run hb
  obtain ⟨rfl, rfl⟩ := PM.get_run hm
  exact h _ hP _ rfl _ _ hk

theorem mono {P' : PSt S → Prop} {Q' : α → PSt S → Prop} {m : PM S α} (h : Tri P m Q) (hP : ∀ st, P' st → P st)
    (hQ : ∀ a st, Q a st → Q' a st) : Tri P' m Q' :=
  fun st h0 a st' h1 => hQ _ _ (h st (hP st h0) a st' h1)

theorem pre {P' : PSt S → Prop} {m : PM S α} (h : Tri P m Q) (hP : ∀ st, P' st → P st) : Tri P' m Q :=
  h.mono hP fun _ _ h => h

theorem post {Q' : α → PSt S → Prop} {m : PM S α} (h : Tri P m Q) (hQ : ∀ a st, Q a st → Q' a st) : Tri P m Q' :=
  h.mono (fun _ h => h) hQ

/-- a pure fact can be taken out of the precondition -/
theorem pure_pre {A : Prop} {m : PM S α} (h : A → Tri P m Q) : Tri (fun st => P st ∧ A) m Q :=
  fun st hP a st' hm => h hP.2 st hP.1 a st' hm

end Tri

/-! ## vectors -/

namespace Psa
open PM
section
variable {S : Type}

theorem at_ok {l : List S} {i : ℕ} {a : S} (h : at' l i = .ok a) : l[i]? = some a := by
  unfold at' at h
  split at h
  · cases h; assumption
  · cases h

theorem tab_ok : ∀ {n : ℕ} {f : ℕ → Res S} {l : List S}, tab n f = .ok l →
    l.length = n ∧ ∀ i < n, ∃ a, f i = .ok a ∧ l[i]? = some a
  | 0, _, l, h => by
    unfold tab at h; cases h
    exact ⟨rfl, fun i hi => absurd hi (Nat.not_lt_zero i)⟩
  | n + 1, f, l, h => by
    unfold tab at h
    obtain ⟨t, ht, h⟩ := bind_ok.1 h
    obtain ⟨a, ha, h⟩ := bind_ok.1 h
    cases h
    obtain ⟨h1, h2⟩ := tab_ok ht
    refine ⟨by simp [h1], fun i hi => ?_⟩
    rcases Nat.lt_succ_iff_lt_or_eq.1 hi with hlt | rfl
    · obtain ⟨b, hb, hb'⟩ := h2 i hlt
      exact ⟨b, hb, by rw [List.getElem?_append_left (by omega)]; exact hb'⟩
    · exact ⟨a, ha, by rw [List.getElem?_append_right (by omega)]; simp [h1]⟩

/-- a property of all elements of a table -/
theorem tab_all {n : ℕ} {f : ℕ → Res S} {l : List S} (h : tab n f = .ok l) {Q : ℕ → S → Prop}
    (hf : ∀ i a, i < n → f i = .ok a → Q i a) : ∀ i a, l[i]? = some a → Q i a := by
  obtain ⟨h1, h2⟩ := tab_ok h
  intro i a hi
  have hlt : i < n := by
    by_contra hc
    rw [List.getElem?_eq_none (by omega)] at hi; cases hi
  obtain ⟨b, hb, hb'⟩ := h2 i hlt
  rw [hb'] at hi; cases hi
  exact hf i a hlt hb

end

/-! ## meaning of a series -/

variable {S : Type} [ScalSem S]
open ScalSem PowerSeries

/-- What a run of the arithmetic depends on: mode, domain, size `s` of the variables, number `l` of coefficients which are
exact (the others belong to the remainder), size `m` of the recorded intermediate results, point `τ` of the domain, entries
`g` of the history which are neither used nor written in the run. -/
structure Env (S : Type) where
  md : ℤ
  d : S
  s : ℕ
  m : ℕ
  l : ℕ
  τ : ℝ
  g : List (List S)

/-- the objects of the coefficient type stand for convex sets -/
def Conv (S : Type) [ScalSem S] : Prop := ∀ (s : S) (a b ξ : ℝ), mem a s → mem b s → ξ ∈ Set.uIcc a b → mem ξ s

/-- mode 1: all coefficients are exact; mode 2: the last one is a remainder -/
structure Env.Ok (E : Env S) : Prop where
  cases' : (E.md = 1 ∧ E.l = E.s) ∨ (E.md = 2 ∧ E.l + 1 = E.s ∧ mem E.τ E.d ∧ mem 0 E.d ∧ Conv S)
  one_le : 1 ≤ E.m
  le : E.m ≤ E.s
  l_pos : 1 ≤ E.l
  small : E.s < 2 ^ 31

theorem Env.Ok.l_le {E : Env S} (h : E.Ok) : E.l ≤ E.s := by
  rcases h.cases' with h | h <;> omega
theorem Env.Ok.s_pos {E : Env S} (h : E.Ok) : 1 ≤ E.s := le_trans h.l_pos h.l_le
theorem Env.Ok.two {E : Env S} (h : E.Ok) (h2 : E.md = 2) : 2 ≤ E.s ∧ E.l + 1 = E.s ∧ mem E.τ E.d ∧ mem 0 E.d ∧ Conv S := by
  rcases h.cases' with h' | h'
  · omega
  · exact ⟨by have := h.l_pos; omega, h'.2.1, h'.2.2⟩
theorem Env.Ok.one {E : Env S} (h : E.Ok) (h2 : E.md ≠ 2) : E.md = 1 ∧ E.l = E.s := by
  rcases h.cases' with h' | h'
  · exact h'
  · exact absurd h'.1 h2

/-- every entry of `x` contains the number with the same index -/
def Mem (p : ℕ → ℝ) (x : List S) : Prop := ∀ i a, x[i]? = some a → mem (p i) a

/-- The list `x` stands for a quantity with power series `c` and, in mode 2, value `v` at the point `τ`.  `k`: the list has
one element and stands for a constant. -/
structure Sem (E : Env S) (k : Bool) (c : PowerSeries ℝ) (v : ℝ) (x : List S) : Prop where
  len : x.length = if k then 1 else E.s
  con : k = true → c = C v
  ex : ∃ p : ℕ → ℝ, Mem p x ∧ (∀ i < E.l, p i = coeff i c) ∧ (E.md = 2 → v = ∑ i ∈ Finset.range E.s, p i * E.τ ^ i) ∧
    (k = true → ∀ i, 1 ≤ i → p i = 0)

theorem Sem.congr {E : Env S} {k : Bool} {c c' : PowerSeries ℝ} {v v' : ℝ} {x : List S} (h : Sem E k c v x)
    (hc : ∀ i < E.l, coeff i c = coeff i c') (hv : E.md = 2 → v = v') (hk : k = true → c' = C v') : Sem E k c' v' x := by
  obtain ⟨p, h1, h2, h3, h4⟩ := h.ex
  exact ⟨h.len, hk, p, h1, fun i hi => by rw [h2 i hi, hc i hi], fun hm => by rw [← hv hm, h3 hm], h4⟩

/-- a one-element list -/
theorem sem_const {E : Env S} (hE : E.Ok) {a : S} {v : ℝ} (h : mem v a) : Sem E true (C v) v [a] := by
  refine ⟨rfl, fun _ => rfl, fun i => if i = 0 then v else 0, ?_, ?_, ?_, ?_⟩
  · intro i b hi
    rcases i with _ | i
    · simp at hi; subst hi; simpa using h
    · simp at hi
  · intro i _
    simp [PowerSeries.coeff_C]
  · intro _
    rw [Finset.sum_eq_single 0]
    · simp
    · intro i _ hi; simp [hi]
    · intro h0; exact absurd (Finset.mem_range.2 hE.s_pos) h0
  · intro _ i hi
    have : i ≠ 0 := by omega
    simp [this]

/-! ## history -/

/-- a recorded list belongs to the quantity with the power series `t.1` (`t.2`: constant) -/
structure Match (m : ℕ) (t : PowerSeries ℝ × Bool) (e : List S) : Prop where
  mem : Mem (fun i => coeff i t.1) e
  len : t.2 = false → e.length = m
  con : t.2 = true → e.length ≤ 1

/-- as `Match`, for an entry that is only used below the index `l` -/
structure Use (m l : ℕ) (t : PowerSeries ℝ × Bool) (e : List S) : Prop where
  mem : ∀ i a, i < l → e[i]? = some a → ScalSem.mem (coeff i t.1) a
  len : t.2 = false → e.length = m
  con : t.2 = true → e.length ≤ 1

theorem Match.use {m : ℕ} (l : ℕ) {t : PowerSeries ℝ × Bool} {e : List S} (h : Match m t e) : Use m l t e :=
  ⟨fun i a _ hi => h.mem i a hi, h.len, h.con⟩

/-- the history consists of a part to be used, other entries, and a part recorded in this run -/
def Inv (m l : ℕ) (G : List (List S)) (TU TP : List (PowerSeries ℝ × Bool)) (h : List (List S)) : Prop :=
  ∃ U P, h = U ++ (G ++ P) ∧ List.Forall₂ (Use m l) TU U ∧ List.Forall₂ (Match l) TP P

/-- the state: mode, domain, switches, history -/
structure At (E : Env S) (u r : Bool) (TU TP : List (PowerSeries ℝ × Bool)) (st : PSt S) : Prop where
  mode : st.mode = E.md
  domain : st.domain = E.d
  use : st.use = u
  record : st.record = r
  inv : Inv E.m E.l E.g TU TP st.hist

/-- entries taken out of the history -/
def popT (u : Bool) (t T : List (PowerSeries ℝ × Bool)) := if u then t ++ T else T
/-- entries appended -/
def pushT (r : Bool) (T t : List (PowerSeries ℝ × Bool)) := if r then T ++ t else T

theorem popT_append (u : Bool) (s t T) : popT u (s ++ t) T = popT u s (popT u t T) := by
  unfold popT; split_ifs <;> simp
theorem pushT_append (u : Bool) (s t T) : pushT u T (s ++ t) = pushT u (pushT u T s) t := by
  unfold pushT; split_ifs <;> simp
theorem popT_nil (u : Bool) (T) : popT u [] T = T := by unfold popT; split_ifs <;> rfl
theorem pushT_nil (u : Bool) (T) : pushT u T [] = T := by unfold pushT; split_ifs <;> simp

theorem Inv.uncons {m l : ℕ} {G} {t} {TU TP} {h : List (List S)} (hi : Inv m l G (t :: TU) TP h) :
    ∃ e h', h = e :: h' ∧ Use m l t e ∧ Inv m l G TU TP h' := by
  obtain ⟨U, P, rfl, h1, h2⟩ := hi
  cases h1 with
  | cons a b => exact ⟨_, _, rfl, a, _, P, rfl, b, h2⟩

theorem Inv.snoc {m l : ℕ} {G} {t} {TU TP} {h : List (List S)} {e : List S} (hi : Inv m l G TU TP h) (he : Match l t e) :
    Inv m l G TU (TP ++ [t]) (h ++ [e]) := by
  obtain ⟨U, P, rfl, h1, h2⟩ := hi
  exact ⟨U, P ++ [e], by simp, h1, List.rel_append h2 (.cons he .nil)⟩

/-- the specification of an operation that records one result -/
def Op1 (E : Env S) (k : Bool) (c : PowerSeries ℝ) (v : ℝ) (m : PM S (List S)) : Prop :=
  ∀ u r TU TP, Tri (At E u r (popT u [(c, k)] TU) TP) m (fun z st => At E u r TU (pushT r TP [(c, k)]) st ∧ Sem E k c v z)

theorem Mem.dropLast {p : ℕ → ℝ} {x : List S} (h : Mem p x) : Mem p x.dropLast := by
  intro i a hi
  rw [List.getElem?_dropLast] at hi
  split_ifs at hi
  exact h i a hi

theorem Sem.match {E : Env S} (hE : E.Ok) {k c v} {x : List S} (h : Sem E k c v x) (hm : E.md ≠ 2) : Match E.l (c, k) x := by
  obtain ⟨p, h1, h2, h3, h4⟩ := h.ex
  have hl := h.len
  obtain ⟨-, hls⟩ := hE.one hm
  refine ⟨fun i a hi => ?_, fun hk => ?_, fun hk => ?_⟩
  · have : i < x.length := by
      by_contra hc; rw [List.getElem?_eq_none (by omega)] at hi; cases hi
    have hil : i < E.l := by
      cases k
      · simp at hl; omega
      · simp at hl; have := hE.l_pos; omega
    show ScalSem.mem (coeff i c) a
    rw [← h2 i hil]; exact h1 i a hi
  · simp only at hk; subst hk; simp at hl; rw [hl, hls]
  · simp only at hk; subst hk; simp at hl; omega

theorem Sem.match2 {E : Env S} (hE : E.Ok) {k c v} {x : List S} (h : Sem E k c v x) (hm : E.md = 2) :
    Match E.l (c, k) x.dropLast := by
  obtain ⟨p, h1, h2, h3, h4⟩ := h.ex
  have hl := h.len
  obtain ⟨hs2, hls, -⟩ := hE.two hm
  refine ⟨fun i a hi => ?_, fun hk => ?_, fun hk => ?_⟩
  · have : i < x.dropLast.length := by
      by_contra hc; rw [List.getElem?_eq_none (by omega)] at hi; cases hi
    rw [List.length_dropLast] at this
    have hil : i < E.l := by
      cases k
      · simp at hl; omega
      · simp at hl; omega
    show ScalSem.mem (coeff i c) a
    rw [← h2 i hil]; exact h1.dropLast i a hi
  · simp only at hk; subst hk; simp at hl; rw [List.length_dropLast]; omega
  · simp only at hk; subst hk; simp at hl; rw [List.length_dropLast]; omega

theorem pop_spec {E : Env S} {t} (u r : Bool) (TU TP) :
    Tri (S := S) (At E u r (popT u [t] TU) TP) pop (fun _ st => At E u r TU TP st) := by
  intro st hst z st' hz
  unfold pop at hz
  rw [get_bind, hst.use] at hz
  cases u with
  | true =>
    simp only [if_true] at hz
    obtain ⟨e, h', hh, -, hi⟩ := Inv.uncons (by simpa [popT] using hst.inv)
    rw [hh] at hz
    simp only [setHist] at hz
    cases hz
    exact ⟨hst.mode, hst.domain, hst.use, hst.record, hi⟩
  | false =>
    simp only [Bool.false_eq_true, if_false] at hz
    obtain ⟨-, rfl⟩ := pure_run hz
    simpa [popT] using hst

theorem push_spec {E : Env S} (hE : E.Ok) {k c v} {x : List S} (h : Sem E k c v x) (u r : Bool) (TU TP) :
    Tri (At E u r TU TP) (push x) (fun _ st => At E u r TU (pushT r TP [(c, k)]) st) := by
  intro st hst z st' hz
  unfold push at hz
  rw [get_bind, hst.record] at hz
  cases r with
  | false =>
    simp only [Bool.false_eq_true, if_false] at hz
    obtain ⟨-, rfl⟩ := pure_run hz
    simpa [pushT] using hst
  | true =>
    simp only [if_true] at hz
    rw [hst.mode] at hz
    rcases hE.cases' with hm | hm
    · rw [if_pos hm.1] at hz
      simp only [setHist] at hz
      cases hz
      exact ⟨hst.mode, hst.domain, hst.use, hst.record, by
        simpa [pushT] using hst.inv.snoc (h.match hE (by omega))⟩
    · rw [if_neg (by omega)] at hz
      simp only [setHist] at hz
      cases hz
      exact ⟨hst.mode, hst.domain, hst.use, hst.record, by
        simpa [pushT] using hst.inv.snoc (h.match2 hE hm.1)⟩

/-- `finish` with a correct result -/
theorem finish_spec {E : Env S} (hE : E.Ok) {k c v} {x : List S} (h : Sem E k c v x) : Op1 E k c v (finish x) := by
  intro u r TU TP
  exact (pop_spec u r TU TP).bind fun _ => (push_spec hE h u r TU TP).bind fun _ => Tri.pure fun st hst => ⟨hst, h⟩

/-- `fill`: the elements taken from the history and the computed ones -/
theorem fill_spec {E : Env S} (hE : E.Ok) {k : Bool} {c : PowerSeries ℝ} {p : ℕ → ℝ} (hp : ∀ i < E.l, p i = coeff i c)
    {n : ℕ} (hn : n ≤ E.s) {fresh elem : ℕ → Res S} (hf : ∀ i a, i < n → fresh i = .ok a → mem (p i) a)
    (he : ∀ i a, i < n → elem i = .ok a → mem (p i) a) (u r : Bool) (TU TP) :
    Tri (At E u r (popT u [(c, k)] TU) TP) (fill n fresh elem)
      (fun z st => At E u r (popT u [(c, k)] TU) TP st ∧ z.length = n ∧ Mem p z) := by
  intro st hst z st' hz
  unfold fill at hz
  rw [get_bind, hst.use] at hz
  cases u with
  | false =>
    simp only [Bool.false_eq_true, if_false] at hz
    obtain ⟨ht, rfl⟩ := lift_run hz
    exact ⟨hst, (tab_ok ht).1, tab_all ht hf⟩
  | true =>
    simp only [if_true] at hz
    obtain ⟨e, h', hh, hm, hi⟩ := Inv.uncons (by simpa [popT] using hst.inv)
    rw [hh] at hz
    obtain ⟨ht, rfl⟩ := lift_run hz
    refine ⟨hst, (tab_ok ht).1, tab_all ht fun i a hin ha => ?_⟩
    by_cases hold : i < if st'.mode = 2 then min e.length (n - 1) else e.length
    · rw [if_pos hold] at ha
      have hie : i < e.length := by split_ifs at hold <;> omega
      have hil : i < E.l := by
        cases k with
        | true =>
          have := hm.con rfl
          have := hE.l_pos
          omega
        | false =>
          have := hm.len rfl
          have := hE.le
          have hmd := hst.mode
          rcases hE.cases' with h | h
          · omega
          · rw [if_pos (by omega)] at hold
            omega
      rw [hp i hil]
      exact hm.mem i a hil (at_ok ha)
    · rw [if_neg hold] at ha
      exact he i a hin ha

theorem Op1.mk {E : Env S} (hE : E.Ok) {k c v} {f : PM S (List S)}
    (hf : ∀ u r TU TP, Tri (At E u r (popT u [(c, k)] TU) TP) f
      (fun z st => At E u r (popT u [(c, k)] TU) TP st ∧ Sem E k c v z)) : Op1 E k c v (f >>= finish) := by
  intro u r TU TP
  exact (hf u r TU TP).bind fun z => Tri.pure_pre fun hz => finish_spec hE hz u r TU TP

end Psa
end Kv
