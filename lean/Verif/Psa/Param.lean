import Verif.Ode.Model
import Verif.Psa.Hoare
import Verif.Autodif.Inst

/-!
# Power series over any scalar type follow power series over families of reals

`highderiv` of a function with the scalar type `autodif<interval>` computes power series whose coefficients are values with
gradients.  Here the run over a scalar type `S` is compared with the runs over exact reals for the points `i` of a type `ι`
(with a filter `l`): if every operation of `S` follows the operations on reals, so do the operations of `psa` in mode 1
without history.
-/

namespace Kv.Psa
open PM RopSem
open Rop (lit)

/-- `psa` in mode 1 without history, as set by `highderiv` -/
def Plain {S : Type} (s : PSt S) : Prop := s.mode = 1 ∧ s.use = false ∧ s.record = false

/-- the functions whose domain is checked by `autodif` even for constants (all but `log`) -/
def Tame : Un → Prop
  | .log => False
  | _ => True

attribute [local instance] scalR

section
variable {ι : Type} {l : Filter ι} {N : ℕ} {S : Type} [Scal S] {Rel : (ι → ℝ) → S → Prop}

/-- every operation of `S` follows the operation on reals; `φ i` is the real at the point `i` -/
structure Rules (l : Filter ι) (N : ℕ) (Rel : (ι → ℝ) → S → Prop) : Prop where
  bin : ∀ {o φ ψ A B C}, Rel φ A → Rel ψ B → Scal.bin o A B = .ok C → ∃ χ : ι → ℝ, (∀ᶠ i in l, Scal.bin o (φ i) (ψ i) = .ok (χ i)) ∧ Rel χ C
  binC : ∀ {o φ k A C}, Rel φ A → (∃ c : ℝ, Is k c) → Scal.binC o A k = .ok C → ∃ χ : ι → ℝ, (∀ᶠ i in l, Scal.binC o (φ i) k = .ok (χ i)) ∧ Rel χ C
  cBin : ∀ {o φ k A C}, Rel φ A → (∃ c : ℝ, Is k c) → Scal.cBin o k A = .ok C → ∃ χ : ι → ℝ, (∀ᶠ i in l, Scal.cBin o k (φ i) = .ok (χ i)) ∧ Rel χ C
  un : ∀ {f φ A C}, Tame f → Rel φ A → Scal.un f A = .ok C → ∃ χ : ι → ℝ, (∀ᶠ i in l, Scal.un f (φ i) = .ok (χ i)) ∧ Rel χ C
  ofC : ∀ {k}, (∃ c : ℝ, Is k c) → Rel (fun _ => Scal.ofC k) (Scal.ofC k)
  small : N < 2 ^ 31
  pos : 1 ≤ N

/-- two computations without `psa` -/
def RR (l : Filter ι) {α β : Type} (m1 : ι → Res α) (m2 : Res β) (R : (ι → α) → β → Prop) : Prop :=
  ∀ b, m2 = .ok b → ∃ a : ι → α, (∀ᶠ i in l, m1 i = .ok (a i)) ∧ R a b

theorem RR.pure {α β : Type} {R : (ι → α) → β → Prop} {a : ι → α} {b : β} (h : R a b) : RR l (fun i => .ok (a i)) (.ok b) R := by
  rintro _ ⟨⟩
  exact ⟨a, .of_forall fun _ => rfl, h⟩

theorem RR.err {α β : Type} {R : (ι → α) → β → Prop} {m1 : ι → Res α} {e : Err} : RR l m1 (.error e : Res β) R := by
  rintro _ ⟨⟩

theorem RR.bind {α β α' β' : Type} {R : (ι → α) → β → Prop} {R' : (ι → α') → β' → Prop} {m1 : ι → Res α} {m2 : Res β}
    {k1 : ι → α → Res α'} {k2 : β → Res β'} (h : RR l m1 m2 R) (hk : ∀ a b, R a b → RR l (fun i => k1 i (a i)) (k2 b) R') :
    RR l (fun i => m1 i >>= k1 i) (m2 >>= k2) R' := by
  intro b' hb'
  obtain ⟨b, hb, hb'⟩ := bind_ok.1 hb'
  obtain ⟨a, ha, hR⟩ := h b hb
  obtain ⟨a', ha', hR'⟩ := hk a b hR b' hb'
  refine ⟨a', ?_, hR'⟩
  filter_upwards [ha, ha'] with i h1 h2
  rw [h1]; exact h2

/-- two computations with `psa` -/
def PR (l : Filter ι) {α β : Type} (m1 : ι → PM ℝ α) (m2 : PM S β) (R : (ι → α) → β → Prop) : Prop :=
  ∀ s1 s2, Plain s1 → Plain s2 → ∀ b s', m2 s2 = (.ok b, s') → s' = s2 ∧ ∃ a : ι → α, (∀ᶠ i in l, m1 i s1 = (.ok (a i), s1)) ∧ R a b

omit [Scal S] in
theorem PR.pure {α β : Type} {R : (ι → α) → β → Prop} {a : ι → α} {b : β} (h : R a b) : PR (S := S) l (fun i => (return a i : PM ℝ α)) (return b) R := by
  rintro s1 s2 _ _ _ _ ⟨⟩
  exact ⟨rfl, a, .of_forall fun _ => rfl, h⟩

omit [Scal S] in
theorem PR.lift {α β : Type} {R : (ι → α) → β → Prop} {m1 : ι → Res α} {m2 : Res β} (h : RR l m1 m2 R) :
    PR (S := S) l (fun i => PM.lift (m1 i)) (PM.lift m2) R := by
  intro s1 s2 _ _ b s' e
  obtain ⟨e1, e2⟩ := Prod.mk.inj e
  obtain ⟨a, ha, hR⟩ := h b e1
  exact ⟨e2.symm, a, ha.mono fun i hi => by show (m1 i, s1) = _; rw [hi], hR⟩

omit [Scal S] in
theorem PR.bind {α β α' β' : Type} {R : (ι → α) → β → Prop} {R' : (ι → α') → β' → Prop} {m1 : ι → PM ℝ α} {m2 : PM S β}
    {k1 : ι → α → PM ℝ α'} {k2 : β → PM S β'} (h : PR l m1 m2 R) (hk : ∀ a b, R a b → PR l (fun i => k1 i (a i)) (k2 b) R') :
    PR l (fun i => m1 i >>= k1 i) (m2 >>= k2) R' := by
  intro s1 s2 h1 h2 b' s' hb'
  obtain ⟨b, s3, hb, hc⟩ := bind_run hb'
  obtain ⟨rfl, a, ha, hR⟩ := h s1 s2 h1 h2 b _ hb
  obtain ⟨rfl, a', ha', hR'⟩ := hk a b hR s1 _ h1 h2 b' _ hc
  refine ⟨rfl, a', ?_, hR'⟩
  filter_upwards [ha, ha'] with i e1 e2
  show (m1 i >>= k1 i) s1 = _
  rw [bind_eq, e1]; exact e2

omit [Scal S] in
theorem PR.get {α' β' : Type} {R' : (ι → α') → β' → Prop} {k1 : ι → PSt ℝ → PM ℝ α'} {k2 : PSt S → PM S β'}
    (hk : ∀ s1 s2, Plain s1 → Plain s2 → PR l (fun i => k1 i s1) (k2 s2) R') : PR l (fun i => PM.get >>= k1 i) (PM.get >>= k2) R' :=
  fun s1 s2 h1 h2 b s' e => hk s1 s2 h1 h2 s1 s2 h1 h2 b s' e

omit [Scal S] in
theorem PR.congr {α β : Type} {R : (ι → α) → β → Prop} {m1 m1' : ι → PM ℝ α} {m2 m2' : PM S β} (h : PR l m1' m2' R)
    (e1 : ∀ i s, Plain s → m1 i s = m1' i s) (e2 : ∀ s, Plain s → m2 s = m2' s) : PR l m1 m2 R := by
  intro s1 s2 h1 h2 b s' e
  rw [e2 s2 h2] at e
  obtain ⟨e3, a, ha, hR⟩ := h s1 s2 h1 h2 b s' e
  exact ⟨e3, a, ha.mono fun i hi => by rw [e1 i s1 h1]; exact hi, hR⟩

/-- two lists of coefficients -/
def RL (N : ℕ) (Rel : (ι → ℝ) → S → Prop) (L : ι → List ℝ) (l2 : List S) : Prop :=
  ∃ M : List (ι → ℝ), L = (fun i => M.map fun φ => φ i) ∧ List.Forall₂ Rel M l2 ∧ l2.length ≤ N

omit [Scal S] in
theorem forall₂_get {M : List (ι → ℝ)} {l2 : List S} (h : List.Forall₂ Rel M l2) {k : ℕ} {A : S} (hA : l2[k]? = some A) :
    ∃ φ, M[k]? = some φ ∧ Rel φ A := by
  induction h generalizing k with
  | nil => simp at hA
  | cons h1 h2 ih =>
    cases k with
    | zero => simp at hA; subst hA; exact ⟨_, rfl, h1⟩
    | succ k => simp at hA; simpa using ih hA

section
variable {L L' : ι → List ℝ} {l2 l3 : List S}

omit [Scal S] in
theorem RL.len (h : RL N Rel L l2) (i : ι) : (L i).length = l2.length := by
  obtain ⟨M, rfl, h, -⟩ := h
  simp [h.length_eq]

omit [Scal S] in
theorem RL.at (h : RL N Rel L l2) (k : ℕ) : RR l (fun i => at' (L i) k) (at' l2 k) Rel := by
  obtain ⟨M, rfl, h, -⟩ := h
  intro A hA
  obtain ⟨φ, hφ, hR⟩ := forall₂_get h (at_ok hA)
  refine ⟨φ, .of_forall fun i => ?_, hR⟩
  simp only [at', List.getElem?_map, hφ]; rfl

omit [Scal S] in
theorem tab_rel {n : ℕ} (hn : n ≤ N) {f1 : ι → ℕ → Res ℝ} {f2 : ℕ → Res S} (h : ∀ k < n, RR l (fun i => f1 i k) (f2 k) Rel) :
    RR l (fun i => tab n (f1 i)) (tab n f2) (RL N Rel) := by
  have key : ∀ n, (∀ k < n, RR l (fun i => f1 i k) (f2 k) Rel) → RR l (fun i => tab n (f1 i)) (tab n f2)
      fun L l2 => ∃ M : List (ι → ℝ), L = (fun i => M.map fun φ => φ i) ∧ List.Forall₂ Rel M l2 ∧ l2.length = n := by
    intro n
    induction n with
    | zero => exact fun _ => RR.pure (a := fun _ => []) ⟨[], rfl, .nil, rfl⟩
    | succ n ih =>
      intro h
      refine RR.bind (ih fun k hk => h k (by omega)) ?_
      rintro _ l2 ⟨M, rfl, hM, hl⟩
      refine RR.bind (h n (by omega)) fun φ A hA => RR.pure (a := fun i => M.map (fun φ => φ i) ++ [φ i]) ⟨M ++ [φ], ?_, ?_, ?_⟩
      · funext i; simp
      · exact List.rel_append hM (.cons hA .nil)
      · simp [hl]
  intro b hb
  obtain ⟨a, ha, M, h1, h2, h3⟩ := key n h b hb
  exact ⟨a, ha, M, h1, h2, by omega⟩

omit [Scal S] in
theorem RL.nil : RL N Rel (fun _ => []) ([] : List S) := ⟨[], rfl, .nil, by simp⟩

omit [Scal S] in
theorem RL.single (hN : 1 ≤ N) {φ : ι → ℝ} {A : S} (h : Rel φ A) : RL N Rel (fun i => [φ i]) [A] := ⟨[φ], rfl, .cons h .nil, by simpa⟩

variable (H : Rules l N Rel)
include H

theorem Rules.RRbin {o : Bin} {φ ψ : ι → ℝ} {A B : S} (h1 : Rel φ A) (h2 : Rel ψ B) : RR l (fun i => Scal.bin o (φ i) (ψ i)) (Scal.bin o A B) Rel :=
  fun _ h => H.bin h1 h2 h
theorem Rules.RRbinC {o : Bin} {φ : ι → ℝ} {A : S} {k : D} (h1 : Rel φ A) (hk : (∃ c : ℝ, Is k c)) : RR l (fun i => Scal.binC o (φ i) k) (Scal.binC o A k) Rel :=
  fun _ h => H.binC h1 hk h
theorem Rules.RRcBin {o : Bin} {φ : ι → ℝ} {A : S} {k : D} (h1 : Rel φ A) (hk : (∃ c : ℝ, Is k c)) : RR l (fun i => Scal.cBin o k (φ i)) (Scal.cBin o k A) Rel :=
  fun _ h => H.cBin h1 hk h
theorem Rules.RRun {f : Un} {φ : ι → ℝ} {A : S} (hf : Tame f) (h1 : Rel φ A) : RR l (fun i => Scal.un f (φ i)) (Scal.un f A) Rel :=
  fun _ h => H.un hf h1 h


/-! ### vectors -/

theorem addHead_rel (h : RL N Rel L l2) {φ : ι → ℝ} {A : S} (hA : Rel φ A) : RR l (fun i => addHead (L i) (φ i)) (addHead l2 A) (RL N Rel) := by
  obtain ⟨M, rfl, h, hl⟩ := h
  cases h with
  | nil => exact RR.err
  | cons h1 h2 =>
    refine RR.bind (H.RRbin h1 hA) fun ψ B hB => RR.pure (a := fun i => ψ i :: _) ⟨ψ :: _, rfl, .cons hB h2, hl⟩

theorem subHead_rel (h : RL N Rel L l2) {φ : ι → ℝ} {A : S} (hA : Rel φ A) : RR l (fun i => subHead (L i) (φ i)) (subHead l2 A) (RL N Rel) := by
  obtain ⟨M, rfl, h, hl⟩ := h
  cases h with
  | nil => exact RR.err
  | cons h1 h2 =>
    refine RR.bind (H.RRbin h1 hA) fun ψ B hB => RR.pure (a := fun i => ψ i :: _) ⟨ψ :: _, rfl, .cons hB h2, hl⟩

theorem addHeadC_rel (h : RL N Rel L l2) {k : D} (hk : ∃ c : ℝ, Is k c) : RR l (fun i => addHeadC (L i) k) (addHeadC l2 k) (RL N Rel) := by
  obtain ⟨M, rfl, h, hl⟩ := h
  cases h with
  | nil => exact RR.err
  | cons h1 h2 =>
    refine RR.bind (H.RRbinC h1 hk) fun ψ B hB => RR.pure (a := fun i => ψ i :: _) ⟨ψ :: _, rfl, .cons hB h2, hl⟩

theorem subHeadC_rel (h : RL N Rel L l2) {k : D} (hk : ∃ c : ℝ, Is k c) : RR l (fun i => subHeadC (L i) k) (subHeadC l2 k) (RL N Rel) := by
  obtain ⟨M, rfl, h, hl⟩ := h
  cases h with
  | nil => exact RR.err
  | cons h1 h2 =>
    refine RR.bind (H.RRbinC h1 hk) fun ψ B hB => RR.pure (a := fun i => ψ i :: _) ⟨ψ :: _, rfl, .cons hB h2, hl⟩

omit [Scal S] H in
theorem RL.le (h : RL N Rel L l2) : l2.length ≤ N := h.choose_spec.2.2

omit [Scal S] H in
theorem RL.mono {N' : ℕ} (hN : N ≤ N') (h : RL N Rel L l2) : RL N' Rel L l2 := by
  obtain ⟨M, h1, h2, h3⟩ := h
  exact ⟨M, h1, h2, h3.trans hN⟩

theorem negV_rel (h : RL N Rel L l2) : RR l (fun i => negV (L i)) (negV l2) (RL N Rel) := by
  unfold negV
  simp only [h.len]
  exact tab_rel h.le fun k _ => RR.bind (h.at k) fun φ A hA => H.RRun trivial hA

theorem divV_rel (h : RL N Rel L l2) {φ : ι → ℝ} {A : S} (hA : Rel φ A) : RR l (fun i => divV (L i) (φ i)) (divV l2 A) (RL N Rel) := by
  unfold divV
  simp only [h.len]
  exact tab_rel h.le fun k _ => RR.bind (h.at k) fun ψ B hB => H.RRbin hB hA

theorem elem2_rel (h : RL N Rel L l2) (h' : RL N Rel L' l3) (o : Bin) (k : ℕ) : RR l (fun i => elem2 o (L i) (L' i) k) (elem2 o l2 l3 k) Rel :=
  RR.bind (h.at k) fun _ _ h1 => RR.bind (h'.at k) fun _ _ h2 => H.RRbin h1 h2

theorem prodAt_rel (h : RL N Rel L l2) (h' : RL N Rel L' l3) (k m : ℕ) : RR l (fun i => prodAt (L i) (L' i) k m) (prodAt l2 l3 k m) Rel :=
  RR.bind (h.at k) fun _ _ h1 => RR.bind (h'.at m) fun _ _ h2 => H.RRbin h1 h2

theorem sumFrom_rel {α : Type} (ts : List α) {f1 : ι → α → Res ℝ} {f2 : α → Res S} (hf : ∀ a, RR l (fun i => f1 i a) (f2 a) Rel) :
    ∀ {φ : ι → ℝ} {A : S}, Rel φ A → RR l (fun i => sumFrom (φ i) (ts.map (f1 i))) (sumFrom A (ts.map f2)) Rel := by
  induction ts with
  | nil => exact fun h => RR.pure h
  | cons t ts ih => exact fun h => RR.bind (hf t) fun _ _ h1 => RR.bind (H.RRbin h h1) fun _ _ h2 => ih h2

theorem Rules.zero : Rel (fun _ => Psa.zero) Psa.zero := H.ofC ⟨0, Interval.is_zero⟩
theorem Rules.one : Rel (fun _ => Psa.one) Psa.one := H.ofC ⟨1, Interval.is_one⟩

theorem conv_rel (h : RL N Rel L l2) (h' : RL N Rel L' l3) (k : ℕ) : RR l (fun i => conv (L i) (L' i) k) (conv l2 l3 k) Rel :=
  sumFrom_rel H _ (fun j => prodAt_rel H h h' j (k - j)) H.zero

theorem center_rel (h : RL N Rel L l2) : RL N Rel (fun i => center (L i)) (center l2) := by
  obtain ⟨M, rfl, h, hl⟩ := h
  cases h with
  | nil => exact ⟨[], rfl, .nil, hl⟩
  | cons h1 h2 => exact ⟨(fun _ => zero) :: _, rfl, .cons H.zero h2, hl⟩

theorem integrate_rel (h : RL N Rel L l2) (hl : l2.length < N) : RR l (fun i => integrate (L i)) (integrate l2) (RL N Rel) := by
  unfold integrate
  simp only [h.len]
  refine RR.bind (tab_rel (N := l2.length) le_rfl fun k hk => RR.bind (h.at k) fun φ A hA => H.RRbinC hA ?_) ?_
  · have := Interval.Is.lit_int (T := D) ((k + 1 : ℕ) : ℤ) (by have := H.small; rw [abs_of_nonneg (by omega)]; omega)
    exact ⟨((k + 1 : ℕ) : ℤ), by simpa using this⟩
  · rintro _ l3 ⟨M, rfl, hM, hM'⟩
    exact RR.pure (a := fun i => zero :: _) ⟨(fun _ => zero) :: M, rfl, .cons H.zero hM, by simp; omega⟩

end

/-! ### operators -/

section
variable {L L' : ι → List ℝ} {l2 l3 : List S}

theorem fill_plain {T : Type} [Scal T] {n : ℕ} {f g : ℕ → Res T} {s : PSt T} (h : Plain s) : fill n f g s = (PM.lift (tab n f) : PM T _) s := by
  unfold fill
  rw [get_bind, if_neg (by rw [h.2.1]; simp)]

theorem finish_plain {T : Type} [Scal T] {r : List T} {s : PSt T} (h : Plain s) : finish r s = (.ok r, s) := by
  have h1 : pop s = (.ok (), s) := by
    unfold pop
    rw [get_bind, if_neg (by rw [h.2.1]; simp)]; rfl
  have h2 : push r s = (.ok (), s) := by
    unfold push
    rw [get_bind, if_neg (by rw [h.2.2]; simp)]; rfl
  unfold finish
  rw [bind_eq, h1]
  show (push r >>= fun _ => _) s = _
  rw [bind_eq, h2]; rfl

theorem PR.finish (h : RL N Rel L l2) : PR l (fun i => Psa.finish (L i)) (Psa.finish l2) (RL N Rel) :=
  PR.congr (PR.pure h) (fun _ _ hs => finish_plain hs) (fun _ hs => finish_plain hs)

variable (H : Rules l N Rel)
include H

omit H in
theorem fill_rel {n : ℕ} (hn : n ≤ N) {f1 g1 : ι → ℕ → Res ℝ} {f2 g2 : ℕ → Res S} (h : ∀ k < n, RR l (fun i => f1 i k) (f2 k) Rel) :
    PR l (fun i => fill n (f1 i) (g1 i)) (fill n f2 g2) (RL N Rel) :=
  PR.congr (PR.lift (tab_rel hn h)) (fun _ _ hs => fill_plain hs) (fun _ hs => fill_plain hs)

theorem both_rel (o : Bin) (h : RL N Rel L l2) (h' : RL N Rel L' l3) : PR l (fun i => both o (L i) (L' i)) (both o l2 l3) (RL N Rel) := by
  unfold both
  refine PR.get fun s1 s2 h1 h2 => ?_
  simp only [h.len, h'.len, h1.2.1, h2.2.1]
  by_cases hl : l2.length = l3.length
  · simp only [hl, bne_self_eq_false, Bool.and_false, Bool.false_eq_true, if_false]
    exact fill_rel (h'.le) fun k _ => elem2_rel H h h' o k
  · simp only [bne_iff_ne, ne_eq, hl, not_false_eq_true, Bool.not_false, Bool.true_and, if_true]
    exact PR.lift RR.err

theorem add_rel (h : RL N Rel L l2) (h' : RL N Rel L' l3) : PR l (fun i => add (L i) (L' i)) (add l2 l3) (RL N Rel) := by
  unfold add
  simp only [h.len, h'.len]
  refine PR.bind ?_ fun _ _ hr => PR.finish hr
  split_ifs
  · exact PR.lift (RR.bind (h.at 0) fun _ _ hA => addHead_rel H h' hA)
  · exact PR.lift (RR.bind (h'.at 0) fun _ _ hA => addHead_rel H h hA)
  · exact both_rel H _ h h'

theorem sub_rel (h : RL N Rel L l2) (h' : RL N Rel L' l3) : PR l (fun i => sub (L i) (L' i)) (sub l2 l3) (RL N Rel) := by
  unfold sub
  simp only [h.len, h'.len]
  refine PR.bind ?_ fun _ _ hr => PR.finish hr
  split_ifs
  · exact PR.lift (RR.bind (negV_rel H h') fun _ _ hn => RR.bind (h.at 0) fun _ _ hA => addHead_rel H hn hA)
  · exact PR.lift (RR.bind (h'.at 0) fun _ _ hA => subHead_rel H h hA)
  · exact both_rel H _ h h'

theorem mul_rel (h : RL N Rel L l2) (h' : RL N Rel L' l3) : PR l (fun i => mul (L i) (L' i)) (mul l2 l3) (RL N Rel) := by
  unfold mul
  simp only [h.len, h'.len]
  refine PR.bind ?_ fun _ _ hr => PR.finish hr
  split_ifs
  · exact fill_rel h'.le fun k _ => prodAt_rel H h h' 0 k
  · exact fill_rel h.le fun k _ => prodAt_rel H h h' k 0
  · refine PR.bind (fill_rel h.le fun k _ => conv_rel H h h' k) fun r r2 hr => PR.get fun s1 s2 h1 h2 => ?_
    rw [if_neg (by rw [h2.1]; decide)]
    simp only [show ¬ s1.mode = 2 by rw [h1.1]; decide, if_false]
    exact PR.pure hr

theorem mulC_rel (h : RL N Rel L l2) {k : D} (hk : ∃ c : ℝ, Is k c) : PR l (fun i => mulC (L i) k) (mulC l2 k) (RL N Rel) := by
  unfold mulC
  simp only [h.len]
  exact PR.bind (fill_rel h.le fun j _ => RR.bind (h.at j) fun _ _ hA => H.RRbin hA (H.ofC hk)) fun _ _ hr => PR.finish hr

theorem cMul_rel (h : RL N Rel L l2) {k : D} (hk : ∃ c : ℝ, Is k c) : PR l (fun i => cMul k (L i)) (cMul k l2) (RL N Rel) := by
  unfold cMul
  simp only [h.len]
  exact PR.bind (fill_rel h.le fun j _ => RR.bind (h.at j) fun _ _ hA => H.RRbin (H.ofC hk) hA) fun _ _ hr => PR.finish hr

theorem sMul_rel (h : RL N Rel L l2) {φ : ι → ℝ} {A : S} (hA : Rel φ A) : PR l (fun i => sMul (φ i) (L i)) (sMul A l2) (RL N Rel) := by
  unfold sMul
  simp only [h.len]
  exact PR.bind (fill_rel h.le fun j _ => RR.bind (h.at j) fun _ _ hB => H.RRbin hA hB) fun _ _ hr => PR.finish hr

/-! ### functions -/

theorem body_rel {K1 K2 : Type} {RK : (ι → K1) → K2 → Prop} {n old1 old2 : ℕ} {hs1 : ι → Res (List ℝ)} {hs2 : Res (List S)}
    {stp1 : ι → ℕ → K1 → Res (K1 × ℝ)} {stp2 : ℕ → K2 → Res (K2 × S)} {lst1 : ι → ℕ → K1 → PM ℝ ℝ} {lst2 : ℕ → K2 → PM S S}
    (hh : RR l hs1 hs2 (RL N Rel)) {m : ℕ} (hstp : ∀ κ1 κ2, RK κ1 κ2 → RR l (fun i => stp1 i m (κ1 i)) (stp2 m κ2)
      fun a b => RK (fun i => (a i).1) b.1 ∧ Rel (fun i => (a i).2) b.2)
    (h : RL N Rel L l2) (h' : RL N Rel L' l3) {κ1 : ι → K1} {κ2 : K2} (hκ : RK κ1 κ2) :
    PR l (fun i => body n old1 (hs1 i) (stp1 i) (lst1 i) m (L i) (L' i) (κ1 i)) (body n old2 hs2 stp2 lst2 m l2 l3 κ2)
      fun a b => RL N Rel (fun i => (a i).1) b.1 ∧ RL N Rel (fun i => (a i).2.1) b.2.1 ∧ RK (fun i => (a i).2.2) b.2.2 := by
  have hu : ∀ {T : Type} [Scal T] {old : ℕ} {s : PSt T}, Plain s → useOff old m s = (.ok (), s) := by
    intro T _ old s hs
    unfold useOff
    rw [get_bind, hs.2.1]; rfl
  have hr : ∀ {T : Type} [Scal T] {s : PSt T}, Plain s → recOff n m s = (.ok false, s) := by
    intro T _ s hs
    unfold recOff
    rw [get_bind, if_neg (by rw [hs.1]; rintro ⟨h, -⟩; exact absurd h (by decide))]; rfl
  unfold body
  refine PR.bind (R := fun _ _ => True) (PR.congr (PR.pure (a := fun _ => ()) (b := ()) trivial) (fun _ _ hs => hu hs) fun _ hs => hu hs) fun _ _ _ => ?_
  refine PR.bind (R := fun a b => a = (fun _ => false) ∧ b = false) (PR.congr (PR.pure (a := fun _ => false) (b := false) ⟨rfl, rfl⟩) (fun _ _ hs => hr hs) fun _ hs => hr hs) ?_
  rintro _ _ ⟨rfl, rfl⟩
  simp only [Bool.false_eq_true, if_false]
  refine PR.bind (PR.lift hh) fun _ _ h1 => PR.bind (mul_rel H h h1) fun _ _ h2 => PR.bind (PR.lift (hstp _ _ hκ)) fun a b h3 => ?_
  refine PR.bind (sMul_rel H h2 h3.2) fun _ _ h4 => PR.bind (add_rel H h' h4) fun _ _ h5 => ?_
  exact PR.pure (a := fun i => (_, _, (a i).1)) ⟨h2, h5, h3.1⟩

theorem loop_rel {K1 K2 : Type} {RK : (ι → K1) → K2 → Prop} {n old1 old2 : ℕ} {hs1 : ι → Res (List ℝ)} {hs2 : Res (List S)}
    {stp1 : ι → ℕ → K1 → Res (K1 × ℝ)} {stp2 : ℕ → K2 → Res (K2 × S)} {lst1 : ι → ℕ → K1 → PM ℝ ℝ} {lst2 : ℕ → K2 → PM S S}
    (hh : RR l hs1 hs2 (RL N Rel)) : ∀ (m : ℕ) (_ : ∀ k, 1 ≤ k → k ≤ m → ∀ κ1 κ2, RK κ1 κ2 → RR l (fun i => stp1 i k (κ1 i)) (stp2 k κ2)
      fun a b => RK (fun i => (a i).1) b.1 ∧ Rel (fun i => (a i).2) b.2)
    {L : ι → List ℝ} {l2 : List S} (_ : RL N Rel L l2) {κ1 : ι → K1} {κ2 : K2} (_ : RK κ1 κ2),
    PR l (fun i => loop n old1 (hs1 i) (stp1 i) (lst1 i) m (L i) (κ1 i)) (loop n old2 hs2 stp2 lst2 m l2 κ2)
      fun a b => RL N Rel (fun i => (a i).1) b.1 ∧ RL N Rel (fun i => (a i).2.1) b.2.1 ∧ RK (fun i => (a i).2.2) b.2.2
  | 0, _, L, _, h, κ1, _, hκ => PR.pure (a := fun i => ([Psa.one], L i, κ1 i)) ⟨RL.single H.pos H.one, h, hκ⟩
  | m + 1, hstp, _, _, h, _, _, hκ => by
    unfold loop
    refine PR.bind (loop_rel hh m (fun k h1 h2 => hstp k h1 (by omega)) h hκ) fun a b h1 => ?_
    exact body_rel H hh (hstp (m + 1) (by omega) le_rfl) h1.1 h1.2.1 h1.2.2

theorem taylor_rel {K1 K2 : Type} {RK : (ι → K1) → K2 → Prop} {hs1 : ι → Res (List ℝ)} {hs2 : Res (List S)}
    {stp1 : ι → ℕ → K1 → Res (K1 × ℝ)} {stp2 : ℕ → K2 → Res (K2 × S)} {lst1 : ι → ℕ → K1 → PM ℝ ℝ} {lst2 : ℕ → K2 → PM S S}
    (h : RL N Rel L l2) (hh : RR l hs1 hs2 (RL N Rel)) {φ : ι → ℝ} {A : S} (hA : Rel φ A) {κ1 : ι → K1} {κ2 : K2} (hκ : RK κ1 κ2)
    (hstp : ∀ k, 1 ≤ k → k < N → ∀ κ1 κ2, RK κ1 κ2 → RR l (fun i => stp1 i k (κ1 i)) (stp2 k κ2)
      fun a b => RK (fun i => (a i).1) b.1 ∧ Rel (fun i => (a i).2) b.2) :
    PR l (fun i => taylor (L i) (hs1 i) (φ i) (κ1 i) (stp1 i) (lst1 i)) (taylor l2 hs2 A κ2 stp2 lst2) (RL N Rel) := by
  have ho : ∀ {T : Type} [Scal T] {s : PSt T}, Plain s → oldSize s = (.ok 0, s) := by
    intro T _ s hs
    unfold oldSize
    rw [get_bind, if_neg (by rw [hs.2.1]; simp)]; rfl
  have hu : ∀ {T : Type} {s : PSt T}, Plain s → setUse false s = (.ok (), s) := by
    intro T s hs
    unfold setUse
    rw [← hs.2.1]
  have hr : ∀ {T : Type} {s : PSt T}, Plain s → setRec false s = (.ok (), s) := by
    intro T s hs
    unfold setRec
    rw [← hs.2.2]
  unfold taylor
  refine PR.get fun s1 s2 h1 h2 => ?_
  simp only [h1.2.1, h1.2.2, h2.2.1, h2.2.2, h.len]
  refine PR.bind (R := fun a b => a = (fun _ => 0) ∧ b = 0) (PR.congr (PR.pure (a := fun _ => 0) (b := 0) ⟨rfl, rfl⟩) (fun _ _ hs => ho hs) fun _ hs => ho hs) ?_
  rintro _ _ ⟨rfl, rfl⟩
  refine PR.bind (loop_rel H hh (l2.length - 1) (fun k hk1 hk2 => hstp k hk1 (by have := h.le; omega)) (RL.single H.pos hA) hκ) fun a b hab => ?_
  refine PR.bind (R := fun _ _ => True) (PR.congr (PR.pure (a := fun _ => ()) (b := ()) trivial) (fun _ _ hs => hu hs) fun _ hs => hu hs) fun _ _ _ => ?_
  refine PR.bind (R := fun _ _ => True) (PR.congr (PR.pure (a := fun _ => ()) (b := ()) trivial) (fun _ _ hs => hr hs) fun _ hs => hr hs) fun _ _ _ => ?_
  exact mulC_rel H hab.2.1 ⟨1, Interval.is_one⟩

theorem negDiv_rel {φ ψ : ι → ℝ} {A B : S} (h1 : Rel φ A) (h2 : Rel ψ B) : RR l (fun i => negDiv (φ i) (ψ i)) (negDiv A B) Rel :=
  RR.bind (H.RRun trivial h1) fun _ _ h3 => H.RRbin h3 h2

theorem inv_rel (h : RL N Rel L l2) : PR l (fun i => inv (L i)) (inv l2) (RL N Rel) := by
  unfold inv
  refine PR.bind (PR.lift (h.at 0)) fun a A hA => ?_
  refine PR.bind (PR.lift (H.RRcBin hA ⟨1, Interval.is_one⟩)) fun r R' hR => ?_
  refine PR.get fun s1 s2 h1 h2 => ?_
  have e1 : ¬ s1.mode = 2 := by rw [h1.1]; decide
  have e2 : ¬ s2.mode = 2 := by rw [h2.1]; decide
  simp only [e1, e2, if_false]
  refine PR.bind (PR.pure H.zero) fun z Z hZ => PR.bind (PR.pure H.zero) fun z' Z' hZ' => ?_
  refine taylor_rel H (RK := fun a b => Rel (fun i => (a i).1) b.1 ∧ Rel (fun i => (a i).2) b.2) h (divV_rel H (center_rel H h) hA) hR (κ1 := fun i => (r i, z' i)) ⟨hR, hZ'⟩ ?_
  intro k _ _ κ1 κ2 hκ
  refine RR.bind (H.RRun trivial hκ.1) fun u U hU => ?_
  unfold upd2
  simp only [e1, e2, if_false]
  refine RR.bind (RR.pure hκ.2) fun w W hW => ?_
  exact RR.pure (a := fun i => ((u i, w i), u i)) ⟨⟨hU, hW⟩, hU⟩

theorem is_cast {k : ℕ} (hk : k < N) : ∃ c : ℝ, Is (lit (k : ℚ) : D) c :=
  ⟨_, Interval.Is.lit_int (T := D) (k : ℤ) (by have := H.small; rw [abs_of_nonneg (by omega)]; omega)⟩

theorem factStep_rel {t1 : ι → ℕ → ℝ} {t2 : ℕ → S} {k : ℕ} (hk : k < N) (ht : ∀ k, Rel (fun i => t1 i k) (t2 k)) (κ1 : ι → ℝ) (κ2 : S) (hκ : Rel κ1 κ2) :
    RR l (fun i => factStep (t1 i) k (κ1 i)) (factStep t2 k κ2) fun a b => Rel (fun i => (a i).1) b.1 ∧ Rel (fun i => (a i).2) b.2 := by
  refine RR.bind (H.RRbinC hκ (is_cast H hk)) fun f F hF => RR.bind (H.RRbin hF (ht k)) fun g G hG => ?_
  exact RR.pure (a := fun i => (f i, g i)) ⟨hF, hG⟩

omit [Scal S] H in
theorem pick4_rel {φ0 φ1 φ2 φ3 : ι → ℝ} {A0 A1 A2 A3 : S} (h0 : Rel φ0 A0) (h1 : Rel φ1 A1) (h2 : Rel φ2 A2) (h3 : Rel φ3 A3) (k : ℕ) :
    Rel (fun i => pick4 k (φ0 i) (φ1 i) (φ2 i) (φ3 i)) (pick4 k A0 A1 A2 A3) := by
  unfold pick4
  split_ifs <;> assumption

omit [Scal S] H in
theorem pick2_rel {φ0 φ1 : ι → ℝ} {A0 A1 : S} (h0 : Rel φ0 A0) (h1 : Rel φ1 A1) (k : ℕ) :
    Rel (fun i => pick2 k (φ0 i) (φ1 i)) (pick2 k A0 A1) := by
  unfold pick2
  split_ifs <;> assumption

theorem sin_rel (h : RL N Rel L l2) : PR l (fun i => sin (L i)) (sin l2) (RL N Rel) := by
  unfold sin
  refine PR.bind (PR.lift (h.at 0)) fun a A hA => PR.bind (PR.lift (H.RRun trivial hA)) fun t0 T0 h0 => ?_
  refine PR.bind (PR.lift (H.RRun trivial hA)) fun t1 T1 h1 => PR.bind (PR.lift (H.RRun trivial h0)) fun t2 T2 h2 => ?_
  refine PR.bind (PR.lift (H.RRun trivial h1)) fun t3 T3 h3 => ?_
  exact taylor_rel H (RK := Rel) h (RR.pure (center_rel H h)) h0 H.one fun k _ hk => factStep_rel H (t1 := fun i k => pick4 k (t0 i) (t1 i) (t2 i) (t3 i)) hk (pick4_rel h0 h1 h2 h3)

theorem cos_rel (h : RL N Rel L l2) : PR l (fun i => cos (L i)) (cos l2) (RL N Rel) := by
  unfold cos
  refine PR.bind (PR.lift (h.at 0)) fun a A hA => PR.bind (PR.lift (H.RRun trivial hA)) fun t0 T0 h0 => ?_
  refine PR.bind (PR.lift (RR.bind (H.RRun trivial hA) fun _ _ hs => H.RRun trivial hs)) fun t1 T1 h1 => PR.bind (PR.lift (H.RRun trivial h0)) fun t2 T2 h2 => ?_
  refine PR.bind (PR.lift (H.RRun trivial h1)) fun t3 T3 h3 => ?_
  exact taylor_rel H (RK := Rel) h (RR.pure (center_rel H h)) h0 H.one fun k _ hk => factStep_rel H (t1 := fun i k => pick4 k (t0 i) (t1 i) (t2 i) (t3 i)) hk (pick4_rel h0 h1 h2 h3)

theorem exp_rel (h : RL N Rel L l2) : PR l (fun i => exp (L i)) (exp l2) (RL N Rel) := by
  unfold exp
  refine PR.bind (PR.lift (h.at 0)) fun a A hA => PR.bind (PR.lift (H.RRun trivial hA)) fun t0 T0 h0 => ?_
  exact taylor_rel H (RK := Rel) h (RR.pure (center_rel H h)) h0 H.one fun k _ hk => factStep_rel H (t1 := fun i _ => t0 i) hk fun _ => h0

theorem sinh_rel (h : RL N Rel L l2) : PR l (fun i => sinh (L i)) (sinh l2) (RL N Rel) := by
  unfold sinh
  refine PR.bind (PR.lift (h.at 0)) fun a A hA => PR.bind (PR.lift (H.RRun trivial hA)) fun t0 T0 h0 => ?_
  refine PR.bind (PR.lift (H.RRun trivial hA)) fun t1 T1 h1 => ?_
  exact taylor_rel H (RK := Rel) h (RR.pure (center_rel H h)) h0 H.one fun k _ hk => factStep_rel H (t1 := fun i k => pick2 k (t0 i) (t1 i)) hk (pick2_rel h0 h1)

theorem cosh_rel (h : RL N Rel L l2) : PR l (fun i => cosh (L i)) (cosh l2) (RL N Rel) := by
  unfold cosh
  refine PR.bind (PR.lift (h.at 0)) fun a A hA => PR.bind (PR.lift (H.RRun trivial hA)) fun t0 T0 h0 => ?_
  refine PR.bind (PR.lift (H.RRun trivial hA)) fun t1 T1 h1 => ?_
  exact taylor_rel H (RK := Rel) h (RR.pure (center_rel H h)) h0 H.one fun k _ hk => factStep_rel H (t1 := fun i k => pick2 k (t0 i) (t1 i)) hk (pick2_rel h0 h1)

theorem is_halfs {k : ℕ} (hk : k < N) : ∃ c : ℝ, Is (lit (1 / 2 - (k : ℚ)) : D) c := by
  have := H.small
  refine ⟨1 / 2 - k, ?_⟩
  have h := Interval.is_cst (1 - 2 * k : ℤ) (-1) (by rw [abs_lt]; constructor <;> omega) (by norm_num) (by norm_num)
    (q := (1 / 2 - k : ℚ)) (by push_cast; norm_num; ring)
  simpa using h

theorem sqrtNext_rel {φ ψ : ι → ℝ} {A B : S} (h1 : Rel φ A) (h2 : Rel ψ B) {k : ℕ} (hk : k < N) : RR l (fun i => sqrtNext (φ i) k (ψ i)) (sqrtNext A k B) Rel := by
  have hs := H.small
  have := Interval.Is.lit_int (T := D) ((k + 1 : ℕ) : ℤ) (by rw [abs_of_nonneg (by omega)]; omega)
  exact RR.bind (H.RRcBin h1 (is_halfs H hk)) fun _ _ h3 => RR.bind (H.RRbinC h3 ⟨((k + 1 : ℕ) : ℤ), by simpa using this⟩) fun _ _ h4 => H.RRbin h2 h4

theorem inv2_rel {φ : ι → ℝ} {A : S} (h1 : Rel φ A) : RR l (fun i => inv2 (φ i)) (inv2 A) Rel :=
  RR.bind (H.RRcBin h1 ⟨2, Interval.is_two⟩) fun _ _ h2 => H.RRcBin h2 ⟨1, Interval.is_one⟩

theorem sqrt_rel (h : RL N Rel L l2) : PR l (fun i => sqrt (L i)) (sqrt l2) (RL N Rel) := by
  unfold sqrt
  refine PR.bind (PR.lift (h.at 0)) fun a A hA => PR.bind (PR.lift (H.RRun trivial hA)) fun sa SA hS => ?_
  refine PR.bind (PR.lift (inv2_rel H hS)) fun x X hX => ?_
  refine PR.get fun s1 s2 h1 h2 => ?_
  have e1 : ¬ s1.mode = 2 := by rw [h1.1]; decide
  have e2 : ¬ s2.mode = 2 := by rw [h2.1]; decide
  simp only [e1, e2, if_false]
  refine PR.bind (PR.pure H.zero) fun z Z hZ => PR.bind (PR.pure H.zero) fun z' Z' hZ' => ?_
  refine taylor_rel H (RK := fun a b => Rel (fun i => (a i).1) b.1 ∧ Rel (fun i => (a i).2) b.2) h (RR.pure (center_rel H h)) hS (κ1 := fun i => (x i, z' i)) ⟨hX, hZ'⟩ ?_
  intro k _ hk κ1 κ2 hκ
  refine RR.bind (sqrtNext_rel H hA hκ.1 hk) fun u U hU => ?_
  unfold upd2
  simp only [e1, e2, if_false]
  refine RR.bind (RR.pure hκ.2) fun w W hW => ?_
  exact RR.pure (a := fun i => ((u i, w i), (κ1 i).1)) ⟨⟨hU, hW⟩, hκ.1⟩

theorem div_rel (h : RL N Rel L l2) (h' : RL N Rel L' l3) : PR l (fun i => div (L i) (L' i)) (div l2 l3) (RL N Rel) :=
  PR.bind (inv_rel H h') fun _ _ h1 => mul_rel H h h1

theorem cDiv_rel (h : RL N Rel L l2) {k : D} (hk : ∃ c : ℝ, Is k c) : PR l (fun i => cDiv k (L i)) (cDiv k l2) (RL N Rel) :=
  PR.bind (inv_rel H h) fun _ _ h1 => cMul_rel H h1 hk

theorem tan_rel (h : RL N Rel L l2) : PR l (fun i => tan (L i)) (tan l2) (RL N Rel) :=
  PR.bind (sin_rel H h) fun _ _ h1 => PR.bind (cos_rel H h) fun _ _ h2 => div_rel H h1 h2

theorem tanh_rel (h : RL N Rel L l2) : PR l (fun i => tanh (L i)) (tanh l2) (RL N Rel) :=
  PR.bind (sinh_rel H h) fun _ _ h1 => PR.bind (cosh_rel H h) fun _ _ h2 => div_rel H h1 h2

theorem powLoop_rel (t : ℕ) : ∀ {L L' : ι → List ℝ} {l2 l3 : List S}, RL N Rel L l2 → RL N Rel L' l3 →
    PR l (fun i => powLoop t (L i) (L' i)) (powLoop t l2 l3) (RL N Rel) := by
  induction t using Nat.strong_induction_on with
  | _ t ih =>
    intro L L' l2 l3 h h'
    unfold powLoop
    by_cases h0 : t = 0
    · simp only [h0, dite_true]
      exact PR.pure h
    · simp only [h0, dite_false]
      have : PR l (fun i => if t % 2 ≠ 0 then mul (L i) (L' i) else (return L i : PM ℝ (List ℝ))) (if t % 2 ≠ 0 then mul l2 l3 else return l2 : PM S (List S)) (RL N Rel) := by
        split_ifs
        · exact mul_rel H h h'
        · exact PR.pure h
      exact PR.bind this fun _ _ h1 => PR.bind (mul_rel H h' h') fun _ _ h2 => ih (t / 2) (by omega) h1 h2

theorem powI_rel (h : RL N Rel L l2) (y : ℤ) : PR l (fun i => powI (L i) y) (powI l2 y) (RL N Rel) := by
  unfold powI
  split_ifs
  · exact PR.pure (RL.single H.pos H.one)
  · exact PR.lift RR.err
  · exact PR.bind (powLoop_rel H _ (RL.single H.pos H.one) h) fun _ _ h1 => cDiv_rel H h1 ⟨1, Interval.is_one⟩
  · exact PR.bind (powLoop_rel H _ (RL.single H.pos H.one) h) fun _ _ h1 => PR.pure h1

theorem setorder_rel (h : RL N Rel L l2) (n : ℤ) : PR l (fun i => setorder (L i) n) (setorder l2 n) (RL (n.toNat + 1) Rel) := by
  unfold setorder
  split_ifs with h0
  · exact PR.lift RR.err
  simp only [h.len]
  obtain ⟨M, rfl, hM, hl⟩ := h
  have hml : M.length = l2.length := hM.length_eq
  split_ifs with h1
  · refine PR.pure ⟨M ++ List.replicate (n.toNat + 1 - l2.length) (fun _ => zero), ?_, ?_, ?_⟩
    · funext i; simp
    · refine List.rel_append hM ?_
      generalize n.toNat + 1 - l2.length = q
      induction q with
      | zero => exact .nil
      | succ q ih => exact .cons H.zero ih
    · simp; omega
  · refine PR.get fun s1 s2 g1 g2 => ?_
    simp only [g1.1, g2.1, if_true]
    refine PR.lift (RR.bind (RL.at (N := N) ⟨M, rfl, hM, hl⟩ n.toNat) fun φ A hA => ?_)
    refine RR.pure (a := fun i => List.take n.toNat (M.map fun φ => φ i) ++ [φ i]) ⟨M.take n.toNat ++ [φ], ?_, ?_, ?_⟩
    · funext i; simp [List.map_take]
    · exact List.rel_append (List.forall₂_take _ hM) (.cons hA .nil)
    · simp

theorem Rules.mono {N' : ℕ} (hN : N' ≤ N) (h1 : 1 ≤ N') : Rules l N' Rel :=
  ⟨H.bin, H.binC, H.cBin, H.un, H.ofC, lt_of_le_of_lt hN H.small, h1⟩

theorem invFn_rel {f : Un} (hf : Tame f) {d1 : List ℝ → PM ℝ (List ℝ)} {d2 : List S → PM S (List S)}
    (hd : ∀ N', Rules l N' Rel → ∀ {L : ι → List ℝ} {l2 : List S}, RL N' Rel L l2 → PR l (fun i => d1 (L i)) (d2 l2) (RL N' Rel))
    (h : RL N Rel L l2) : PR l (fun i => invFn (Scal.un f) d1 (L i)) (invFn (Scal.un f) d2 l2) (RL N Rel) := by
  have hu : ∀ {T : Type} {s : PSt T}, Plain s → setUse false s = (.ok (), s) := by
    intro T s hs
    unfold setUse
    rw [← hs.2.1]
  have hr : ∀ {T : Type} {s : PSt T}, Plain s → setRec false s = (.ok (), s) := by
    intro T s hs
    unfold setRec
    rw [← hs.2.2]
  have hu' : PR (S := S) l (fun _ => setUse false) (setUse false) fun _ _ => True :=
    PR.congr (PR.pure (a := fun _ => ()) (b := ()) trivial) (fun _ _ hs => hu hs) fun _ hs => hu hs
  have hr' : PR (S := S) l (fun _ => setRec false) (setRec false) fun _ _ => True :=
    PR.congr (PR.pure (a := fun _ => ()) (b := ()) trivial) (fun _ _ hs => hr hs) fun _ hs => hr hs
  unfold invFn
  refine PR.get fun s1 s2 h1 h2 => ?_
  have e1 : ¬ s1.mode = 2 := by rw [h1.1]; decide
  have e2 : ¬ s2.mode = 2 := by rw [h2.1]; decide
  simp only [e1, e2, if_false, h1.2.1, h1.2.2, h2.2.1, h2.2.2]
  refine PR.bind hu' fun _ _ _ => PR.bind hr' fun _ _ _ => ?_
  refine PR.bind (PR.pure (a := fun _ => ()) (b := ()) (R := fun _ _ => True) trivial) fun _ _ _ => ?_
  by_cases hl : 2 ≤ l2.length
  · have hN := h.le
    have H' : Rules l (N - 1) Rel := H.mono (by omega) (by omega)
    have hus : PR l (fun i => unitSeries (L i)) (unitSeries l2) (RL (N - 1) Rel) := by
      unfold unitSeries
      simp only [h.len]
      refine PR.bind (PR.lift (h.at 0)) fun a A hA => ?_
      intro t1 t2 g1 g2 b s' hb
      obtain ⟨q1, a', q2, q3⟩ := setorder_rel H (L := fun i => [a i, Psa.one]) (l2 := [A, Psa.one])
        ⟨[a, fun _ => Psa.one], rfl, .cons hA (.cons H.one .nil), by simp; omega⟩ ((l2.length : ℤ) - 2) t1 t2 g1 g2 b s' hb
      exact ⟨q1, a', q2, q3.mono (by omega)⟩
    refine PR.bind hus fun t T hT => PR.bind (PR.lift (h.at 0)) fun a A hA => PR.bind (PR.lift (H.RRun hf hA)) fun c C hC => ?_
    refine PR.bind (hd _ H' hT) fun g G hG => ?_
    refine PR.bind (PR.lift (RR.bind (integrate_rel H (hG.mono (by omega)) (by have := hG.le; omega)) fun _ _ hI => addHead_rel H hI hC)) fun tl TL hTL => ?_
    refine PR.bind hu' fun _ _ _ => PR.bind hr' fun _ _ _ => ?_
    refine PR.bind (PR.pure (a := fun _ => ()) (b := ()) (R := fun _ _ => True) trivial) fun _ _ _ => ?_
    refine PR.bind (PR.lift (hTL.at 0)) fun r R' hR => ?_
    refine taylor_rel H (RK := fun _ _ => True) h (RR.pure (center_rel H h)) hR (κ1 := fun _ => ()) trivial fun k _ _ _ _ _ => ?_
    exact RR.bind (hTL.at k) fun u U hU => RR.pure (a := fun i => ((), u i)) ⟨trivial, hU⟩
  · intro t1 t2 g1 g2 b s' hb
    obtain ⟨x, s3, hx, -⟩ := bind_run hb
    unfold unitSeries at hx
    obtain ⟨y, s4, hy, hx⟩ := bind_run hx
    unfold setorder at hx
    rw [if_pos (by omega)] at hx
    cases hx

theorem atan_rel (h : RL N Rel L l2) : PR l (fun i => atan (L i)) (atan l2) (RL N Rel) :=
  invFn_rel H (f := .atan) trivial (fun _ H' _ _ h => PR.bind (mul_rel H' h h) fun _ _ h1 =>
    PR.bind (PR.lift (addHeadC_rel H' h1 ⟨1, Interval.is_one⟩)) fun _ _ h2 => cDiv_rel H' h2 ⟨1, Interval.is_one⟩) h

theorem asinh_rel (h : RL N Rel L l2) : PR l (fun i => asinh (L i)) (asinh l2) (RL N Rel) :=
  invFn_rel H (f := .asinh) trivial (fun _ H' _ _ h => PR.bind (mul_rel H' h h) fun _ _ h1 =>
    PR.bind (PR.lift (addHeadC_rel H' h1 ⟨1, Interval.is_one⟩)) fun _ _ h2 => PR.bind (sqrt_rel H' h2) fun _ _ h3 => cDiv_rel H' h3 ⟨1, Interval.is_one⟩) h

theorem acosh_rel (h : RL N Rel L l2) : PR l (fun i => acosh (L i)) (acosh l2) (RL N Rel) :=
  invFn_rel H (f := .acosh) trivial (fun _ H' _ _ h => PR.bind (mul_rel H' h h) fun _ _ h1 =>
    PR.bind (PR.lift (subHeadC_rel H' h1 ⟨1, Interval.is_one⟩)) fun _ _ h2 => PR.bind (sqrt_rel H' h2) fun _ _ h3 => cDiv_rel H' h3 ⟨1, Interval.is_one⟩) h

theorem cSubSq_rel (h : RL N Rel L l2) : PR l (fun i => cSubSq (lit 1) (L i)) (cSubSq (lit 1) l2) (RL N Rel) :=
  PR.bind (mul_rel H h h) fun _ _ h1 => PR.bind (PR.lift (negV_rel H h1)) fun _ _ h2 => PR.lift (addHeadC_rel H h2 ⟨1, Interval.is_one⟩)

theorem asin_rel (h : RL N Rel L l2) : PR l (fun i => asin (L i)) (asin l2) (RL N Rel) :=
  invFn_rel H (f := .asin) trivial (fun _ H' _ _ h => PR.bind (cSubSq_rel H' h) fun _ _ h2 => PR.bind (sqrt_rel H' h2) fun _ _ h3 => cDiv_rel H' h3 ⟨1, Interval.is_one⟩) h

theorem acos_rel (h : RL N Rel L l2) : PR l (fun i => acos (L i)) (acos l2) (RL N Rel) :=
  invFn_rel H (f := .acos) trivial (fun _ H' _ _ h => PR.bind (cSubSq_rel H' h) fun _ _ h2 => PR.bind (sqrt_rel H' h2) fun _ _ h3 => cDiv_rel H' h3 ⟨-1, Interval.is_neg_one⟩) h

theorem atanh_rel (h : RL N Rel L l2) : PR l (fun i => atanh (L i)) (atanh l2) (RL N Rel) :=
  invFn_rel H (f := .atanh) trivial (fun _ H' _ _ h => PR.bind (cSubSq_rel H' h) fun _ _ h2 => cDiv_rel H' h2 ⟨1, Interval.is_one⟩) h

theorem un_rel {f : Un} (hf : Tame f) (h : RL N Rel L l2) : PR l (fun i => un f (L i)) (un f l2) (RL N Rel) := by
  cases f with
  | neg => exact PR.lift (negV_rel H h)
  | exp => exact exp_rel H h
  | sqrt => exact sqrt_rel H h
  | sin => exact sin_rel H h
  | cos => exact cos_rel H h
  | tan => exact tan_rel H h
  | atan => exact atan_rel H h
  | sinh => exact sinh_rel H h
  | cosh => exact cosh_rel H h
  | tanh => exact tanh_rel H h
  | asinh => exact asinh_rel H h
  | acosh => exact acosh_rel H h
  | log => exact hf.elim
  | asin => exact asin_rel H h
  | acos => exact acos_rel H h
  | atanh => exact atanh_rel H h

theorem bin_rel (o : Bin) (h : RL N Rel L l2) (h' : RL N Rel L' l3) : PR l (fun i => bin o (L i) (L' i)) (bin o l2 l3) (RL N Rel) := by
  cases o with
  | add => exact add_rel H h h'
  | sub => exact sub_rel H h h'
  | mul => exact mul_rel H h h'
  | div => exact div_rel H h h'

theorem binC_rel (o : Bin) (h : RL N Rel L l2) {k : D} (hk : ∃ c : ℝ, Is k c) : PR l (fun i => binC o (L i) k) (binC o l2 k) (RL N Rel) := by
  cases o with
  | add => exact PR.lift (addHeadC_rel H h hk)
  | sub => exact PR.lift (subHeadC_rel H h hk)
  | mul => exact mulC_rel H h hk
  | div => exact PR.lift (divV_rel H h (H.ofC hk))

theorem cBin_rel (o : Bin) (h : RL N Rel L l2) {k : D} (hk : ∃ c : ℝ, Is k c) : PR l (fun i => cBin o k (L i)) (cBin o k l2) (RL N Rel) := by
  cases o with
  | add => exact PR.lift (addHeadC_rel H h hk)
  | sub => exact PR.lift (RR.bind (negV_rel H h) fun _ _ h1 => addHeadC_rel H h1 hk)
  | mul => exact cMul_rel H h hk
  | div => exact cDiv_rel H h hk

end
end
end Kv.Psa

namespace Kv.Expr
open Psa PM RopSem

/-- an expression without `log` and `pow(a, b)` -/
def TameE {n : ℕ} : Expr n → Prop
  | .un f a => Tame f ∧ a.TameE
  | .bin _ a b => a.TameE ∧ b.TameE
  | .binC _ a _ => a.TameE
  | .cBin _ _ b => b.TameE
  | .powI a _ => a.TameE
  | .pow _ _ => False
  | _ => True

attribute [local instance] scalR

theorem evalP_rel {ι : Type} {l : Filter ι} {N : ℕ} {S : Type} [Scal S] {Rel : (ι → ℝ) → S → Prop} (H : Rules l N Rel) {n : ℕ}
    {p1 : ι → ℕ → ℝ} {p2 : ℕ → S} (hp : ∀ j, Rel (fun i => p1 i j) (p2 j)) {x1 : ι → Fin n → List ℝ} {x2 : Fin n → List S}
    (hx : ∀ j, RL N Rel (fun i => x1 i j) (x2 j)) : ∀ {e : Expr n}, e.FinCst → e.TameE →
    PR l (fun i => e.evalP (p1 i) (x1 i)) (e.evalP p2 x2) (RL N Rel)
  | .var j, _, _ => PR.pure (hx j)
  | .par j, _, _ => PR.pure (RL.single H.pos (hp j))
  | .cst _, hc, _ => PR.pure (RL.single H.pos (H.ofC ⟨_, hc⟩))
  | .un _ a, hc, ht => PR.bind (evalP_rel H hp hx (e := a) hc ht.2) fun _ _ h => un_rel H ht.1 h
  | .bin o a b, hc, ht => PR.bind (evalP_rel H hp hx (e := a) hc.1 ht.1) fun _ _ h => PR.bind (evalP_rel H hp hx (e := b) hc.2 ht.2) fun _ _ h' => bin_rel H o h h'
  | .binC o a _, hc, ht => PR.bind (evalP_rel H hp hx (e := a) hc.1 ht) fun _ _ h => binC_rel H o h ⟨_, hc.2⟩
  | .cBin o _ b, hc, ht => PR.bind (evalP_rel H hp hx (e := b) hc.1 ht) fun _ _ h => cBin_rel H o h ⟨_, hc.2⟩
  | .powI a y, hc, ht => PR.bind (evalP_rel H hp hx (e := a) hc.1 ht) fun _ _ h => powI_rel H h y
  | .pow _ _, _, ht => ht.elim

end Kv.Expr

namespace Kv.Psa
open PM RopSem
open Rop (lit)
attribute [local instance] scalR

section
variable {ι : Type} {l : Filter ι} {N : ℕ} {S : Type} [Scal S] {Rel : (ι → ℝ) → S → Prop} (H : Rules l N Rel)
include H

theorem scale_rel : ∀ {M : List (ι → ℝ)} {l2 : List S} (k : ℕ) {φ : ι → ℝ} {A : S}, k + l2.length ≤ N → Rel φ A → List.Forall₂ Rel M l2 →
    RR l (fun i => HD.scale k (φ i) (M.map fun φ => φ i)) (HD.scale k A l2) fun L l3 => ∃ M' : List (ι → ℝ), L = (fun i => M'.map fun φ => φ i) ∧ List.Forall₂ Rel M' l3
  | [], _, _, _, _, _, _, .nil => RR.pure (a := fun _ => []) ⟨[], rfl, .nil⟩
  | ψ :: M, _, k, φ, A, hk, hA, .cons h1 h2 => by
    refine RR.bind (H.RRbinC hA (is_cast H (by simp at hk; omega))) fun f F hF => RR.bind (H.RRbin h1 hF) fun g G hG => ?_
    refine RR.bind (scale_rel (k + 1) (by simp at hk ⊢; omega) hF h2) ?_
    rintro _ l3 ⟨M', rfl, hM'⟩
    exact RR.pure (a := fun i => g i :: _) ⟨g :: M', rfl, .cons hG hM'⟩

theorem factors_rel {L : ι → List ℝ} {l2 : List S} (h : RL N Rel L l2) (b : Bool) : RR l (fun i => HD.factors b (L i)) (HD.factors b l2)
    fun L l3 => ∃ M' : List (ι → ℝ), L = (fun i => M'.map fun φ => φ i) ∧ List.Forall₂ Rel M' l3 := by
  obtain ⟨M, rfl, hM, hl⟩ := h
  unfold HD.factors
  cases b with
  | true => exact RR.pure ⟨M, rfl, hM⟩
  | false =>
    cases hM with
    | nil => exact RR.pure (a := fun _ => []) ⟨[], rfl, .nil⟩
    | @cons a _ _ _ h1 h2 =>
      refine RR.bind (scale_rel H 1 (by simp at hl; omega) H.one h2) ?_
      rintro _ l3 ⟨M', rfl, hM'⟩
      exact RR.pure (a := fun i => _ :: _) ⟨a :: M', rfl, .cons h1 hM'⟩

/-- `HighDeriv(f, n)(x)` over `S` follows `HighDeriv(f, n)` over the reals -/
theorem highDerivAt_rel {e : Expr 1} (hc : e.FinCst) (ht : e.TameE) {p1 : ι → ℕ → ℝ} {p2 : ℕ → S} (hp : ∀ j, Rel (fun i => p1 i j) (p2 j))
    {x1 : ι → ℝ} {x2 : S} (hx : Rel x1 x2) {n : ℕ} (hn : n + 1 ≤ N) (h2 : 2 ≤ N) {st st' : PSt S} {A : S} (h : highDerivAt e p2 x2 n st = (.ok A, st')) {s1 : PSt ℝ}
    (hs1 : Plain s1) : ∃ χ : ι → ℝ, (∀ᶠ i in l, highDerivAt e (p1 i) (x1 i) n s1 = (.ok (χ i), s1)) ∧ Rel χ A := by
  obtain ⟨v, sa, ha, hb⟩ := bind_run h
  obtain ⟨hb, -⟩ := lift_run hb
  have ha' := ha
  unfold highderiv highderivF at ha
  rw [get_bind] at ha
  change (Psa.setorder [x2, Psa.one] n >>= fun p => _) { st with mode := 1, use := false, record := false } = _ at ha
  have hpl : Plain { st with mode := 1, use := false, record := false } := ⟨rfl, rfl, rfl⟩
  obtain ⟨p, sb, e1, ha⟩ := bind_run ha
  obtain ⟨rfl, p', r1, hp1⟩ := setorder_rel H (L := fun i => [x1 i, Psa.one]) (l2 := [x2, Psa.one]) ⟨[x1, fun _ => Psa.one], rfl, .cons hx (.cons H.one .nil), by simpa⟩ n
    s1 _ hs1 hpl _ _ e1
  obtain ⟨q, sc, e2, ha⟩ := bind_run ha
  obtain ⟨rfl, q', r2, hq1⟩ := Expr.evalP_rel H hp (x1 := fun i _ => p' i) (x2 := fun _ => p) (fun _ => hp1.mono (by simpa using hn)) hc ht s1 _ hs1 hpl _ _ e2
  obtain ⟨w, sd, e3, ha⟩ := bind_run ha
  obtain ⟨rfl, w', r3, hw1⟩ := setorder_rel H hq1 n s1 _ hs1 hpl _ _ e3
  obtain ⟨z, se, e4, ha⟩ := bind_run ha
  obtain ⟨e4, -⟩ := lift_run e4
  obtain ⟨z', r4, M, hz, hM⟩ := factors_rel H (hw1.mono (by simpa using hn)) false z e4
  have hv : v = z := by
    obtain ⟨_, _, _, ha⟩ := bind_run ha
    obtain ⟨_, _, _, ha⟩ := bind_run ha
    obtain ⟨_, _, _, ha⟩ := bind_run ha
    exact (pure_run ha).1
  subst hv hz
  obtain ⟨φ, hφ, hR⟩ := forall₂_get hM (at_ok hb)
  refine ⟨φ, ?_, hR⟩
  filter_upwards [r1, r2, r3, r4] with i g1 g2 g3 g4
  have es : ({ s1 with mode := 1, use := false, record := false } : PSt ℝ) = s1 := by
    obtain ⟨a1, a2, a3, a4, a5⟩ := s1
    obtain ⟨rfl, rfl, rfl⟩ := hs1
    rfl
  have hd : highderiv e (p1 i) (x1 i) n false s1 = (.ok (M.map fun φ => φ i), s1) := by
    unfold highderiv highderivF
    rw [get_bind]
    show (Psa.setorder [x1 i, Psa.one] n >>= fun p => _) { s1 with mode := 1, use := false, record := false } = _
    rw [es, bind_eq, g1]
    dsimp only
    rw [bind_eq, g2]
    dsimp only
    rw [bind_eq, g3]
    dsimp only
    rw [g4]
    obtain ⟨a1, a2, a3, a4, a5⟩ := s1
    obtain ⟨rfl, rfl, rfl⟩ := hs1
    rfl
  unfold highDerivAt
  rw [bind_eq, hd]
  dsimp only
  unfold at'
  rw [List.getElem?_map, hφ]; rfl

end
end Kv.Psa
