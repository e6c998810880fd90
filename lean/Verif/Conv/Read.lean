import Verif.Conv.Print

/-!
# `stringtod` reads a decimal literal and rounds in the right direction
-/

namespace Kv
namespace Conv
open Rop (lit)

/-! ## parsing -/

theorem digitChar_cases {d : ℕ} (h : d < 10) : isDigit (digit d) = true ∧ isSpace (digit d) = false ∧ (digit d).toNat - 48 = d ∧
    digit d ≠ '-' ∧ digit d ≠ '+' ∧ digit d ≠ '.' ∧ digit d ≠ 'e' ∧ digit d ≠ 'E' := by
  interval_cases d <;> decide

/-- the rest does not go on with a digit -/
def Stops (s : List Char) : Prop := ∀ c ∈ s.head?, isDigit c = false

theorem getNumber_spec {ds : List ℕ} (h : ∀ d ∈ ds, d < 10) {s : List Char} (hs : Stops s) :
    getNumber (digitChars ds ++ s) = (ds, s) := by
  rw [digitChars_eq h]
  induction ds with
  | nil =>
    cases s with
    | nil => rfl
    | cons c t =>
      have : isDigit c = false := hs c rfl
      simp [getNumber, this]
  | cons d t ih =>
    have h1 := digitChar_cases (h d List.mem_cons_self)
    have h2 := ih fun x hx => h x (List.mem_cons_of_mem _ hx)
    simp only [getNumber, Prod.mk.injEq] at h2
    simp only [getNumber, List.map_cons, List.cons_append, List.takeWhile_cons, List.dropWhile_cons, h1.1, if_true, Prod.mk.injEq]
    exact ⟨by rw [h2.1, h1.2.2.1], h2.2⟩

theorem getSign_spec (o : Option Bool) {s : List Char} (h : ∀ c ∈ s.head?, c ≠ '-' ∧ c ≠ '+') :
    getSign (signChars o ++ s) = (decide (o = some true), s) := by
  match o with
  | some true => rfl
  | some false => rfl
  | none =>
    cases s with
    | nil => rfl
    | cons c t =>
      obtain ⟨h1, h2⟩ := h c rfl
      simp only [signChars, List.nil_append]
      unfold getSign
      split
      · rename_i heq; injection heq with a b; exact absurd a h1
      · rename_i heq; injection heq with a b; exact absurd a h2
      · simp

theorem ignoreSpace_spec {sp s : List Char} (hsp : ∀ c ∈ sp, isSpace c = true) (h : ∀ c ∈ s.head?, isSpace c = false) :
    ignoreSpace (sp ++ s) = s := by
  unfold ignoreSpace
  rw [List.dropWhile_append_of_pos hsp]
  cases s with
  | nil => rfl
  | cons c t => simp [h c rfl]

/-- the text from the exponent on -/
def exText (L : Lit) : List Char :=
  match L.ex with | none => [] | some (E, s, ds) => (if E then 'E' else 'e') :: signChars s ++ digitChars ds

/-- the text from the point on -/
def fpText (L : Lit) : List Char := (match L.fp with | none => [] | some f => '.' :: digitChars f) ++ exText L

theorem text_eq (L : Lit) : L.text = signChars L.sgn ++ (digitChars L.ip ++ fpText L) := by
  simp only [Lit.text, fpText, exText, List.append_assoc]
  match L.ex with
  | none => rfl
  | some _ => rfl

theorem exText_head (L : Lit) : ∀ c ∈ (exText L).head?, c = 'e' ∨ c = 'E' := by
  intro c hc
  unfold exText at hc
  match hx : L.ex with
  | none => simp [hx] at hc
  | some (E, s, ds) =>
    rw [hx] at hc
    cases E <;> simp at hc <;> simp [← hc]

theorem fpText_head (L : Lit) : ∀ c ∈ (fpText L).head?, c = 'e' ∨ c = 'E' ∨ c = '.' := by
  intro c hc
  unfold fpText at hc
  match hx : L.fp with
  | none =>
    rw [hx] at hc
    rcases exText_head L c hc with h | h <;> simp [h]
  | some f =>
    rw [hx] at hc
    simp at hc
    simp [← hc]

/-- is the exponent negative, and its digits -/
def exNeg (L : Lit) : Bool := match L.ex with | some (_, some true, _) => true | _ => false
def exDigits (L : Lit) : List ℕ := match L.ex with | none => [] | some (_, _, ds) => ds

theorem exponent_eq (L : Lit) : L.exponent = if exNeg L then -(decNat (exDigits L) : ℤ) else decNat (exDigits L) := by
  unfold Lit.exponent exNeg exDigits
  match L.ex with
  | none => rfl
  | some (_, none, ds) => rfl
  | some (_, some true, ds) => rfl
  | some (_, some false, ds) => rfl

theorem parse_spec {L : Lit} (hL : L.Valid) {sp : List Char} (hsp : ∀ c ∈ sp, isSpace c = true) :
    parse (sp ++ L.text) = ⟨decide (L.sgn = some true), L.ip, L.fp.getD [], exNeg L, exDigits L⟩ := by
  obtain ⟨v1, v2, v3, v4⟩ := hL
  have hA : ∀ c ∈ (digitChars L.ip ++ fpText L).head?, c = '.' ∨ ∃ d, d < 10 ∧ c = digit d := by
    intro c hc
    cases hip : L.ip with
    | cons d t =>
      rw [hip] at hc v1
      rw [digitChars_eq v1] at hc
      simp at hc
      exact Or.inr ⟨d, v1 d List.mem_cons_self, hc.symm⟩
    | nil =>
      rw [hip] at hc v3
      simp only [List.nil_append] at v3
      left
      cases hfp : L.fp with
      | none => rw [hfp] at v3; simp at v3
      | some f =>
        unfold fpText at hc
        rw [hfp] at hc
        simp [digitChars] at hc
        exact hc.symm
  have hsgn : ∀ c ∈ (digitChars L.ip ++ fpText L).head?, c ≠ '-' ∧ c ≠ '+' := by
    intro c hc
    rcases hA c hc with rfl | ⟨d, hd, rfl⟩
    · decide
    · have := digitChar_cases hd; exact ⟨this.2.2.2.1, this.2.2.2.2.1⟩
  have hspc : ∀ c ∈ (signChars L.sgn ++ (digitChars L.ip ++ fpText L)).head?, isSpace c = false := by
    intro c hc
    match hs : L.sgn with
    | none =>
      rw [hs] at hc
      rcases hA c hc with rfl | ⟨d, hd, rfl⟩
      · decide
      · exact (digitChar_cases hd).2.1
    | some true => rw [hs] at hc; simp [signChars] at hc; rw [← hc]; decide
    | some false => rw [hs] at hc; simp [signChars] at hc; rw [← hc]; decide
  have hst1 : Stops (fpText L) := by
    intro c hc
    rcases fpText_head L c hc with rfl | rfl | rfl <;> decide
  have hst2 : Stops (exText L) := by
    intro c hc
    rcases exText_head L c hc with rfl | rfl <;> decide
  have hmid : getFrac (fpText L) = (L.fp.getD [], exText L) := by
    cases hfp : L.fp with
    | some f =>
      rw [hfp] at v2
      have e : fpText L = '.' :: (digitChars f ++ exText L) := by simp [fpText, hfp]
      rw [e]
      exact getNumber_spec v2 hst2
    | none =>
      have e : fpText L = exText L := by simp [fpText, hfp]
      rw [e]
      cases hx : exText L with
      | nil => rfl
      | cons c t =>
        have hc := exText_head L c (by rw [hx]; rfl)
        have hne : c ≠ '.' := by rcases hc with rfl | rfl <;> decide
        unfold getFrac
        split
        · rename_i heq; injection heq with a b; exact absurd a hne
        · rfl
  have hend : getExp (exText L) = (exNeg L, exDigits L) := by
    match hx : L.ex with
    | none => simp [exText, exNeg, exDigits, hx, getExp]
    | some (E, s, ds) =>
      have hds : (∀ d ∈ ds, d < 10) ∧ ds ≠ [] := v4 (E, s, ds) (by rw [hx]; rfl)
      have hg : getSign (signChars s ++ digitChars ds) = (decide (s = some true), digitChars ds) := by
        apply getSign_spec
        intro c hc
        obtain ⟨d, t, hdt⟩ := List.exists_cons_of_ne_nil hds.2
        rw [digitChars_eq hds.1] at hc
        simp only [hdt, List.map_cons, List.head?_cons, Option.mem_some_iff] at hc
        have hdl : d < 10 := hds.1 d (by simp [hdt])
        have := digitChar_cases hdl
        rw [← hc]
        exact ⟨this.2.2.2.1, this.2.2.2.2.1⟩
      have hn : getNumber (digitChars ds) = (ds, []) := by
        have := getNumber_spec (s := []) hds.1 (by simp [Stops])
        rwa [List.append_nil] at this
      have hxn : exNeg L = decide (s = some true) := by
        unfold exNeg; rw [hx]
        match s with
        | none => rfl
        | some true => rfl
        | some false => rfl
      have hxd : exDigits L = ds := by unfold exDigits; rw [hx]
      have hxt : exText L = (if E then 'E' else 'e') :: (signChars s ++ digitChars ds) := by simp [exText, hx]
      rw [hxn, hxd, hxt]
      cases E
      · simp only [Bool.false_eq_true, if_false, getExp, hg, hn]
      · simp only [if_true, getExp, hg, hn]
  unfold parse
  rw [text_eq, ignoreSpace_spec hsp hspc]
  simp only [getSign_spec _ hsgn, getNumber_spec v1 hst1, hmid, hend]

end Conv
end Kv
