import Verif.Complex.Dka
import Verif.Complex.Lemmas
import Verif.Analysis.Smith
import Verif.Solver.Recover

/-! # Lemmas for `smith_error` -/

namespace Kv.Dka
open RopSem Kv.Interval Kv.Smith
open Rop (lit)
open Finset

variable {n : ℕ} {p : Fin (n + 1) → Cx} {c : Fin (n + 1) → ℂ} {X : Fin n → Cx} {x : Fin n → ℂ}

/-! ## the polynomial and the denominator -/

theorem foldr_val (z t : ℂ) : ∀ {n : ℕ} (c : Fin n → ℂ),
    ((List.finRange n).map c).foldr (fun a r => r * z + a) t = ∑ k, c k * z ^ (k : ℕ) + t * z ^ n
  | 0, c => by simp
  | n + 1, c => by
    rw [List.finRange_succ, List.map_cons, List.map_map, List.foldr_cons]
    have := foldr_val z t (fun k : Fin n => c k.succ)
    rw [show (c ∘ Fin.succ) = fun k : Fin n => c k.succ from rfl, this, Fin.sum_univ_succ]
    simp only [Fin.val_zero, pow_zero, mul_one, Fin.val_succ, pow_succ, add_mul, sum_mul]
    have e : ∀ k : Fin n, c k.succ * z ^ (k : ℕ) * z = c k.succ * (z ^ (k : ℕ) * z) := fun k => by ring
    rw [sum_congr rfl fun k _ => e k]
    ring

theorem horner_mem {Z : Cx} {z : ℂ} (hz : z ∈ Z) {L : List Cx} {l : List ℂ} (h : List.Forall₂ (fun a A => a ∈ A) l L) :
    ∀ {R : Cx} {r : ℂ}, r ∈ R → l.foldl (fun r a => r * z + a) r ∈ horner Z R L := by
  induction h with
  | nil => exact fun hr => hr
  | cons h1 _ ih => exact fun hr => ih (Cx.cAdd_mem (Cx.cMul_mem hr hz) h1)

theorem evalPolynomial_mem (hp : ∀ k, c k ∈ p k) {Z : Cx} {z : ℂ} (hz : z ∈ Z) : pval c z ∈ evalPolynomial p Z := by
  have h := horner_mem (L := (List.finRange n).reverse.map fun i => p i.castSucc) (l := (List.finRange n).reverse.map fun i => c i.castSucc)
    hz (by rw [List.forall₂_map_left_iff, List.forall₂_map_right_iff]; exact List.forall₂_same.2 fun i _ => hp _) (hp (Fin.last n))
  rw [List.map_reverse (f := fun i : Fin n => c i.castSucc), List.foldl_reverse, foldr_val] at h
  rw [pval, Fin.sum_univ_castSucc]
  exact h

theorem denom_mem (hp : c (Fin.last n) ∈ p (Fin.last n)) (hx : ∀ i, x i ∈ X i) (i : Fin n) : den c x i ∈ denom p X i := by
  have key : ∀ (l : List (Fin n)) (R : Cx) (r : ℂ), r ∈ R →
      r * (l.map fun j => if j = i then 1 else x i - x j).prod ∈
        l.foldl (fun df j => if j = i then df else Cx.cMul df (Cx.cSub (X i) (X j))) R := by
    intro l
    induction l with
    | nil => intro R r hr; simpa using hr
    | cons j l ih =>
      intro R r hr
      rw [List.map_cons, List.prod_cons, List.foldl_cons, ← mul_assoc]
      by_cases hj : j = i
      · rw [if_pos hj, if_pos hj, mul_one]; exact ih _ _ hr
      · rw [if_neg hj, if_neg hj]
        exact ih _ _ (Cx.cMul_mem hr (Cx.cSub_mem (hx i) (hx j)))
  have h := key (List.finRange n) _ _ hp
  rw [← Fin.prod_univ_def, ← mul_prod_erase univ _ (mem_univ i), if_pos rfl, one_mul] at h
  rw [den]
  have e : ∏ j ∈ univ.erase i, (if j = i then (1 : ℂ) else x i - x j) = ∏ j ∈ univ.erase i, (x i - x j) :=
    prod_congr rfl fun j hj => if_neg (ne_of_mem_erase hj)
  rw [e] at h
  exact h

theorem maybeZero_ne {Z : Cx} {z : ℂ} (h : maybeZero Z = false) (hz : z ∈ Z) : z ≠ 0 := by
  rintro rfl
  have h1 : (0 : ℝ) ∈ add (mul Z.re Z.re) (mul Z.im Z.im) := by
    have := add_mem (mul_mem hz.1 hz.1) (mul_mem hz.2 hz.2)
    simpa using this
  have := (zeroIn_iff h1).2 ⟨by simpa using h1.1.2, by simpa using h1.2.2⟩
  rw [maybeZero, this] at h
  cases h

theorem hi_inf (r : ℝ) : Hi (Rop.inf : D) r := ⟨fun h => (by cases h), le_top⟩

theorem is_nat (hn : n < 2 ^ 31) : Is (lit (n : ℚ) : D) (n : ℝ) := by
  have := is_cst (q := n) n 0 (by rw [abs_of_nonneg (by positivity)]; omega) (by norm_num) (by norm_num) (by simp)
  simpa using this

/-- `err` is infinite or a bound of `n |w i|` -/
theorem radius_spec (hn : n < 2 ^ 31) {i : Fin n} {e : D} (h : radius p X i = .ok e) (hp : ∀ k, c k ∈ p k) (hx : ∀ i, x i ∈ X i) :
    Hi e (n * ‖wc c x i‖) ∧ ((∀ r, Hi e r) ∨ den c x i ≠ 0) := by
  unfold radius at h
  dsimp only at h
  by_cases hz : maybeZero (denom p X i) = true
  · rw [if_pos hz] at h
    cases h
    exact ⟨hi_inf _, .inl hi_inf⟩
  · rw [if_neg hz] at h
    rw [Bool.not_eq_true] at hz
    have hd := denom_mem (hp (Fin.last n)) hx i
    obtain ⟨q, hq, h⟩ := bind_ok.1 h
    obtain ⟨a, ha, h⟩ := bind_ok.1 h
    cases h
    have hf := Cx.kMulC_mem (k := .dbl (lit n)) (c := n) (evalPolynomial_mem hp (hx i)) (is_nat hn)
    have h1 := Cx.abs_mem ha (Cx.cDiv_mem hq hf hd).1
    have e : ‖((n : ℝ) : ℂ) * pval c (x i) / den c x i‖ = n * ‖wc c x i‖ := by
      rw [mul_div_assoc, norm_mul, Complex.norm_real, Real.norm_of_nonneg (by positivity), wc]
    rw [e] at h1
    exact ⟨h1.2, .inr (maybeZero_ne hz hd)⟩

/-! ## the squares -/

theorem sMul_unit {e : D} {r u : ℝ} (he : Hi e r) (hu : |u| ≤ r) : u ∈ sMul e (⟨lit (-1), lit 1⟩ : Interval D) := by
  have hr : 0 ≤ r := (abs_nonneg u).trans hu
  rcases D_cases e with rfl | rfl | rfl | hf
  · exact absurd nan_dNaN he.1
  · have : sMul dPinf (⟨lit (-1), lit 1⟩ : Interval D) = ⟨dNinf, dPinf⟩ := by decide +kernel
    rw [this]
    exact ⟨⟨fun h => (by cases h), bot_le⟩, ⟨fun h => (by cases h), le_top⟩⟩
  · exact absurd he.2 (by show ¬ ((r : EReal) ≤ ⊥); simp)
  · have hi := is_dbl' hf
    have hre : r ≤ dbl e := by
      have := he.2; rw [hi.2] at this; exact_mod_cast this
    have hm1 : Is (lit (-1) : D) (-1) := by
      have := is_cst (q := -1) (-1) 0 (by norm_num) (by norm_num) (by norm_num) (by norm_num); simpa using this
    have hmem : ∀ t : ℝ, |t| ≤ 1 → t ∈ (⟨lit (-1), lit 1⟩ : Interval D) := fun t ht =>
      ⟨⟨hm1.1, by rw [hm1.2]; exact_mod_cast (abs_le.1 ht).1⟩, ⟨(is_one (T := D)).1, by rw [(is_one (T := D)).2]; exact_mod_cast (abs_le.1 ht).2⟩⟩
    by_cases h0 : dbl e = 0
    · have : u = dbl e * 0 := by rw [mul_zero, ← abs_nonpos_iff]; linarith
      rw [this]; exact sMul_mem (hmem 0 (by simp)) hi
    · have hp : 0 < dbl e := lt_of_le_of_ne (hr.trans hre) (Ne.symm h0)
      have : u = dbl e * (u / dbl e) := by field_simp
      rw [this]; exact sMul_mem (hmem _ (by rw [abs_div, abs_of_pos hp, div_le_one hp]; linarith)) hi

theorem square_mem {A : Cx} {a z : ℂ} {e : D} (ha : a ∈ A) (he : Hi e ‖z - a‖) : z ∈ square A e := by
  refine Cx.mem_of (add_mem ha.1 (sMul_unit he (Complex.abs_re_le_norm (z - a)))) (add_mem ha.2 (sMul_unit he (Complex.abs_im_le_norm (z - a)))) ?_ ?_
  · simp
  · simp

theorem squares_spec {X : Fin n → Cx} : ∀ {l : List (Fin n)} {y r : Fin n → Cx}, squares p X l y = .ok r →
    ∀ i, (i ∈ l → ∃ e, radius p X i = .ok e ∧ r i = square (X i) e) ∧ (i ∉ l → r i = y i)
  | [], y, r, h, i => by cases h; exact ⟨fun h => (by cases h), fun _ => rfl⟩
  | j :: l, y, r, h, i => by
    obtain ⟨e, he, h⟩ := bind_ok.1 h
    have ih := squares_spec h i
    by_cases hl : i ∈ l
    · exact ⟨fun _ => ih.1 hl, fun hc => absurd (List.mem_cons_of_mem _ hl) hc⟩
    · refine ⟨fun hm => ?_, fun hm => ?_⟩
      · rcases List.mem_cons.1 hm with rfl | hm
        · exact ⟨e, he, by rw [ih.2 hl, Function.update_self]⟩
        · exact absurd hm hl
      · rw [ih.2 hl, Function.update_of_ne]
        rintro rfl; exact hm List.mem_cons_self

/-! ## the unification -/

theorem meets_self {A : Cx} {a : ℂ} (h : a ∈ A) : meets A A = true := by
  have key : ∀ {I : Interval D} {t : ℝ}, t ∈ I → overlap I I = true := fun {I t} ht => by
    unfold overlap
    simp only [ite_self]
    rw [le_iff]
    exact ⟨ht.1.1, ht.2.1, ht.1.2.trans ht.2.2⟩
  rw [meets, key h.1, key h.2]; rfl

theorem hullCx_left {A B : Cx} {a : ℂ} (h : a ∈ A) : a ∈ (⟨hull A.re B.re, hull A.im B.im⟩ : Cx) := ⟨Allsol.hull_mem h.1, Allsol.hull_mem h.2⟩
theorem hullCx_right {A B : Cx} {a b : ℂ} (h : a ∈ A) (hb : b ∈ B) : b ∈ (⟨hull A.re B.re, hull A.im B.im⟩ : Cx) :=
  ⟨hull_mem_right h.1 hb.1, hull_mem_right h.2 hb.2⟩

/-- the box into which the box `j` was unified -/
def rep (s : U n) (j : Fin n) : Fin n := (s.unified j).getD j

/-- no box is empty, and the box of `j` is part of the one into which it was unified -/
def Keeps (sq : Fin n → Cx) (s : U n) : Prop := (∀ k, ∃ a : ℂ, a ∈ s.x3 k) ∧ ∀ j, ∀ z : ℂ, z ∈ sq j → z ∈ s.x3 (rep s j)

/-- a box into which others were unified is not unified into another one -/
def Flat (s : U n) : Prop := ∀ j k, s.unified j = some k → s.unified k = some k

structure InInner (sq : Fin n → Cx) (i : Fin n) (s : U n) : Prop where
  keeps : Keeps sq s
  flat : ∀ j k, s.unified j = some k → k = i ∨ s.unified k = some k
  own : s.unified i = none ∨ s.unified i = some i

theorem inner_inv {sq : Fin n → Cx} {i : Fin n} {s : U n} (h : InInner sq i s) (j : Fin n) :
    InInner sq i (inner i s j) ∧ (j = i → (inner i s j).unified i = some i) ∧ (s.unified i = some i → (inner i s j).unified i = some i) := by
  unfold inner
  by_cases hj : s.unified j ≠ none
  · rw [if_pos hj]
    refine ⟨h, ?_, id⟩
    rintro rfl
    exact h.own.resolve_left hj
  rw [if_neg hj]
  rw [not_not] at hj
  by_cases hm : meets (s.x3 i) (s.x3 j) = true
  · rw [if_pos hm]
    obtain ⟨a, ha⟩ := h.keeps.1 i
    refine ⟨⟨⟨fun k => ?_, fun m z hz => ?_⟩, fun m k hmk => ?_, ?_⟩, ?_, fun hs => ?_⟩
    · by_cases hk : k = i
      · subst hk
        exact ⟨a, by simp only [Function.update_self]; exact hullCx_left ha⟩
      · simp only [Function.update_of_ne hk]; exact h.keeps.1 k
    · by_cases hmj : m = j
      · subst hmj
        have hz' : z ∈ s.x3 m := by have := h.keeps.2 m z hz; rwa [rep, hj] at this
        simp only [rep, Function.update_self, Option.getD_some]
        exact hullCx_right ha hz'
      · have hz' := h.keeps.2 m z hz
        simp only [rep, Function.update_of_ne hmj]
        by_cases hr : (s.unified m).getD m = i
        · rw [hr, Function.update_self]
          rw [rep, hr] at hz'
          exact hullCx_left hz'
        · rw [Function.update_of_ne hr]; exact hz'
    · dsimp only at hmk ⊢
      by_cases hmj : m = j
      · subst hmj
        rw [Function.update_self, Option.some.injEq] at hmk
        exact .inl hmk.symm
      · rw [Function.update_of_ne hmj] at hmk
        rcases h.flat m k hmk with e | e
        · exact .inl e
        · right
          rw [Function.update_of_ne]
          · exact e
          · rintro rfl; rw [hj] at e; cases e
    · dsimp only
      by_cases hij : i = j
      · subst hij; right; exact Function.update_self ..
      · rw [Function.update_of_ne hij]; exact h.own
    · rintro rfl; exact Function.update_self ..
    · dsimp only
      rw [Function.update_of_ne]
      · exact hs
      · rintro rfl; rw [hj] at hs; cases hs
  · rw [if_neg hm]
    refine ⟨h, ?_, id⟩
    rintro rfl
    obtain ⟨a, ha⟩ := h.keeps.1 j
    exact absurd (meets_self ha) hm

theorem inner_fold {sq : Fin n → Cx} {i : Fin n} : ∀ (l : List (Fin n)) {s : U n}, InInner sq i s →
    InInner sq i (l.foldl (inner i) s) ∧ (i ∈ l ∨ s.unified i = some i → (l.foldl (inner i) s).unified i = some i)
  | [], s, h => ⟨h, fun hc => hc.resolve_left (by simp)⟩
  | j :: l, s, h => by
    obtain ⟨h1, h2, h3⟩ := inner_inv h j
    obtain ⟨h4, h5⟩ := inner_fold l h1
    refine ⟨h4, fun hc => h5 ?_⟩
    rcases hc with hc | hc
    · rcases List.mem_cons.1 hc with e | e
      · exact .inr (h2 e.symm)
      · exact .inl e
    · exact .inr (h3 hc)

theorem outer_inv {sq : Fin n → Cx} {s : U n} (h : Keeps sq s) (hf : Flat s) (i : Fin n) : Keeps sq (outer s i) ∧ Flat (outer s i) := by
  unfold outer
  by_cases hi : s.unified i ≠ none
  · rw [if_pos hi]; exact ⟨h, hf⟩
  rw [if_neg hi]
  rw [not_not] at hi
  obtain ⟨h1, h2⟩ := inner_fold (sq := sq) ((List.finRange n).filter fun j => i ≤ j) (s := s) (i := i) ⟨h, fun j k e => .inr (hf j k e), .inl hi⟩
  have hself := h2 (.inl (by rw [List.mem_filter]; exact ⟨List.mem_finRange i, by simp⟩))
  refine ⟨h1.keeps, fun j k e => ?_⟩
  rcases h1.flat j k e with rfl | e'
  · exact hself
  · exact e'

theorem pass_inv {sq : Fin n → Cx} {s : U n} (h : Keeps sq s) (hf : Flat s) : Keeps sq (pass s) ∧ Flat (pass s) := by
  have key : ∀ (l : List (Fin n)) {s : U n}, Keeps sq s → Flat s → Keeps sq (l.foldl outer s) ∧ Flat (l.foldl outer s) := by
    intro l
    induction l with
    | nil => exact fun h hf => ⟨h, hf⟩
    | cons i l ih => exact fun h hf => ih (outer_inv h hf i).1 (outer_inv h hf i).2
  exact key _ (s := { s with flag := true }) h hf

theorem passes_inv {sq : Fin n → Cx} : ∀ {fuel : ℕ} {s t : U n}, Keeps sq s → Flat s → passes fuel s = .ok t → Keeps sq t ∧ Flat t
  | 0, _, _, _, _, h => by cases h
  | fuel + 1, s, t, h1, h2, h => by
    unfold passes at h
    dsimp only at h
    obtain ⟨h3, h4⟩ := pass_inv h1 h2
    by_cases hf : (pass s).flag = true
    · rw [if_pos hf] at h; cases h; exact ⟨h3, h4⟩
    · rw [if_neg hf] at h; exact passes_inv h3 h4 h

theorem copyBack_rep {s : U n} (hf : Flat s) (j : Fin n) : copyBack s j = s.x3 (rep s j) := by
  have key : ∀ (l : List (Fin n)) (y : Fin n → Cx), (∀ k, s.unified k = none ∨ s.unified k = some k → y k = s.x3 k) →
      (y j = s.x3 (rep s j) ∨ j ∈ l) →
      l.foldl (fun x3 i => match s.unified i with | none => x3 | some k => Function.update x3 i (x3 k)) y j = s.x3 (rep s j) := by
    intro l
    induction l with
    | nil => intro y _ h; exact h.resolve_right (by simp)
    | cons i l ih =>
      intro y hy h
      rw [List.foldl_cons]
      cases hi : s.unified i with
      | none =>
        dsimp only
        refine ih y hy ?_
        rcases h with h | h
        · exact .inl h
        · rcases List.mem_cons.1 h with rfl | h
          · left; rw [rep, hi, hy j (.inl hi)]; rfl
          · exact .inr h
      | some k =>
        dsimp only
        have hk := hf i k hi
        have hyk := hy k (.inr hk)
        refine ih _ (fun m hm => ?_) ?_
        · by_cases hmi : m = i
          · subst hmi
            rw [Function.update_self, hyk]
            rcases hm with e | e
            · rw [hi] at e; cases e
            · rw [hi] at e; cases e; rfl
          · rw [Function.update_of_ne hmi]; exact hy m hm
        · by_cases hji : j = i
          · subst hji; left; rw [Function.update_self, hyk, rep, hi]; rfl
          · rw [Function.update_of_ne hji]
            rcases h with h | h
            · exact .inl h
            · exact .inr ((List.mem_cons.1 h).resolve_left hji)
  exact key _ _ (fun _ _ => rfl) (.inr (List.mem_finRange j))

/-! ## termination -/

/-- what a part of a pass does to the set of boxes which are unified -/
def Grows (s t : U n) : Prop := (∀ j, s.unified j ≠ none → t.unified j ≠ none) ∧
  (t.flag = false → s.flag = false ∨ ∃ j, s.unified j = none ∧ t.unified j ≠ none)

theorem Grows.refl (s : U n) : Grows s s := ⟨fun _ h => h, fun h => .inl h⟩
theorem Grows.trans {s t u : U n} (h1 : Grows s t) (h2 : Grows t u) : Grows s u := by
  refine ⟨fun j h => h2.1 j (h1.1 j h), fun h => ?_⟩
  rcases h2.2 h with h | ⟨j, hj, hj'⟩
  · rcases h1.2 h with h | ⟨j, hj, hj'⟩
    · exact .inl h
    · exact .inr ⟨j, hj, h2.1 j hj'⟩
  · refine .inr ⟨j, ?_, hj'⟩
    by_contra hc
    exact h1.1 j hc hj

theorem foldl_grows {f : U n → Fin n → U n} (hf : ∀ s j, Grows s (f s j)) : ∀ (l : List (Fin n)) (s : U n), Grows s (l.foldl f s)
  | [], s => .refl s
  | j :: l, s => (hf s j).trans (foldl_grows hf l _)

theorem inner_grows (i : Fin n) (s : U n) (j : Fin n) : Grows s (inner i s j) := by
  unfold inner
  by_cases hj : s.unified j ≠ none
  · rw [if_pos hj]; exact .refl s
  rw [if_neg hj]
  by_cases hm : meets (s.x3 i) (s.x3 j) = true
  · rw [if_pos hm]
    refine ⟨fun k hk => ?_, fun _ => .inr ⟨j, not_not.1 hj, ?_⟩⟩
    · dsimp only
      by_cases hkj : k = j
      · subst hkj; simp
      · rw [Function.update_of_ne hkj]; exact hk
    · simp
  · rw [if_neg hm]; exact .refl s

theorem outer_grows (s : U n) (i : Fin n) : Grows s (outer s i) := by
  unfold outer
  split
  · exact .refl s
  · exact foldl_grows (inner_grows i) _ s

theorem passes_ok : ∀ {fuel : ℕ} {s : U n}, #(univ.filter fun j => s.unified j = none) < fuel → ∃ t, passes fuel s = .ok t
  | 0, s, h => by omega
  | fuel + 1, s, h => by
    unfold passes
    dsimp only
    by_cases hf : (pass s).flag = true
    · rw [if_pos hf]; exact ⟨_, rfl⟩
    rw [if_neg hf, ]
    rw [Bool.not_eq_true] at hf
    refine passes_ok (lt_of_lt_of_le (card_lt_card ?_) (Nat.lt_succ_iff.1 h))
    have hg : Grows { s with flag := true } (pass s) := foldl_grows outer_grows _ _
    obtain ⟨j, h1, h2⟩ := (hg.2 hf).resolve_left (by simp)
    rw [Finset.ssubset_iff_of_subset]
    · exact ⟨j, by simpa using h1, by simpa using h2⟩
    · intro k hk
      simp only [mem_filter, mem_univ, true_and] at hk ⊢
      by_contra hc
      exact hg.1 k hc hk

end Kv.Dka
