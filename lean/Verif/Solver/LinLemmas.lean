import Verif.Solver.LinAlg
import Verif.Autodif.Inst
import Verif.Analysis.Krawczyk
import Verif.Props.Sets

/-! # Interval linear algebra: helper lemmas -/

namespace Kv
open RopSem Kv.Interval
open Rop (lit)

/-! ## finite data -/

/-- a finite double -/
def FinD (a : D) : Prop := ∃ c : ℝ, Is a c

theorem finD_fin {q : ℚ} {h : binary64.Rep q} : FinD (Fl.fin q h) := ⟨q, Hw.not_nan_fin q h, Hw.val_fin q h⟩

theorem finD_iff {a : D} : FinD a ↔ ∃ q h, a = (Fl.fin q h : Fl binary64) := by
  constructor
  · rintro ⟨c, h1, h2⟩
    match a, h1, h2 with
    | Fl.nan, h1, _ => exact absurd rfl h1
    | Fl.pinf, _, h2 => exact absurd h2 (by show (⊤ : EReal) ≠ _; simp)
    | Fl.ninf, _, h2 => exact absurd h2 (by show (⊥ : EReal) ≠ _; simp)
    | Fl.fin q h, _, _ => exact ⟨q, h, rfl⟩
  · rintro ⟨q, h, rfl⟩; exact finD_fin

/-- test for a finite double -/
def isFinD (a : D) : Bool :=
  match (a : Fl binary64) with
  | .fin _ _ => true
  | _ => false

theorem isFinD_iff {a : D} : isFinD a = true ↔ FinD a := by
  have : ∀ x : Fl binary64, isFinD x = true ↔ ∃ q h, x = Fl.fin q h := by
    intro x
    cases x with
    | nan => exact ⟨fun h => (by cases h), fun ⟨_, _, h⟩ => (by cases h)⟩
    | pinf => exact ⟨fun h => (by cases h), fun ⟨_, _, h⟩ => (by cases h)⟩
    | ninf => exact ⟨fun h => (by cases h), fun ⟨_, _, h⟩ => (by cases h)⟩
    | fin q h => exact ⟨fun _ => ⟨q, h, rfl⟩, fun _ => rfl⟩
  exact (this a).trans finD_iff.symm

instance (a : D) : Decidable (FinD a) := decidable_of_iff _ isFinD_iff

theorem not_finD_nan : ¬ FinD (Fl.nan : Fl binary64) := fun h => by obtain ⟨q, h, h'⟩ := finD_iff.1 h; cases h'
theorem not_finD_pinf : ¬ FinD (Fl.pinf : Fl binary64) := fun h => by obtain ⟨q, h, h'⟩ := finD_iff.1 h; cases h'
theorem not_finD_ninf : ¬ FinD (Fl.ninf : Fl binary64) := fun h => by obtain ⟨q, h, h'⟩ := finD_iff.1 h; cases h'

/-- the non-finite doubles -/
def dNaN : D := (Fl.nan : Fl binary64)
def dPinf : D := (Fl.pinf : Fl binary64)
def dNinf : D := (Fl.ninf : Fl binary64)

theorem nan_dNaN : nan dNaN := rfl
theorem nan_iff_dNaN {a : D} : nan a ↔ a = dNaN := Iff.rfl
theorem not_nan_dPinf : ¬ nan dPinf := fun h => by cases h
theorem not_nan_dNinf : ¬ nan dNinf := fun h => by cases h
theorem val_dPinf : val dPinf = ⊤ := rfl
theorem val_dNinf : val dNinf = ⊥ := rfl

/-- a double is NaN, an infinity, or finite -/
theorem D_cases (a : D) : a = dNaN ∨ a = dPinf ∨ a = dNinf ∨ FinD a := by
  have : ∀ a : Fl binary64, a = Fl.nan ∨ a = Fl.pinf ∨ a = Fl.ninf ∨ ∃ q h, a = Fl.fin q h := by
    intro a
    cases a with
    | nan => exact .inl rfl
    | pinf => exact .inr (.inl rfl)
    | ninf => exact .inr (.inr (.inl rfl))
    | fin q h => exact .inr (.inr (.inr ⟨q, h, rfl⟩))
  rcases this a with h | h | h | h
  · exact .inl h
  · exact .inr (.inl h)
  · exact .inr (.inr (.inl h))
  · exact .inr (.inr (.inr (finD_iff.2 h)))

theorem infOfSign_not_fin (s : ℤ) : ¬ FinD (Fl.infOfSign s : Fl binary64) := by
  unfold Fl.infOfSign
  split_ifs
  · exact not_finD_pinf
  · exact not_finD_ninf
  · exact not_finD_nan

theorem Fl.add_fin {md : RMode} {x y : Fl binary64} (h : FinD (Fl.add md x y)) : FinD x ∧ FinD y := by
  cases x <;> cases y <;> first
    | exact ⟨finD_fin, finD_fin⟩
    | exact absurd h not_finD_nan
    | exact absurd h not_finD_pinf
    | exact absurd h not_finD_ninf

theorem Fl.mul_fin {md : RMode} {x y : Fl binary64} (h : FinD (Fl.mul md x y)) : FinD x ∧ FinD y := by
  cases x <;> cases y <;> first
    | exact ⟨finD_fin, finD_fin⟩
    | exact absurd h not_finD_nan
    | exact absurd h (infOfSign_not_fin _)

theorem Fl.neg_fin {x : Fl binary64} : FinD (Fl.neg x) ↔ FinD x := by
  cases x
  · exact Iff.rfl
  · exact ⟨fun h => absurd h not_finD_ninf, fun h => absurd h not_finD_pinf⟩
  · exact ⟨fun h => absurd h not_finD_pinf, fun h => absurd h not_finD_ninf⟩
  · exact ⟨fun _ => finD_fin, fun _ => finD_fin⟩

theorem addUp_fin {x y : D} (h : FinD (Rop.addUp x y)) : FinD x ∧ FinD y := Fl.add_fin h
theorem addDown_fin {x y : D} (h : FinD (Rop.addDown x y)) : FinD x ∧ FinD y := by
  obtain ⟨h1, h2⟩ := Fl.add_fin (Fl.neg_fin.1 h)
  exact ⟨Fl.neg_fin.1 h1, Fl.neg_fin.1 h2⟩
theorem subUp_fin {x y : D} (h : FinD (Rop.subUp x y)) : FinD x ∧ FinD y := by
  obtain ⟨h1, h2⟩ := Fl.add_fin h
  exact ⟨h1, Fl.neg_fin.1 h2⟩
theorem subDown_fin {x y : D} (h : FinD (Rop.subDown x y)) : FinD x ∧ FinD y := by
  obtain ⟨h1, h2⟩ := Fl.add_fin (Fl.neg_fin.1 h)
  exact ⟨Fl.neg_fin.1 h1, Fl.neg_fin.1 (Fl.neg_fin.1 h2)⟩
theorem add_fin {x y : D} (h : FinD (Rop.add x y)) : FinD x ∧ FinD y := Fl.add_fin h
theorem mul_fin {x y : D} (h : FinD (Rop.mul x y)) : FinD x ∧ FinD y := Fl.mul_fin h
theorem mulUp_fin {x y : D} (h : FinD (Rop.mulUp x y)) : FinD x ∧ FinD y := Fl.mul_fin h
theorem mulDown_fin {x y : D} (h : FinD (Rop.mulDown x y)) : FinD x ∧ FinD y := by
  obtain ⟨h1, h2⟩ := Fl.mul_fin (Fl.neg_fin.1 h)
  exact ⟨Fl.neg_fin.1 h1, h2⟩

/-- both endpoints are finite -/
def Bd (Z : Interval D) : Prop := FinD Z.inf ∧ FinD Z.sup

instance (Z : Interval D) : Decidable (Bd Z) := inferInstanceAs (Decidable (_ ∧ _))

theorem is_dbl' {a : D} (h : FinD a) : Is a (dbl a) := by
  obtain ⟨c, hc⟩ := h
  rw [is_dbl hc]; exact hc

theorem mem_of_bd {Z : Interval D} (h : Bd Z) {x : ℝ} : x ∈ Z ↔ dbl Z.inf ≤ x ∧ x ≤ dbl Z.sup := by
  have h1 := is_dbl' h.1
  have h2 := is_dbl' h.2
  rw [Interval.mem_iff, h1.2, h2.2]
  simp [h1.1, h2.1]

/-- membership of a double in an interval, by computation -/
theorem mem_of_is {Z : Interval D} {a : D} {c : ℝ} (ha : Is a c) (h : (Rop.le Z.inf a && Rop.le a Z.sup) = true) : c ∈ Z := by
  rw [Bool.and_eq_true, le_iff, le_iff, ha.2] at h
  exact ⟨⟨h.1.1, h.1.2.2⟩, h.2.2.1, h.2.2.2⟩

/-! ## sums and products -/

namespace LA
variable {l m n : ℕ}

theorem foldI_mem : ∀ {n : ℕ} {f : Fin n → Interval D} {a : Fin n → ℝ} {t : Interval D} {s : ℝ}, s ∈ t → (∀ k, a k ∈ f k) →
    s + ∑ k, a k ∈ (List.ofFn f).foldl Interval.add t := by
  intro n
  induction n with
  | zero => intro f a t s ht _; simpa using ht
  | succ n ih =>
    intro f a t s ht ha
    rw [List.ofFn_succ, List.foldl_cons, Fin.sum_univ_succ, ← add_assoc]
    exact ih (add_mem ht (ha 0)) fun k => ha k.succ

theorem sumI_mem {f : Fin n → Interval D} {a : Fin n → ℝ} (ha : ∀ k, a k ∈ f k) : ∑ k, a k ∈ sumI f := by
  have := foldI_mem (point_mem is_zero) ha
  rwa [zero_add] at this

theorem foldI_fin_sup : ∀ {l : List (Interval D)} {t : Interval D}, FinD (l.foldl Interval.add t).sup →
    FinD t.sup ∧ ∀ Z ∈ l, FinD Z.sup := by
  intro l
  induction l with
  | nil => intro t h; exact ⟨h, fun Z hZ => by simp at hZ⟩
  | cons a l ih =>
    intro t h
    obtain ⟨h1, h2⟩ := ih h
    obtain ⟨h3, h4⟩ := addUp_fin h1
    refine ⟨h3, fun Z hZ => ?_⟩
    rcases List.mem_cons.1 hZ with rfl | hZ
    · exact h4
    · exact h2 Z hZ

theorem foldI_fin_inf : ∀ {l : List (Interval D)} {t : Interval D}, FinD (l.foldl Interval.add t).inf →
    FinD t.inf ∧ ∀ Z ∈ l, FinD Z.inf := by
  intro l
  induction l with
  | nil => intro t h; exact ⟨h, fun Z hZ => by simp at hZ⟩
  | cons a l ih =>
    intro t h
    obtain ⟨h1, h2⟩ := ih h
    obtain ⟨h3, h4⟩ := addDown_fin h1
    refine ⟨h3, fun Z hZ => ?_⟩
    rcases List.mem_cons.1 hZ with rfl | hZ
    · exact h4
    · exact h2 Z hZ

theorem sumI_fin_sup {f : Fin n → Interval D} (h : FinD (sumI f).sup) (k : Fin n) : FinD (f k).sup :=
  (foldI_fin_sup h).2 _ ((List.mem_ofFn' _ _).2 ⟨k, rfl⟩)
theorem sumI_fin_inf {f : Fin n → Interval D} (h : FinD (sumI f).inf) (k : Fin n) : FinD (f k).inf :=
  (foldI_fin_inf h).2 _ ((List.mem_ofFn' _ _).2 ⟨k, rfl⟩)

theorem foldS_fin : ∀ {l : List D} {t : D}, FinD (l.foldl Rop.add t) → FinD t ∧ ∀ z ∈ l, FinD z := by
  intro l
  induction l with
  | nil => intro t h; exact ⟨h, fun Z hZ => by simp at hZ⟩
  | cons a l ih =>
    intro t h
    obtain ⟨h1, h2⟩ := ih h
    obtain ⟨h3, h4⟩ := add_fin h1
    refine ⟨h3, fun Z hZ => ?_⟩
    rcases List.mem_cons.1 hZ with rfl | hZ
    · exact h4
    · exact h2 Z hZ

theorem sumS_fin {f : Fin n → D} (h : FinD (sumS f)) (k : Fin n) : FinD (f k) :=
  (foldS_fin h).2 _ ((List.mem_ofFn' _ _).2 ⟨k, rfl⟩)

/-- not an infinity -/
def NoInf (a : D) : Prop := a ≠ dPinf ∧ a ≠ dNinf

open Classical in
/-- the factor a scalar stands for in `scalar * interval`: NaN acts like 0 there -/
noncomputable def rv (a : D) : ℝ := if a = dNaN then 0 else dbl a

theorem rv_fin {a : D} (h : FinD a) : rv a = dbl a := by
  unfold rv; rw [if_neg]
  rintro rfl; exact not_finD_nan h

theorem sMul_rv_mem {a : D} {Y : Interval D} {y : ℝ} (ha : NoInf a) (hy : y ∈ Y) : rv a * y ∈ Interval.sMul a Y := by
  rcases D_cases a with h | h | h | h
  · have e : Interval.sMul a Y = ⟨lit 0, lit 0⟩ := by
      unfold Interval.sMul
      rw [if_neg, if_neg]
      · rw [lt_iff]; rintro ⟨h', -⟩; exact h' h
      · rw [lt_iff]; rintro ⟨-, h', -⟩; exact h' h
    rw [e, show rv a = 0 by simp [rv, h], zero_mul]
    exact mem_zero rfl
  · exact absurd h ha.1
  · exact absurd h ha.2
  · rw [rv_fin h]
    exact sMul_mem hy (is_dbl' h)

/-- a product with a finite endpoint has no infinite factor -/
theorem sMul_noInf {a : D} {Y : Interval D} (h : FinD (Interval.sMul a Y).sup ∨ FinD (Interval.sMul a Y).inf) : NoInf a := by
  constructor
  · rintro rfl
    have e : Rop.lt (lit 0 : D) dPinf = true := by
      rw [lt_iff]; refine ⟨is_zero.1, not_nan_dPinf, ?_⟩
      rw [is_zero.2]; exact EReal.coe_lt_top 0
    unfold Interval.sMul at h
    rw [if_pos e] at h
    rcases h with h | h
    · exact not_finD_pinf (mulUp_fin h).1
    · exact not_finD_pinf (mulDown_fin h).1
  · rintro rfl
    have e : ¬ Rop.lt (lit 0 : D) dNinf = true := by
      rw [lt_iff]; rintro ⟨-, -, h⟩
      rw [is_zero.2] at h; exact absurd h (not_lt_of_ge bot_le)
    have e' : Rop.lt dNinf (lit 0 : D) = true := by
      rw [lt_iff]; refine ⟨not_nan_dNinf, is_zero.1, ?_⟩
      rw [is_zero.2]; exact EReal.bot_lt_coe 0
    unfold Interval.sMul at h
    rw [if_neg e, if_pos e'] at h
    rcases h with h | h
    · exact not_finD_ninf (mulUp_fin h).1
    · exact not_finD_ninf (mulDown_fin h).1

theorem prodSV_mem {R : Mat m n D} {v : Vec n (Interval D)} {w : Fin n → ℝ} {i : Fin m} (hR : ∀ k, NoInf (R i k)) (hv : ∀ k, w k ∈ v k) :
    ∑ k, rv (R i k) * w k ∈ prodSV R v i := sumI_mem fun k => sMul_rv_mem (hR k) (hv k)

theorem prodSM_mem {R : Mat m n D} {a : Mat n l (Interval D)} {A : Fin n → Fin l → ℝ} {i : Fin m} {j : Fin l} (hR : ∀ k, NoInf (R i k))
    (ha : ∀ k, A k j ∈ a k j) : ∑ k, rv (R i k) * A k j ∈ prodSM R a i j := sumI_mem fun k => sMul_rv_mem (hR k) (ha k)

theorem prodIV_mem {M : Mat m n (Interval D)} {v : Vec n (Interval D)} {G : Fin m → Fin n → ℝ} {w : Fin n → ℝ} {i : Fin m}
    (hG : ∀ k, G i k ∈ M i k) (hv : ∀ k, w k ∈ v k) : ∑ k, G i k * w k ∈ prodIV M v i := sumI_mem fun k => mul_mem (hG k) (hv k)

theorem eye_is (i j : Fin n) : Is (eye i j) (if i = j then 1 else 0) := by
  unfold eye; split_ifs
  · exact is_one
  · exact is_zero

/-! ## predicates -/

theorem allV_iff {f : Fin n → Bool} : allV f = true ↔ ∀ i, f i = true := by
  unfold allV
  rw [List.all_eq_true]
  constructor
  · intro h i; exact h _ ((List.mem_ofFn' _ _).2 ⟨i, rfl⟩)
  · intro h b hb
    obtain ⟨i, rfl⟩ := (List.mem_ofFn' _ _).1 hb
    exact h i

/-- `proper_subset` of intervals -/
theorem properSubset_iff {X Y : Interval D} : properSubset X Y = true ↔
    (¬ nan X.inf ∧ ¬ nan X.sup ∧ ¬ nan Y.inf ∧ ¬ nan Y.sup) ∧ val Y.inf ≤ val X.inf ∧ val X.sup ≤ val Y.sup ∧
      (val Y.inf < val X.inf ∨ val X.sup < val Y.sup) := by
  unfold properSubset subset
  simp only [Bool.and_eq_true, Bool.or_eq_true, le_iff, lt_iff]
  tauto

theorem maxFold_aux : ∀ {l : List D} {r : D}, ¬ nan r → (∀ t ∈ l, ¬ nan t) →
    ¬ nan (l.foldl (fun r t => if Rop.lt r t then t else r) r) ∧
    val r ≤ val (l.foldl (fun r t => if Rop.lt r t then t else r) r) ∧
    ∀ t ∈ l, val t ≤ val (l.foldl (fun r t => if Rop.lt r t then t else r) r) := by
  intro l
  induction l with
  | nil => intro r hr _; exact ⟨hr, le_refl _, fun t ht => by simp at ht⟩
  | cons a l ih =>
    intro r hr hl
    have ha := hl a (by simp)
    have key : ¬ nan (if Rop.lt r a = true then a else r) ∧ val r ≤ val (if Rop.lt r a = true then a else r) ∧
        val a ≤ val (if Rop.lt r a = true then a else r) := by
      split_ifs with h
      · rw [lt_iff] at h; exact ⟨ha, h.2.2.le, le_refl _⟩
      · rw [lt_iff] at h
        refine ⟨hr, le_refl _, not_lt.1 fun h' => h ⟨hr, ha, h'⟩⟩
    obtain ⟨h1, h2, h3⟩ := ih key.1 (fun t ht => hl t (by simp [ht]))
    refine ⟨h1, key.2.1.trans h2, fun t ht => ?_⟩
    rcases List.mem_cons.1 ht with rfl | ht
    · exact key.2.2.trans h2
    · exact h3 t ht

theorem maxFold_ge {l : List D} (h : ∀ t ∈ l, ¬ nan t) : ¬ nan (maxFold l) ∧ 0 ≤ val (maxFold l) ∧ ∀ t ∈ l, val t ≤ val (maxFold l) := by
  have := maxFold_aux (l := l) (r := (lit 0 : D)) is_zero.1 h
  rw [is_zero.2] at this
  exact ⟨this.1, this.2.1, this.2.2⟩

/-- the running maximum ignores NaN -/
theorem maxFold_nn (l : List D) : ¬ nan (maxFold l) ∧ 0 ≤ val (maxFold l) := by
  have : ∀ (l : List D) (r : D), ¬ nan r → ¬ nan (l.foldl (fun r t => if Rop.lt r t then t else r) r) ∧
      val r ≤ val (l.foldl (fun r t => if Rop.lt r t then t else r) r) := by
    intro l
    induction l with
    | nil => exact fun r hr => ⟨hr, le_refl _⟩
    | cons a l ih =>
      intro r hr
      rw [List.foldl_cons]
      split_ifs with h
      · rw [lt_iff] at h
        obtain ⟨h1, h2⟩ := ih a h.2.1
        exact ⟨h1, h.2.2.le.trans h2⟩
      · exact ih r hr
  have h := this l (lit 0 : D) is_zero.1
  rw [is_zero.2] at h
  exact h

theorem foldUp_hi : ∀ {n : ℕ} {f : Fin n → D} {a : Fin n → ℝ} {t : D} {s : ℝ}, Hi t s → (∀ k, Hi (f k) (a k)) →
    Hi ((List.ofFn f).foldl Rop.addUp t) (s + ∑ k, a k) := by
  intro n
  induction n with
  | zero => intro f a t s ht _; simpa using ht
  | succ n ih =>
    intro f a t s ht ha
    rw [List.ofFn_succ, List.foldl_cons, Fin.sum_univ_succ, ← add_assoc]
    exact ih (ht.add (ha 0)) fun k => ha k.succ

/-- `max_norm` of an interval matrix bounds the row sums of every matrix in it -/
theorem maxNormIM_hi {x : Mat m n (Interval D)} {A : Fin m → Fin n → ℝ} (h : ∀ i j, A i j ∈ x i j) :
    Hi (maxNormIM x) 0 ∧ ∀ i, Hi (maxNormIM x) (∑ j, |A i j|) := by
  have h1 : ∀ i, Hi ((List.ofFn fun j => Interval.norm (x i j)).foldl Rop.addUp (lit 0)) (∑ j, |A i j|) := fun i => by
    have := foldUp_hi (t := (lit 0 : D)) (s := 0) hi_zero (fun k => norm_hi (h i k))
    rwa [zero_add] at this
  obtain ⟨h2, h3, h4⟩ := maxFold_ge (l := List.ofFn fun i => (List.ofFn fun j => Interval.norm (x i j)).foldl Rop.addUp (lit 0))
    (fun t ht => by
      obtain ⟨i, rfl⟩ := (List.mem_ofFn' _ _).1 ht
      exact (h1 i).1)
  exact ⟨⟨h2, h3⟩, fun i => ⟨h2, (h1 i).2.trans (h4 _ ((List.mem_ofFn' _ _).2 ⟨i, rfl⟩))⟩⟩

theorem maxNormIV_hi {x : Vec n (Interval D)} {a : Fin n → ℝ} (h : ∀ i, a i ∈ x i) :
    Hi (maxNormIV x) 0 ∧ ∀ i, Hi (maxNormIV x) |a i| := by
  obtain ⟨h2, h3, h4⟩ := maxFold_ge (l := List.ofFn fun i => Interval.norm (x i))
    (fun t ht => by
      obtain ⟨i, rfl⟩ := (List.mem_ofFn' _ _).1 ht
      exact (norm_hi (h i)).1)
  exact ⟨⟨h2, h3⟩, fun i => ⟨h2, (norm_hi (h i)).2.trans (h4 _ ((List.mem_ofFn' _ _).2 ⟨i, rfl⟩))⟩⟩

theorem maxNormSM_hi {x : Mat m n D} (h : ∀ i j, FinD (x i j)) :
    Hi (maxNormSM x) 0 ∧ ∀ i, Hi (maxNormSM x) (∑ j, |dbl (x i j)|) := by
  have h0 : ∀ i j, Hi (if Rop.le (lit 0) (x i j) then x i j else Rop.neg (x i j)) |dbl (x i j)| := by
    intro i j
    have hi := is_dbl' (h i j)
    split_ifs with hl
    · rw [le_iff, is_zero.2, hi.2] at hl
      have : (0 : ℝ) ≤ dbl (x i j) := by exact_mod_cast hl.2.2
      rw [abs_of_nonneg this]; exact ⟨hi.1, hi.2.ge⟩
    · have hlt : dbl (x i j) < 0 := by
        by_contra hc
        refine hl ?_
        rw [le_iff, is_zero.2, hi.2]
        exact ⟨is_zero.1, hi.1, by exact_mod_cast not_lt.1 hc⟩
      rw [abs_of_neg hlt]
      exact Lo.neg ⟨hi.1, hi.2.le⟩
  have h1 : ∀ i, Hi ((List.ofFn fun j => if Rop.le (lit 0) (x i j) then x i j else Rop.neg (x i j)).foldl Rop.addUp (lit 0))
      (∑ j, |dbl (x i j)|) := fun i => by
    have := foldUp_hi (t := (lit 0 : D)) (s := 0) hi_zero (fun k => h0 i k)
    rwa [zero_add] at this
  obtain ⟨h2, h3, h4⟩ := maxFold_ge (l := List.ofFn fun i =>
      (List.ofFn fun j => if Rop.le (lit 0) (x i j) then x i j else Rop.neg (x i j)).foldl Rop.addUp (lit 0))
    (fun t ht => by
      obtain ⟨i, rfl⟩ := (List.mem_ofFn' _ _).1 ht
      exact (h1 i).1)
  exact ⟨⟨h2, h3⟩, fun i => ⟨h2, (h1 i).2.trans (h4 _ ((List.mem_ofFn' _ _).2 ⟨i, rfl⟩))⟩⟩

end LA

/-! ## functions with sound enclosures -/

/-- The enclosures computed by `P` are correct for the function `f`, which is defined where `dom` holds.
`FD` returning normally means that `f` is defined and differentiable on the whole box. -/
structure Prog.Sound {n : ℕ} (P : Prog n) (dom : (Fin n → ℝ) → Prop) (f : (Fin n → ℝ) → Fin n → ℝ) : Prop where
  val : ∀ {X Y x}, P.F X = .ok Y → (∀ i, x i ∈ X i) → dom x → ∀ i, f x i ∈ Y i
  der : ∀ {X Y J x}, P.FD X = .ok (Y, J) → (∀ i, x i ∈ X i) → dom x ∧ (∀ i, f x i ∈ Y i) ∧
    ∃ A : Fin n → Fin n → ℝ, (∀ i j, A i j ∈ J i j) ∧ ∀ i, HasFDerivAt (fun y => f y i) (lin (A i)) x

theorem evalVec_ok {S : Type} [Scal S] {n : ℕ} {p : ℕ → S} {x : Fin n → S} : ∀ {m : ℕ} {e : Fin m → Expr n} {r : Fin m → S},
    evalVec p x m e = .ok r → ∀ i, (e i).eval p x = .ok (r i)
  | 0, _, _, _, i => i.elim0
  | m + 1, e, r, h, i => by
    rw [evalVec] at h
    obtain ⟨a, ha, h⟩ := bind_ok.1 h
    obtain ⟨t, ht, h⟩ := bind_ok.1 h
    cases h
    refine Fin.cases ?_ (fun i => ?_) i
    · simpa using ha
    · simpa using evalVec_ok ht i

/-- template functions over intervals of doubles have sound enclosures -/
theorem exprProg_sound {fuel n : ℕ} {p : ℕ → Interval D} {e : Fin n → Expr n} {ρ : ℕ → ℝ} (hc : ∀ i, (e i).FinCst)
    (hk : ∀ i, (e i).ConstDom ρ) (hp : ∀ i, ρ i ∈ p i) :
    (exprProg fuel p e).Sound (fun x => ∀ i, (e i).Dom ρ x) (fun x i => (e i).real ρ x) where
  val {X Y x} h hx hd i := by
    have := @evalVec_ok _ (scalI fuel) n p X n e Y h i
    exact @eval_mem _ (semI fuel) n p X ρ x hp hx (e i) (Y i) (hc i) (hd i) this
  der {X Y J x} h hx := by
    obtain ⟨r, hr, h⟩ := bind_ok.1 h
    split_ifs at h
    cases h
    have hs := fun i => @evalAD_sound _ (semI fuel) n p X ρ x hp hx (e i) (r i) (hc i) (hk i)
      (@evalVec_ok _ (@Autodif.instScal _ (scalI fuel)) n _ _ n e r hr i)
    refine ⟨fun i => (hs i).1, fun i => @AD.val _ (semI fuel) _ _ _ _ _ (hs i).2, ?_⟩
    choose A hA using fun i => @AD.row _ (semI fuel) _ _ _ _ _ (hs i).2
    exact ⟨A, fun i j => (hA i).2 j, fun i => (hA i).1⟩

end Kv
