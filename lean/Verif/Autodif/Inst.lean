import Verif.Autodif.Sound

/-! # Automatic differentiation: the scalar types `interval<double>` and exact real numbers -/

namespace Kv
open RopSem Kv.Interval
open Rop (lit)

/-- instantiation with `interval<double>` -/
def evalI (fuel : ℕ) {n : ℕ} (p : ℕ → Interval D) (X : Fin n → Interval D) (e : Expr n) : Res (Interval D) :=
  @Expr.eval _ (scalI fuel) n p X e

/-- instantiation with `autodif<interval<double>>` after `init` -/
def evalA (fuel : ℕ) {n : ℕ} (p : ℕ → Interval D) (X : Fin n → Interval D) (e : Expr n) : Res (Autodif (Interval D)) :=
  @Expr.eval _ (@Autodif.instScal _ (scalI fuel)) n (fun i => Autodif.lift (p i)) (@Autodif.init _ (scalI fuel) n X) e

/-! ## values -/

theorem bin_memI {fuel : ℕ} {o : Bin} {A B Z : Interval D} {a b : ℝ} (h : (scalI fuel).bin o A B = .ok Z) (ha : a ∈ A)
    (hb : b ∈ B) : o.Dom b ∧ o.real a b ∈ Z := by
  cases o
  · cases h; exact ⟨trivial, add_mem ha hb⟩
  · cases h; exact ⟨trivial, sub_mem ha hb⟩
  · cases h; exact ⟨trivial, mul_mem ha hb⟩
  · exact ⟨div_ok_ne h hb, div_mem h ha hb⟩

theorem binC_memI {fuel : ℕ} {o : Bin} {A Z : Interval D} {k : D} {a c : ℝ} (h : (scalI fuel).binC o A k = .ok Z) (ha : a ∈ A)
    (hk : Is k c) : o.Dom c ∧ o.real a c ∈ Z := by
  cases o
  · cases h; exact ⟨trivial, addS_mem ha hk⟩
  · cases h; exact ⟨trivial, subS_mem ha hk⟩
  · cases h; exact ⟨trivial, mulS_mem ha hk⟩
  · exact ⟨divS_ok_ne h hk, divS_mem h ha hk⟩

theorem cBin_memI {fuel : ℕ} {o : Bin} {B Z : Interval D} {k : D} {b c : ℝ} (h : (scalI fuel).cBin o k B = .ok Z) (hb : b ∈ B)
    (hk : Is k c) : o.Dom b ∧ o.real c b ∈ Z := by
  cases o
  · cases h; exact ⟨trivial, sAdd_mem hb hk⟩
  · cases h; exact ⟨trivial, sSub_mem hb hk⟩
  · cases h; exact ⟨trivial, sMul_mem hb hk⟩
  · exact ⟨sDiv_ok_ne h hb, sDiv_mem h hb hk⟩

theorem un_memI {fuel : ℕ} {f : Un} {A Z : Interval D} {a : ℝ} (h : (scalI fuel).un f A = .ok Z) (ha : a ∈ A) (hd : f.Dom a) :
    f.real a ∈ Z := by
  cases f
  · cases h; exact neg_mem ha
  · exact exp_mem h ha
  · exact log_mem h ha hd
  · exact sqrt_mem h ha
  · exact sin_mem h ha
  · exact cos_mem h ha
  · exact tan_mem h ha
  · exact (C17_asin ha h).2.2
  · exact (C17_acos ha h).2.2
  · exact atan_mem h ha
  · exact C18_sinh ha h
  · exact cosh_mem h ha
  · exact C18_tanh ha h
  · exact C18_asinh ha h
  · exact C18_acosh ha hd h
  · exact C18_atanh ha hd.1 hd.2 h

theorem un_okI {fuel : ℕ} {f : Un} {A Z : Interval D} {a : ℝ} (h : (scalI fuel).un f A = .ok Z) (ha : a ∈ A) : f.WDom a := by
  cases f with
  | log => exact log_ok_nonneg h ha
  | sqrt => exact sqrt_ok_nonneg h ha
  | acosh => exact acosh_ok_le h ha
  | atanh => exact atanh_ok_le h ha
  | _ => exact trivial

theorem powInt_neg_ne {X Z : Interval D} {y : ℤ} {a : ℝ} (h : powInt X y = .ok Z) (ha : a ∈ X) (hy : y < 0) : a ≠ 0 := by
  rintro rfl
  by_cases hm : y = -2147483648
  · subst hm; simp [powInt] at h
  · rw [C11_pow_zero_throws hy hm ha] at h; cases h

/-- intervals of doubles enclose real numbers -/
@[reducible] def semI (fuel : ℕ) : ScalSem (Interval D) where
  toScal := scalI fuel
  mem a A := a ∈ A
  bin_mem := bin_memI
  binC_mem := binC_memI
  cBin_mem := cBin_memI
  un_mem := un_memI
  un_ok := un_okI
  powI_mem h ha := ⟨powInt_neg_ne h ha, powInt_mem h ha⟩
  pow_mem h ha hb h0 := pow_mem h ha hb h0
  ofC_mem h := point_mem h

open Classical in
/-- a value that exists only if `P` holds -/
noncomputable def guardR (P : Prop) (v : ℝ) : Res ℝ := if P then .ok v else .error .domainError

theorem guardR_ok {P : Prop} {v z : ℝ} (h : guardR P v = .ok z) : P ∧ v = z := by
  unfold guardR at h; split_ifs at h with hd; cases h; exact ⟨hd, rfl⟩

/-- exact real arithmetic as a scalar type; used only in the specification -/
@[reducible] noncomputable def scalR : Scal ℝ where
  bin o a b := guardR (o.Dom b) (o.real a b)
  binC o a k := guardR (o.Dom (dbl k)) (o.real a (dbl k))
  cBin o k b := guardR (o.Dom b) (o.real (dbl k) b)
  un f a := guardR (f.Dom a) (f.real a)
  powI a y := guardR (y < 0 → a ≠ 0) (a ^ y)
  pow a b := guardR (0 < a) (a ^ b)
  ofC k := dbl k

theorem is_dbl {k : D} {c : ℝ} (h : Is k c) : dbl k = c := by
  unfold dbl; rw [h.2]; rfl

theorem dom_wdom {f : Un} {a : ℝ} (h : f.Dom a) : f.WDom a := by
  cases f with
  | log => exact le_of_lt h
  | sqrt => exact h
  | acosh => exact h
  | atanh => exact ⟨h.1.le, h.2.le⟩
  | _ => exact trivial

@[reducible] noncomputable def semR : ScalSem ℝ where
  toScal := scalR
  mem a s := a = s
  bin_mem h ha hb := by subst ha hb; exact guardR_ok h
  binC_mem h ha hk := by subst ha; rw [← is_dbl hk]; exact guardR_ok h
  cBin_mem h hb hk := by subst hb; rw [← is_dbl hk]; exact guardR_ok h
  un_mem h ha _ := by subst ha; exact (guardR_ok h).2
  un_ok h ha := by subst ha; exact dom_wdom (guardR_ok h).1
  powI_mem h ha := by subst ha; exact guardR_ok h
  pow_mem h ha hb _ := by subst ha hb; exact (guardR_ok h).2
  ofC_mem h := (is_dbl h).symm

theorem foldr_max_le {l : List ℕ} {n : ℕ} (h : ∀ a ∈ l, a ≤ n) : l.foldr Max.max 0 ≤ n := by
  induction l with
  | nil => exact Nat.zero_le _
  | cons a t ih =>
    rw [List.foldr_cons]
    exact max_le (h a (by simp)) (ih fun b hb => h b (by simp [hb]))

theorem le_foldr_max {l : List ℕ} {a : ℕ} (h : a ∈ l) : a ≤ l.foldr Max.max 0 := by
  induction l with
  | nil => simp at h
  | cons b t ih =>
    rw [List.foldr_cons]
    rcases List.mem_cons.1 h with rfl | h
    · exact le_max_left _ _
    · exact le_trans (ih h) (le_max_right _ _)

end Kv
