import Verif.Conv.Read

/-!
# `stringtod`: from decimal digits to a double
-/

namespace Kv
namespace Conv
open Rop (lit)

/-- digits before and after a point at position `p` -/
theorem split_point {b : ℕ} (hb : 0 < b) (l : List ℕ) (p : ℤ) (hp : p ≤ l.length) :
    (vBE b (l.take p.toNat) : ℚ) + fv b (List.replicate (-p).toNat 0 ++ l.drop p.toNat) = fv b l * (b : ℚ) ^ p := by
  have hb' : (b : ℚ) ≠ 0 := by positivity
  rcases le_total 0 p with h | h
  · obtain ⟨k, rfl⟩ := Int.eq_ofNat_of_zero_le h
    have hk : k ≤ l.length := by exact_mod_cast hp
    have e1 : (-(k : ℤ)).toNat = 0 := by omega
    have e3 := fv_append hb (l.take k) (l.drop k)
    have e4 : (l.take k).length = k := by rw [List.length_take]; omega
    have e5 := fv_eq hb (l.take k)
    rw [List.take_append_drop, e4] at e3
    rw [e4] at e5
    rw [e1, Int.toNat_natCast, List.replicate_zero, List.nil_append, ← e5, e3, zpow_natCast]
    field_simp
  · obtain ⟨k, hk⟩ := Int.eq_ofNat_of_zero_le (show 0 ≤ -p by omega)
    have e1 : p.toNat = 0 := by omega
    rw [e1, hk, Int.toNat_natCast, List.take_zero, List.drop_zero, fv_append hb, fv_replicate, List.length_replicate,
      show p = -(k : ℤ) by omega, zpow_neg, zpow_natCast]
    simp [vBE]
    field_simp

/-! ## the integer part -/

theorem mBin_pos (n : ℕ) : 1 ≤ mBin n := by unfold mBin; split_ifs <;> norm_num
theorem mBin_le (n : ℕ) : mBin n ≤ 16 := by unfold mBin; split_ifs <;> norm_num

theorem mBin_pow (n : ℕ) : 2 ^ (mBin n - 1) ≤ 10 ^ n := by
  unfold mBin
  split_ifs with h1 h2 h3 h4 h5
  · exact le_trans (by norm_num) (Nat.pow_le_pow_right (show 0 < 10 by norm_num) h1)
  · exact le_trans (by norm_num) (Nat.pow_le_pow_right (show 0 < 10 by norm_num) h2)
  · exact le_trans (by norm_num) (Nat.pow_le_pow_right (show 0 < 10 by norm_num) h3)
  · exact le_trans (by norm_num) (Nat.pow_le_pow_right (show 0 < 10 by norm_num) h4)
  · exact le_trans (by norm_num) (Nat.pow_le_pow_right (show 0 < 10 by norm_num) h5)
  · simpa using Nat.one_le_pow _ _ (by norm_num)

theorem intLoop_nil {b B : ℕ} {mOf : ℕ → ℕ} (fuel : ℕ) : intLoop b B mOf fuel [] = [] := by
  cases fuel <;> simp [intLoop]

theorem vBE_cons_ge {d : ℕ} {t : List ℕ} (h : d ≠ 0) : 10 ^ t.length ≤ vBE 10 (d :: t) := by
  rw [vBE]
  have := Nat.le_mul_of_pos_left (10 ^ t.length) (Nat.pos_of_ne_zero h)
  omega

theorem dropWhile_head {l : List ℕ} {d : ℕ} {t : List ℕ} (h : l.dropWhile (· = 0) = d :: t) : d ≠ 0 := by
  induction l with
  | nil => simp at h
  | cons a l ih =>
    by_cases ha : a = 0
    · subst ha
      simp at h
      exact ih (by simpa using h)
    · simp [ha] at h
      rw [← h.1]; exact ha

/-- the highest bit of an integer written without leading zeros is a one -/
theorem intLoop_top {fuel : ℕ} {d : ℕ} {t : List ℕ} (hd : d ≠ 0) (hv : vBE 10 (d :: t) < 2 ^ fuel) :
    2 ^ ((intLoop 10 2 mBin fuel (d :: t)).length - 1) ≤ vBE 10 (d :: t) := by
  have hge := vBE_cons_ge (t := t) hd
  induction fuel generalizing d t with
  | zero =>
    have := Nat.one_le_pow t.length 10 (by norm_num)
    simp at hv
    omega
  | succ fuel ih =>
    rw [intLoop, if_neg (by simp)]
    simp only [List.length_cons, Nat.add_sub_cancel, List.length_append, digitsLE_length]
    have hm := mBin_pos t.length
    have hm2 := mBin_pow t.length
    generalize mBin t.length = m at *
    have h1 := divPass_val (b := 10) (pm := 2 ^ m) (d :: t) 0
    rw [zero_mul, zero_add] at h1
    have h2 := vBE_dropWhile (b := 10) (divPass 10 (2 ^ m) (d :: t) 0).1
    cases hq : (divPass 10 (2 ^ m) (d :: t) 0).1.dropWhile (· = 0) with
    | nil => rw [intLoop_nil, List.length_nil, add_zero]; exact hm2.trans hge
    | cons a s =>
      have ha := dropWhile_head hq
      rw [hq] at h2
      have hp : 2 ≤ 2 ^ m := by
        calc 2 = 2 ^ 1 := rfl
          _ ≤ _ := Nat.pow_le_pow_right (by norm_num) hm
      have h3 : 2 * vBE 10 (a :: s) ≤ 2 ^ m * vBE 10 (a :: s) := Nat.mul_le_mul_right _ hp
      rw [← h2] at h1
      have h4 := ih (t := s) ha (by rw [pow_succ] at hv; omega) (vBE_cons_ge ha)
      have h5 : (intLoop 10 2 mBin fuel (a :: s)) ≠ [] := by
        apply intLoop_ne_nil mBin_pos (by simp)
        rcases Nat.eq_zero_or_pos fuel with h0 | h0
        · subst h0
          have := vBE_cons_ge (t := s) ha
          have := Nat.one_le_pow s.length 10 (by norm_num)
          simp at hv
          omega
        · exact h0
      have h6 := List.length_pos_iff.2 h5
      calc 2 ^ (m + (intLoop 10 2 mBin fuel (a :: s)).length - 1)
          = 2 ^ m * 2 ^ ((intLoop 10 2 mBin fuel (a :: s)).length - 1) := by rw [← pow_add]; congr 1; omega
        _ ≤ 2 ^ m * vBE 10 (a :: s) := Nat.mul_le_mul_left _ h4
        _ ≤ _ := by omega

theorem intLoop_big {fuel : ℕ} {ds : List ℕ} (hv : vBE 10 ds < 2 ^ fuel) (hl : 16 < (intLoop 10 2 mBin fuel ds).length) :
    2 ^ ((intLoop 10 2 mBin fuel ds).length - 1) ≤ vBE 10 ds := by
  cases fuel with
  | zero => simp [intLoop] at hl
  | succ fuel =>
    by_cases h0 : ds = []
    · subst h0; rw [intLoop_nil] at hl; simp at hl
    rw [intLoop, if_neg h0] at hl ⊢
    simp only [List.length_append, digitsLE_length] at hl ⊢
    have hm := mBin_pos (ds.length - 1)
    have hm2 := mBin_le (ds.length - 1)
    generalize mBin (ds.length - 1) = m at *
    have h1 := divPass_val (b := 10) (pm := 2 ^ m) ds 0
    rw [zero_mul, zero_add] at h1
    have h2 := vBE_dropWhile (b := 10) (divPass 10 (2 ^ m) ds 0).1
    cases hq : (divPass 10 (2 ^ m) ds 0).1.dropWhile (· = 0) with
    | nil =>
      rw [hq, intLoop_nil] at hl; simp at hl; omega
    | cons a s =>
      rw [hq] at h2 hl
      have hp : 2 ≤ 2 ^ m := by
        calc 2 = 2 ^ 1 := rfl
          _ ≤ _ := Nat.pow_le_pow_right (by norm_num) hm
      have h3 : 2 * vBE 10 (a :: s) ≤ 2 ^ m * vBE 10 (a :: s) := Nat.mul_le_mul_right _ hp
      rw [← h2] at h1
      have h4 := intLoop_top (fuel := fuel) (t := s) (dropWhile_head hq) (by rw [pow_succ] at hv; omega)
      have h6 : 0 < (intLoop 10 2 mBin fuel (a :: s)).length := by omega
      calc 2 ^ (m + (intLoop 10 2 mBin fuel (a :: s)).length - 1)
          = 2 ^ m * 2 ^ ((intLoop 10 2 mBin fuel (a :: s)).length - 1) := by rw [← pow_add]; congr 1; omega
        _ ≤ 2 ^ m * vBE 10 (a :: s) := Nat.mul_le_mul_left _ h4
        _ ≤ _ := by omega

/-! ## the fraction part -/

/-- The state of the fraction loop: `X` is the number, `r1` are the bits of its integer part (highest first), `f` is what
remains of the fraction. -/
structure Inv (X : ℚ) (r1 : List ℕ) (st : BinSt) (f : ℚ) : Prop where
  val : X = (vBE 2 (r1 ++ st.bits) + f) * 2 ^ st.min
  min0 : st.min ≤ 0
  bit : ∀ d ∈ st.bits, d < 2
  none' : st.max = none → st.bits = [] ∧ r1 = []
  some' : ∀ mx, st.max = some mx → ((r1 ++ st.bits).length : ℤ) = mx - st.min + 1
  top : ∀ mx, st.max = some mx → 0 ≤ mx → (r1.length : ℤ) = mx + 1

theorem addBit_inv {X : ℚ} {r1 : List ℕ} {st : BinSt} {b : ℕ} {f : ℚ} (hb : b < 2) (h : Inv X r1 st ((b + f) / 2)) :
    Inv X r1 (addBit st b) f := by
  have hz : (2 : ℚ) ^ st.min = 2 * 2 ^ (st.min - 1) := by
    rw [zpow_sub₀ (by norm_num), zpow_one]; ring
  unfold addBit
  have hmin := h.min0
  cases hm : st.max with
  | some mx =>
    dsimp only
    refine ⟨?_, by dsimp only; omega, ?_, fun h => by simp at h, ?_, ?_⟩
    · rw [h.val, hz]
      dsimp only
      rw [← List.append_assoc, vBE_append (r1 ++ st.bits) [b]]
      simp only [vBE, List.length_singleton, List.length_nil]
      push_cast
      ring
    · intro d hd
      rcases List.mem_append.1 hd with hd | hd
      · exact h.bit d hd
      · rw [List.mem_singleton.1 hd]; exact hb
    · intro m hmm
      have := h.some' m (by rw [hm]; exact hmm)
      rw [← List.append_assoc, List.length_append, List.length_singleton]
      dsimp only
      push_cast
      omega
    · intro m hmm
      exact h.top m (by rw [hm]; exact hmm)
  | none =>
    obtain ⟨h1, h2⟩ := h.none' hm
    have hv := h.val
    rw [h1, h2, hz] at hv
    dsimp only
    by_cases hb0 : b ≠ 0
    · rw [if_pos hb0]
      refine ⟨?_, by dsimp only; omega, ?_, fun h => by simp at h, ?_, ?_⟩
      · rw [hv, h2]
        simp only [vBE, List.nil_append, List.length_nil]
        push_cast
        ring
      · intro d hd
        rw [List.mem_singleton.1 hd]; exact hb
      · intro m hmm
        simp only [Option.some.injEq] at hmm
        rw [h2]; simp; omega
      · intro m hmm
        simp only [Option.some.injEq] at hmm
        omega
    · rw [if_neg hb0]
      have hb1 : b = 0 := by simpa using hb0
      refine ⟨?_, by dsimp only; omega, by simp, fun _ => ⟨rfl, h2⟩, fun m h => by simp at h, fun m h => by simp at h⟩
      rw [hv, h2, hb1]
      simp only [vBE, List.nil_append]
      push_cast
      ring

theorem addBits_inv {X : ℚ} {r1 : List ℕ} {ds : List ℕ} (hd : ∀ d ∈ ds, d < 2) {st : BinSt} {f : ℚ}
    (h : Inv X r1 st (fv 2 ds + f / 2 ^ ds.length)) : Inv X r1 (ds.foldl addBit st) f := by
  induction ds generalizing st with
  | nil => simpa [fv] using h
  | cons d t ih =>
    rw [List.foldl_cons]
    apply ih fun x hx => hd x (List.mem_cons_of_mem _ hx)
    apply addBit_inv (hd d List.mem_cons_self)
    convert h using 1
    rw [fv, List.length_cons, pow_succ]
    push_cast
    field_simp
    ring

theorem mul_inv_step {X : ℚ} {r1 fs : List ℕ} (hfs : ∀ d ∈ fs, d < 10) {st : BinSt} (m : ℕ) (h : Inv X r1 st (fv 10 fs)) :
    Inv X r1 ((digitsBE 2 m (mulPass 10 (2 ^ m) fs).2).foldl addBit st) (fv 10 ((mulPass 10 (2 ^ m) fs).1.rdropWhile (· = 0))) := by
  have h1 := mulPass_val (b := 10) (pm := 2 ^ m) (by norm_num) fs
  have h2 := mulPass_carry (b := 10) (pm := 2 ^ m) (by positivity) hfs
  apply addBits_inv (digitsBE_digits (by norm_num) h2)
  convert h using 1
  rw [fv_rdropWhile (by norm_num), digitsBE_fv (by norm_num) h2, digitsBE_length]
  push_cast at h1 ⊢
  rw [← add_div, ← h1]
  field_simp

/-- what the fraction loop leaves -/
theorem binLoop_spec {X : ℚ} {r1 : List ℕ} {fuel : ℕ} {fs : List ℕ} {st st' : BinSt} (hfs : ∀ d ∈ fs, d < 10)
    (h : Inv X r1 st (fv 10 fs)) (hr : binLoop fuel fs st = .ok st') :
    ∃ f : ℚ, 0 ≤ f ∧ f < 1 ∧ Inv X r1 st' f ∧ (f = 0 ∨ ∃ mx, st'.max = some mx ∧ 53 ≤ mx - st'.min) := by
  induction fuel generalizing fs st with
  | zero => simp [binLoop] at hr
  | succ fuel ih =>
    rw [binLoop] at hr
    by_cases h0 : fs = []
    · subst h0
      simp only [if_true, Except.ok.injEq] at hr
      subst hr
      exact ⟨0, le_rfl, by norm_num, h, Or.inl rfl⟩
    rw [if_neg h0] at hr
    have step : ∀ m, binLoop fuel ((mulPass 10 (2 ^ m) fs).1.rdropWhile (· = 0))
        ((digitsBE 2 m (mulPass 10 (2 ^ m) fs).2).foldl addBit st) = .ok st' →
        ∃ f : ℚ, 0 ≤ f ∧ f < 1 ∧ Inv X r1 st' f ∧ (f = 0 ∨ ∃ mx, st'.max = some mx ∧ 53 ≤ mx - st'.min) := by
      intro m hgo
      refine ih ?_ (mul_inv_step hfs m h) hgo
      exact fun d hd => mulPass_digits (by norm_num) fs d (mem_rdropWhile hd)
    cases hm : st.max with
    | none =>
      rw [hm] at hr
      exact step 16 hr
    | some mx =>
      rw [hm] at hr
      dsimp only at hr
      by_cases hc : 53 - (mx - st.min) ≤ 0
      · rw [if_pos hc] at hr
        simp only [Except.ok.injEq] at hr
        subst hr
        exact ⟨_, fv_nonneg _, fv_lt hfs, h, Or.inr ⟨mx, hm, by omega⟩⟩
      · rw [if_neg hc] at hr
        exact step _ hr

/-! the loop ends -/

theorem addBit_min (st : BinSt) (b : ℕ) : (addBit st b).min = st.min - 1 := by
  unfold addBit
  cases st.max with
  | some mx => rfl
  | none => dsimp only; split_ifs <;> rfl

theorem addBits_min (ds : List ℕ) (st : BinSt) : (ds.foldl addBit st).min = st.min - ds.length := by
  induction ds generalizing st with
  | nil => simp
  | cons d t ih => rw [List.foldl_cons, ih, addBit_min, List.length_cons]; push_cast; ring

theorem addBits_some (ds : List ℕ) {st : BinSt} {mx : ℤ} (h : st.max = some mx) : (ds.foldl addBit st).max = some mx := by
  induction ds generalizing st with
  | nil => exact h
  | cons d t ih =>
    rw [List.foldl_cons]
    apply ih
    unfold addBit
    rw [h]

theorem binLoop_some {fuel : ℕ} {fs : List ℕ} {st : BinSt} {mx : ℤ} (hm : st.max = some mx)
    (hf : (54 - (mx - st.min)).toNat + 1 ≤ fuel) : ∃ st', binLoop fuel fs st = .ok st' := by
  induction fuel generalizing fs st with
  | zero => omega
  | succ fuel ih =>
    rw [binLoop]
    by_cases h0 : fs = []
    · rw [if_pos h0]; exact ⟨_, rfl⟩
    rw [if_neg h0, hm]
    dsimp only
    by_cases hc : 53 - (mx - st.min) ≤ 0
    · rw [if_pos hc]; exact ⟨_, rfl⟩
    rw [if_neg hc]
    apply ih (addBits_some _ hm)
    rw [addBits_min, digitsBE_length]
    omega

/-- digits of zero without zeros at the end -/
theorem rdrop_nil {l : List ℕ} (h4 : fv 10 (l.rdropWhile (· = 0)) = 0) : l.rdropWhile (· = 0) = [] := by
  by_contra hne
  have h5 := List.rdropWhile_last_not (fun x : ℕ => decide (x = 0)) _ hne
  simp only [decide_eq_true_eq] at h5
  have h6 := List.dropLast_append_getLast hne
  rw [← h6, fv_append (by norm_num)] at h4
  have h7 := fv_nonneg (b := 10) (l.rdropWhile (· = 0)).dropLast
  have h8 : 0 < fv 10 [(l.rdropWhile (· = 0)).getLast hne] := by
    simp only [fv]
    have : (0 : ℚ) < ((l.rdropWhile (· = 0)).getLast hne : ℕ) := by
      exact_mod_cast Nat.pos_of_ne_zero h5
    positivity
  have h9 : 0 < fv 10 [(l.rdropWhile (· = 0)).getLast hne] / ((10 : ℕ) : ℚ) ^ (l.rdropWhile (· = 0)).dropLast.length :=
    div_pos h8 (by positivity)
  linarith

theorem mulPass_zero {fs : List ℕ} (hz : fv 10 fs = 0) (m : ℕ) :
    (mulPass 10 (2 ^ m) fs).1.rdropWhile (· = 0) = [] ∧ (mulPass 10 (2 ^ m) fs).2 = 0 := by
  have h1 := mulPass_val (b := 10) (pm := 2 ^ m) (by norm_num) fs
  rw [hz, mul_zero] at h1
  have h2 := fv_nonneg (b := 10) (mulPass 10 (2 ^ m) fs).1
  have h3 : (0 : ℚ) ≤ ((mulPass 10 (2 ^ m) fs).2 : ℕ) := Nat.cast_nonneg _
  refine ⟨rdrop_nil ?_, ?_⟩
  · rw [fv_rdropWhile (by norm_num)]; linarith
  · have : ((mulPass 10 (2 ^ m) fs).2 : ℚ) = 0 := by linarith
    exact_mod_cast this

theorem binLoop_zero {fuel : ℕ} {fs : List ℕ} {st : BinSt} (hz : fv 10 fs = 0) (hf : 2 ≤ fuel) :
    ∃ st', binLoop fuel fs st = .ok st' := by
  obtain ⟨f, rfl⟩ := Nat.exists_eq_add_of_le' hf
  rw [show f + 2 = (f + 1) + 1 from rfl, binLoop]
  by_cases h0 : fs = []
  · rw [if_pos h0]; exact ⟨_, rfl⟩
  rw [if_neg h0]
  have hgo : ∀ m st2, ∃ st', binLoop (f + 1) ((mulPass 10 (2 ^ m) fs).1.rdropWhile (· = 0)) st2 = .ok st' := by
    intro m st2
    rw [(mulPass_zero hz m).1, binLoop, if_pos rfl]; exact ⟨_, rfl⟩
  cases st.max with
  | none => exact hgo 16 _
  | some mx =>
    dsimp only
    split_ifs
    · exact ⟨_, rfl⟩
    · exact hgo _ _

/-- for a fraction consisting of zeros no bit is found -/
theorem binLoop_zeros {fuel : ℕ} {fs : List ℕ} {st : BinSt} (hm : st.max = none) (h0 : fs ≠ []) (hz : fv 10 fs = 0) :
    ∃ st', binLoop (fuel + 2) fs st = .ok st' ∧ st'.max = none ∧ st'.min = st.min - 16 := by
  rw [show fuel + 2 = (fuel + 1) + 1 from rfl, binLoop, if_neg h0, hm]
  dsimp only
  rw [(mulPass_zero hz 16).1, (mulPass_zero hz 16).2, binLoop, if_pos rfl]
  refine ⟨_, rfl, ?_, ?_⟩
  · have : digitsBE 2 16 0 = [0, 0, 0, 0, 0, 0, 0, 0, 0, 0, 0, 0, 0, 0, 0, 0] := by decide
    rw [this]
    simp [addBit, hm]
  · rw [addBits_min, digitsBE_length]; rfl

theorem addBits_none {ds : List ℕ} (hd : ∀ d ∈ ds, d < 2) {st : BinSt} (h : st.max = none) (h0 : vBE 2 ds ≠ 0) :
    ∃ mx, (ds.foldl addBit st).max = some mx ∧ st.min - ds.length ≤ mx := by
  induction ds generalizing st with
  | nil => simp [vBE] at h0
  | cons d t ih =>
    rw [List.foldl_cons]
    by_cases hd0 : d = 0
    · subst hd0
      have e : addBit st 0 = ⟨none, st.min - 1, []⟩ := by unfold addBit; rw [h]; simp
      obtain ⟨mx, h1, h2⟩ := ih (fun x hx => hd x (List.mem_cons_of_mem _ hx)) (st := addBit st 0) (by rw [e]) (by simpa [vBE] using h0)
      refine ⟨mx, h1, ?_⟩
      rw [e] at h2
      simp only at h2
      rw [List.length_cons]; push_cast; omega
    · have e : addBit st d = ⟨some (st.min - 1), st.min - 1, [d]⟩ := by unfold addBit; rw [h]; simp [hd0]
      refine ⟨st.min - 1, addBits_some t (by rw [e]), ?_⟩
      rw [List.length_cons]; push_cast; omega

theorem addBits_none' {ds : List ℕ} {st : BinSt} (h : st.max = none) (h0 : ∀ d ∈ ds, d = 0) :
    (ds.foldl addBit st).max = none := by
  induction ds generalizing st with
  | nil => exact h
  | cons d t ih =>
    rw [List.foldl_cons]
    apply ih _ fun x hx => h0 x (List.mem_cons_of_mem _ hx)
    unfold addBit
    rw [h, h0 d List.mem_cons_self]
    simp

theorem binLoop_none {fuel j : ℕ} {fs : List ℕ} {st : BinSt} (hfs : ∀ d ∈ fs, d < 10) (hm : st.max = none)
    (hj : fv 10 fs = 0 ∨ 1 ≤ fv 10 fs * 10 ^ j) (hf : j + 56 ≤ fuel) : ∃ st', binLoop fuel fs st = .ok st' := by
  induction fuel generalizing fs st j with
  | zero => omega
  | succ fuel ih =>
    rcases hj with hj | hj
    · exact binLoop_zero hj (by omega)
    rw [binLoop]
    by_cases h0 : fs = []
    · rw [if_pos h0]; exact ⟨_, rfl⟩
    rw [if_neg h0, hm]
    have h1 := mulPass_val (b := 10) (pm := 2 ^ 16) (by norm_num) fs
    have h2 := mulPass_carry (b := 10) (pm := 2 ^ 16) (by positivity) hfs
    have h3 := mulPass_digits (b := 10) (pm := 2 ^ 16) (by norm_num) fs
    have hdg := digitsBE_digits (B := 2) (by norm_num) h2
    dsimp only
    by_cases hc : (mulPass 10 (2 ^ 16) fs).2 = 0
    · have hz : ∀ d ∈ digitsBE 2 16 (mulPass 10 (2 ^ 16) fs).2, d = 0 := by rw [hc]; decide
      have hjp : j ≠ 0 := by
        rintro rfl
        have := fv_lt hfs
        simp at hj
        linarith
      obtain ⟨i, rfl⟩ := Nat.exists_eq_succ_of_ne_zero hjp
      apply ih (j := i) (fun d hd => h3 d (mem_rdropWhile hd)) (addBits_none' hm hz)
      · right
        rw [fv_rdropWhile (by norm_num)]
        rw [hc, Nat.cast_zero, zero_add] at h1
        rw [← h1]
        push_cast
        rw [pow_succ] at hj
        have : 0 ≤ fv 10 fs * 10 ^ i := mul_nonneg (fv_nonneg _) (by positivity)
        nlinarith
      · omega
    · obtain ⟨mx, m1, m2⟩ := addBits_none hdg hm (by rw [digitsBE_val]; simpa using hc)
      apply binLoop_some m1
      rw [addBits_min, digitsBE_length]
      rw [digitsBE_length] at m2
      omega

/-! ## the double -/

/-- the double `m` is an upper bound of `X` -/
def UpOf (m : D) (X : ℚ) : Prop :=
  match (m : Fl binary64) with
  | .fin q _ => X ≤ q
  | .pinf => True
  | _ => False

/-- the double `m` is a lower bound of `X` -/
def DnOf (m : D) (X : ℚ) : Prop :=
  match (m : Fl binary64) with
  | .fin q _ => q ≤ X
  | .ninf => True
  | _ => False

/-- away from zero or towards zero -/
def Grow (mode : RMode) (neg : Bool) : Prop := (mode = .up ∧ neg = false) ∨ (mode = .down ∧ neg = true)
def Shrink (mode : RMode) (neg : Bool) : Prop := (mode = .down ∧ neg = false) ∨ (mode = .up ∧ neg = true)

theorem away_of_grow {mode : RMode} {neg : Bool} (h : Grow mode neg) (t : ℕ) : away mode neg t = true := by
  rcases h with ⟨rfl, rfl⟩ | ⟨rfl, rfl⟩ <;> simp [away]

theorem away_of_shrink {mode : RMode} {neg : Bool} (h : Shrink mode neg) (t : ℕ) : away mode neg t = false := by
  rcases h with ⟨rfl, rfl⟩ | ⟨rfl, rfl⟩ <;> simp [away]

theorem rep64 {K : ℕ} {e mx : ℤ} {n : ℕ} (hK : K < 2 ^ n) (hn : n ≤ 53) (he : -1074 ≤ e) (hmx : mx = e + n - 1) (hm : mx ≤ 1023) :
    binary64.Rep ((K : ℚ) * 2 ^ e) := by
  have h53 : K < 2 ^ 53 := lt_of_lt_of_le hK (Nat.pow_le_pow_right (by norm_num) hn)
  have hp : binary64.p = 53 := rfl
  rcases le_or_gt e 971 with h | h
  · refine ⟨K, e, ?_, he, h, by push_cast; rfl⟩
    rw [hp, abs_of_nonneg (by positivity)]
    exact_mod_cast h53
  · obtain ⟨j, hj⟩ := Int.le.dest h.le
    refine ⟨(K * 2 ^ j : ℕ), 971, ?_, by decide, by decide, ?_⟩
    · rw [hp, abs_of_nonneg (by positivity)]
      have : K * 2 ^ j < 2 ^ 53 := by
        calc K * 2 ^ j < 2 ^ n * 2 ^ j := Nat.mul_lt_mul_of_pos_right hK (by positivity)
          _ = 2 ^ (n + j) := by rw [pow_add]
          _ ≤ 2 ^ 53 := Nat.pow_le_pow_right (by norm_num) (by omega)
      exact_mod_cast this
    · rw [← hj, zpow_add₀ (by norm_num), zpow_natCast]; push_cast; ring

theorem lit_fin {q : ℚ} (h : binary64.Rep q) : (lit q : D) = Hw.fin q h := Fl.round_of_rep .near h

theorem round_up_of {S X : ℚ} (hS : binary64.RepU S) (h0 : 0 ≤ S) (hX : X ≤ S) : UpOf (lit S) X := by
  by_cases hm : S ≤ binary64.maxQ
  · rw [lit_fin (Format.rep_of_repU hS (by rwa [abs_of_nonneg h0]))]
    exact hX
  · have h1 : binary64.roundQ .near S = S := hS.roundQ_eq .near
    have hS0 : 0 < S := lt_of_le_of_ne h0 (by rintro rfl; exact hm Format.maxQ_pos.le)
    have h2 : (Fl.round .near S : Fl binary64) = .pinf := by
      unfold Fl.round Fl.pack
      rw [dif_neg (by rw [h1, abs_of_nonneg h0]; exact hm), h1]
      simp [hS0, Fl.overflow]
    have h3 : (lit S : D) = dPinf := h2
    rw [h3]
    trivial

theorem rest_bounds {t : List ℕ} (ht : ∀ d ∈ t, d < 2) {f : ℚ} (h0 : 0 ≤ f) (h1 : f < 1) :
    0 ≤ fv 2 t + f / 2 ^ t.length ∧ fv 2 t + f / 2 ^ t.length < 1 := by
  refine ⟨add_nonneg (fv_nonneg t) (by positivity), ?_⟩
  induction t with
  | nil => simpa [fv] using h1
  | cons d t ih =>
    have h2 := ih fun x hx => ht x (List.mem_cons_of_mem _ hx)
    have h3 := ht d List.mem_cons_self
    have h4 : (d : ℚ) ≤ 1 := by exact_mod_cast Nat.lt_succ_iff.1 h3
    have e : fv 2 (d :: t) + f / 2 ^ (d :: t).length = (d + (fv 2 t + f / 2 ^ t.length)) / 2 := by
      rw [fv, List.length_cons, pow_succ]; push_cast; field_simp; ring
    rw [e]
    linarith

theorem lit_add_fin {R S : ℚ} (hR : binary64.Rep R) (hS : binary64.Rep S) :
    (Rop.add (Hw.fin R hR : D) (lit S : D) : D) = lit (R + S) := by
  rw [lit_fin hS]; rfl

theorem accum_cons (neg : Bool) (mode : RMode) (mx : ℤ) (b : ℕ) (t : List ℕ) (i : ℤ) (r : D) :
    accum neg mode mx (b :: t) i r = if mx - i = 53 ∨ i = -1075 then
      if away mode neg (if b = 0 then 0 else 5) then Rop.add r (lit (2 ^ (i + 1))) else r
    else accum neg mode mx t (i - 1) (Rop.add r (lit (b * 2 ^ i))) := rfl

theorem accum_spec {mode : RMode} {neg : Bool} {mx : ℤ} (hmx : mx ≤ 1023) {X f : ℚ} (hf0 : 0 ≤ f) (hf1 : f < 1)
    {t : List ℕ} (ht : ∀ d ∈ t, d < 2) {i : ℤ} {n K : ℕ} (hn : mx = i + n) (hn53 : n ≤ 53) (hi : -1075 ≤ i) (hK : K < 2 ^ n)
    {R : ℚ} (hRK : R = K * 2 ^ (i + 1)) (hR : binary64.Rep R)
    (hX : X = R + (fv 2 t + f / 2 ^ t.length) * 2 ^ (i + 1))
    (hfull : f = 0 ∨ i - t.length + 1 ≤ mx - 53) :
    (Grow mode neg → UpOf (accum neg mode mx t i (Hw.fin R hR)) X) ∧
    (Shrink mode neg → DnOf (accum neg mode mx t i (Hw.fin R hR)) X) := by
  induction t generalizing i n K R with
  | nil =>
    have hf : f = 0 := by
      rcases hfull with h | h
      · exact h
      · simp at h; omega
    have : X = R := by rw [hX, hf]; simp [fv]
    exact ⟨fun _ => this.le, fun _ => this.ge⟩
  | cons b t ih =>
    have hy := rest_bounds ht hf0 hf1
    have hp : (0 : ℚ) < 2 ^ (i + 1) := zpow_pos (by norm_num) _
    rw [accum_cons]
    by_cases hc : mx - i = 53 ∨ i = -1075
    · rw [if_pos hc]
      refine ⟨fun hg => ?_, fun hs => ?_⟩
      · rw [if_pos (away_of_grow hg _)]
        have hlit : binary64.Rep ((2 : ℚ) ^ (i + 1)) := by
          have := rep64 (K := 1) (e := i + 1) (n := 1) (mx := i + 1) (by norm_num) (by norm_num) (by omega) (by push_cast; ring) (by omega)
          simpa using this
        rw [lit_add_fin hR hlit]
        apply round_up_of
        · rw [hRK]
          have := Format.repU_of_le (F := binary64) (m := (K : ℤ) + 1) (e := i + 1) (by
            rw [abs_of_nonneg (by positivity)]
            have : K + 1 ≤ 2 ^ 53 := lt_of_lt_of_le hK (Nat.pow_le_pow_right (by norm_num) hn53)
            exact_mod_cast this) (by show (-1074 : ℤ) ≤ i + 1; omega)
          convert this using 1
          push_cast; ring
        · rw [hRK]; positivity
        · rw [hX]; nlinarith [hy.2]
      · rw [if_neg (by rw [away_of_shrink hs]; simp)]
        show R ≤ X
        rw [hX]
        have := mul_nonneg hy.1 hp.le
        linarith
    · rw [if_neg hc]
      push Not at hc
      have hb := ht b List.mem_cons_self
      have hz : (2 : ℚ) ^ (i + 1) = 2 * 2 ^ i := by rw [zpow_add₀ (by norm_num), zpow_one]; ring
      have hlit : binary64.Rep ((b : ℚ) * 2 ^ i) :=
        rep64 (K := b) (e := i) (n := 1) (mx := i) (by omega) (by norm_num) (by omega) (by push_cast; ring) (by omega)
      have hsum : R + (b : ℚ) * 2 ^ i = ((2 * K + b : ℕ) : ℚ) * 2 ^ i := by rw [hRK, hz]; push_cast; ring
      have hK' : 2 * K + b < 2 ^ (n + 1) := by rw [pow_succ]; omega
      have hrep : binary64.Rep (R + (b : ℚ) * 2 ^ i) := by
        rw [hsum]
        exact rep64 (n := n + 1) (mx := mx) hK' (by omega) (by omega) (by push_cast; omega) hmx
      rw [lit_add_fin hR hlit, lit_fin hrep]
      apply ih (fun x hx => ht x (List.mem_cons_of_mem _ hx)) (i := i - 1) (n := n + 1) (K := 2 * K + b)
      · push_cast; omega
      · omega
      · omega
      · exact hK'
      · rw [hsum, sub_add_cancel]
      · rw [hX, fv, List.length_cons, sub_add_cancel, hz, pow_succ]
        push_cast
        field_simp
        ring
      · rcases hfull with h | h
        · exact Or.inl h
        · right
          rw [List.length_cons] at h
          push_cast at h
          omega

end Conv
end Kv
