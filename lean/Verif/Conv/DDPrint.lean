import Verif.Conv.DDModel
import Verif.Conv.Size

/-!
# The bits and digits found by `ddtostring`
-/

namespace Kv
namespace Conv

/-- the value of a sequence of bits -/
def Bin.val (x : Bin) : ℚ := fv 2 x.bits * 2 ^ (x.emax + 1)

def Bin.Bits (x : Bin) : Prop := ∀ d ∈ x.bits, d < 2

theorem decOf_spec {x : Bin} (hld' : x.Bits) {q : ℚ} (hv : x.val = q) :
    (decOf x).val = q ∧ (decOf x).Digits ∧ (decOf x).min ≤ 0 ∧ 0 ≤ (decOf x).max := by
  obtain ⟨ex, l⟩ := x
  have hld : ∀ d ∈ l, d < 2 := hld'
  have hl : fv 2 l = q / 2 ^ (ex + 1) := by
    rw [← hv, Bin.val, mul_div_cancel_right₀]
    exact zpow_ne_zero _ (by norm_num)
  unfold decOf
  dsimp only
  have hfb : (∀ d ∈ (if ex < 0 then List.replicate (-1 - ex).toNat 0 ++ l else l.drop (ex + 1).toNat), d < 2) := by
    intro d hd
    split_ifs at hd
    · rcases List.mem_append.1 hd with h | h
      · rw [List.eq_of_mem_replicate h]; norm_num
      · exact hld d h
    · exact hld d (List.mem_of_mem_drop hd)
  have hib : (∀ d ∈ (if ex < 0 then [0] else (l ++ List.replicate ((ex + 1).toNat - l.length) 0).take (ex + 1).toNat), d < 2) := by
    intro d hd
    split_ifs at hd
    · rw [List.mem_singleton.1 hd]; norm_num
    · rcases List.mem_append.1 (List.mem_of_mem_take hd) with h | h
      · exact hld d h
      · rw [List.eq_of_mem_replicate h]; norm_num
  have hne : (if ex < 0 then [0] else (l ++ List.replicate ((ex + 1).toNat - l.length) 0).take (ex + 1).toNat) ≠ [] := by
    split_ifs with h
    · simp
    · intro h2
      have h3 := congrArg List.length h2
      simp only [List.length_take, List.length_append, List.length_replicate, List.length_nil] at h3
      omega
  have hsum : (vBE 2 (if ex < 0 then [0] else (l ++ List.replicate ((ex + 1).toNat - l.length) 0).take (ex + 1).toNat) : ℚ)
      + fv 2 (if ex < 0 then List.replicate (-1 - ex).toNat 0 ++ l else l.drop (ex + 1).toNat) = q := by
    by_cases h : ex < 0
    · rw [if_pos h, if_pos h, fv_append (by norm_num), fv_replicate, hl]
      have : (2 : ℚ) ^ (ex + 1) * 2 ^ (-1 - ex).toNat = 1 := by
        rw [← zpow_natCast, ← zpow_add₀ (by norm_num), Int.toNat_of_nonneg (by omega)]
        ring_nf; norm_num
      simp only [vBE, List.length_replicate, List.length_nil]
      push_cast
      rw [div_div, this]
      norm_num
    · rw [if_neg h, if_neg h]
      set k := (ex + 1).toNat with hkk
      have hk2 : ((2 : ℚ) ^ (ex + 1)) = 2 ^ k := by
        rw [← zpow_natCast, hkk, Int.toNat_of_nonneg (by omega)]
      rw [hk2] at hl
      set l' := l ++ List.replicate (k - l.length) 0 with hl'
      have e1 : fv 2 l' = fv 2 l := by
        rw [hl', fv_append (by norm_num), fv_replicate]; simp
      have e2 : l'.drop k = l.drop k := by
        rw [hl', List.drop_append]
        simp
      have e3 := fv_append (b := 2) (by norm_num) (l'.take k) (l'.drop k)
      have e4 : (l'.take k).length = k := by
        rw [List.length_take, hl', List.length_append, List.length_replicate]
        omega
      have e5 := fv_eq (b := 2) (by norm_num) (l'.take k)
      rw [e4] at e3 e5
      rw [List.take_append_drop, e1, hl, e2] at e3
      rw [← e5]
      push_cast at e3 ⊢
      field_simp at e3 ⊢
      linarith
  generalize (if ex < 0 then [0] else (l ++ List.replicate ((ex + 1).toNat - l.length) 0).take (ex + 1).toNat) = ib at *
  generalize (if ex < 0 then List.replicate (-1 - ex).toNat 0 ++ l else l.drop (ex + 1).toNat) = fb at *
  have h1 := intLoop_val (b := 2) (B := 10) (by norm_num) mDec_pos (fuel := ib.length) (ds := ib) (vBE_lt hib)
  have h1d := intLoop_digits (b := 2) (B := 10) (by norm_num) (mOf := mDec) (fuel := ib.length) (ds := ib)
  have h1n := intLoop_ne_nil (b := 2) (B := 10) mDec_pos hne (List.length_pos_iff.2 hne)
  obtain ⟨h2, h2d⟩ := fracLoop_spec (le_refl fb.length) hfb
  generalize intLoop 2 10 mDec ib.length ib = r1 at *
  generalize fracLoop fb.length fb = r2 at *
  refine ⟨?_, ?_, ?_, ?_⟩
  · rw [Dec.val]
    rw [Nat.ofDigits_append, List.length_reverse, h1, Nat.cast_add, Nat.cast_mul, Nat.cast_pow, ofDigits_reverse, h2, ← hsum, zpow_neg, zpow_natCast, Nat.cast_ofNat]
    field_simp
    ring
  · intro d hd
    rcases List.mem_append.1 hd with h | h
    · exact h2d d (List.mem_reverse.1 h)
    · exact h1d d h
  · omega
  · have := List.length_pos_iff.2 h1n
    simp only [Dec.max, List.length_append, List.length_reverse]
    push_cast
    omega


theorem decOf_len (x : Bin) : (decOf x).ds.length ≤ 8 * (x.bits.length + (-x.emax).toNat) + 5 * ((x.emax + 1).toNat + 1) := by
  obtain ⟨ex, l⟩ := x
  unfold decOf
  dsimp only
  rw [List.length_append, List.length_reverse]
  refine (add_le_add (fracLoop_len _ _) (intLoop_len mDec_le _ _)).trans ?_
  by_cases hx : ex < 0
  · rw [if_pos hx, if_pos hx]
    simp only [List.length_append, List.length_replicate, List.length_singleton]
    omega
  · rw [if_neg hx, if_neg hx]
    simp only [List.length_drop, List.length_take, List.length_append, List.length_replicate]
    omega

/-! ## the bits of one component -/

theorem log_bounds {q : ℚ} (hq : 0 < q) (hr : binary64.Rep q) : -1075 ≤ Int.log 2 q ∧ Int.log 2 q ≤ 1024 := by
  have hlo : (2 : ℚ) ^ Int.log 2 q ≤ q := by exact_mod_cast Int.zpow_log_le_self (b := 2) (by norm_num) hq
  have hhi : q < (2 : ℚ) ^ (Int.log 2 q + 1) := by exact_mod_cast Int.lt_zpow_succ_log_self (b := 2) (by norm_num) q
  have h1 : Int.log 2 q ≤ 1024 := by
    have := hlo.trans ((le_abs_self q).trans (hr.abs_le.trans maxQ_lt))
    exact (zpow_le_zpow_iff_right₀ (by norm_num : (1 : ℚ) < 2)).1 this
  refine ⟨?_, h1⟩
  have : (2 : ℚ) ^ (-1074 : ℤ) < 2 ^ (Int.log 2 q + 1) := by
    refine lt_of_le_of_lt ?_ hhi
    obtain ⟨m, e, hm, he, -, rfl⟩ := hr
    have hm0 : 1 ≤ m := by
      by_contra hc
      have : (m : ℚ) ≤ 0 := by exact_mod_cast (by omega : m ≤ 0)
      exact absurd hq (not_lt.2 (mul_nonpos_of_nonpos_of_nonneg this (zpow_nonneg (by norm_num) _)))
    calc (2 : ℚ) ^ (-1074 : ℤ) ≤ 2 ^ e := zpow_le_zpow_right₀ (by norm_num) he
      _ = 1 * 2 ^ e := (one_mul _).symm
      _ ≤ m * 2 ^ e := mul_le_mul_of_nonneg_right (by exact_mod_cast hm0) (zpow_nonneg (by norm_num) _)
  have := (zpow_lt_zpow_iff_right₀ (by norm_num : (1 : ℚ) < 2)).1 this
  omega

theorem toBin_spec {q : ℚ} (hq : 0 < q) (hr : binary64.Rep q) : (toBin q).val = q ∧ (toBin q).Bits ∧ (toBin q).bits.length ≤ 53 := by
  have hlo : (2 : ℚ) ^ Int.log 2 q ≤ q := by exact_mod_cast Int.zpow_log_le_self (b := 2) (by norm_num) hq
  have hhi : q < (2 : ℚ) ^ (Int.log 2 q + 1) := by exact_mod_cast Int.lt_zpow_succ_log_self (b := 2) (by norm_num) q
  unfold toBin Bin.val Bin.Bits
  dsimp only
  generalize hex : Int.log 2 q = ex at *
  have hk : ∃ k : ℤ, q = k * 2 ^ (ex + 1 - ((53 : ℕ) : ℤ)) := by
    obtain ⟨m, e, hm, he, -, rfl⟩ := hr
    have h1 : (m : ℚ) * 2 ^ e < 2 ^ (53 + e) := by
      have : (m : ℚ) < 2 ^ (53 : ℤ) := by
        have h2 : m < 2 ^ 53 := lt_of_le_of_lt (le_abs_self m) hm
        exact_mod_cast h2
      rw [zpow_add₀ (by norm_num)]
      exact mul_lt_mul_of_pos_right this (zpow_pos (by norm_num) _)
    have h2 : ex < 53 + e := (zpow_lt_zpow_iff_right₀ (by norm_num : (1 : ℚ) < 2)).1 (lt_of_le_of_lt hlo h1)
    obtain ⟨n, hn⟩ := Int.le.dest (show ex + 1 - 53 ≤ e by omega)
    refine ⟨m * 2 ^ n, ?_⟩
    rw [← hn, zpow_add₀ (by norm_num)]
    push_cast
    rw [zpow_natCast]
    ring
  obtain ⟨hl, hld⟩ := bitLoop_spec (n := 53) hq.le hhi hk
  refine ⟨?_, hld, bitLoop_len 53 q ex⟩
  rw [hl, div_mul_cancel₀]
  exact zpow_ne_zero _ (by norm_num)

/-! ## adding the second component -/

theorem ofDigits2_lt {l : List ℕ} (h : ∀ d ∈ l, d < 2) : Nat.ofDigits 2 l < 2 ^ l.length := by
  rw [← vBE_reverse, ← List.length_reverse]
  exact vBE_lt fun d hd => h d (List.mem_reverse.1 hd)

theorem addBuf_ok (s : ℤ) {t u : List ℕ} (c : ℤ) (h : u.length ≤ t.length) : ∃ r, addBuf s t u c = .ok r := by
  induction t generalizing u c with
  | nil =>
    have : u = [] := List.length_eq_zero_iff.1 (by simpa using h)
    subst this
    exact ⟨_, rfl⟩
  | cons b t ih =>
    cases u with
    | nil =>
      rw [addBuf]
      by_cases hc : c = 0
      · rw [if_pos hc]; exact ⟨_, rfl⟩
      · rw [if_neg hc]
        obtain ⟨r, hr⟩ := ih (u := []) (((b : ℤ) + c) / 2) (by simp)
        dsimp only
        rw [hr]; exact ⟨_, rfl⟩
    | cons d u =>
      rw [addBuf]
      obtain ⟨r, hr⟩ := ih (u := u) (((b : ℤ) + s * d + c) / 2) (by simpa using h)
      rw [hr]; exact ⟨_, rfl⟩

theorem od_cons (d : ℕ) (l : List ℕ) : ((Nat.ofDigits 2 (d :: l) : ℕ) : ℤ) = d + 2 * (Nat.ofDigits 2 l : ℕ) := by
  rw [Nat.ofDigits_cons, Nat.cast_add, Nat.cast_mul, Nat.cast_ofNat]

theorem od_nil : ((Nat.ofDigits 2 ([] : List ℕ) : ℕ) : ℤ) = 0 := rfl

theorem addBuf_val (s : ℤ) {t u r : List ℕ} {c : ℤ} (ht : ∀ d ∈ t, d < 2) (h : addBuf s t u c = .ok r) :
    (∃ c' : ℤ, ((Nat.ofDigits 2 r : ℕ) : ℤ) + 2 ^ t.length * c' = (Nat.ofDigits 2 t : ℕ) + s * (Nat.ofDigits 2 u : ℕ) + c) ∧
    (∀ d ∈ r, d < 2) ∧ r.length = t.length := by
  induction t generalizing u c r with
  | nil =>
    cases u with
    | nil =>
      simp only [addBuf, Except.ok.injEq] at h
      subst h
      exact ⟨⟨c, by rw [od_nil]; simp⟩, by simp, rfl⟩
    | cons d u => simp [addBuf] at h
  | cons b t ih =>
    have ht' : ∀ d ∈ t, d < 2 := fun d hd => ht d (List.mem_cons_of_mem _ hd)
    have step : ∀ (tmp : ℤ) (r' : List ℕ) (U : ℤ), r = (tmp - tmp / 2 * 2).toNat :: r' →
        (∃ c' : ℤ, ((Nat.ofDigits 2 r' : ℕ) : ℤ) + 2 ^ t.length * c' = (Nat.ofDigits 2 t : ℕ) + s * U + tmp / 2) →
        (∀ d ∈ r', d < 2) → r'.length = t.length →
        (∃ c' : ℤ, ((Nat.ofDigits 2 r : ℕ) : ℤ) + 2 ^ (b :: t).length * c' = 2 * (Nat.ofDigits 2 t : ℕ) + s * (2 * U) + tmp) ∧
        (∀ d ∈ r, d < 2) ∧ r.length = (b :: t).length := by
      rintro tmp r' U rfl ⟨c', hc'⟩ h2 h3
      have e : (((tmp - tmp / 2 * 2).toNat : ℕ) : ℤ) = tmp - tmp / 2 * 2 := Int.toNat_of_nonneg (by omega)
      refine ⟨⟨c', ?_⟩, ?_, by simp [h3]⟩
      · rw [od_cons, List.length_cons, pow_succ]
        linear_combination 2 * hc' + e
      · intro d hd
        rcases List.mem_cons.1 hd with rfl | hd
        · omega
        · exact h2 d hd
    cases u with
    | nil =>
      rw [addBuf] at h
      by_cases hc : c = 0
      · rw [if_pos hc] at h
        simp only [Except.ok.injEq] at h
        subst h
        exact ⟨⟨0, by rw [od_nil, hc]; ring⟩, ht, rfl⟩
      · rw [if_neg hc] at h
        dsimp only at h
        obtain ⟨r', h1, h2⟩ := bind_ok.1 h
        simp only [Except.ok.injEq] at h2
        obtain ⟨i1, i2, i3⟩ := ih ht' h1
        obtain ⟨⟨c', j1⟩, j2, j3⟩ := step _ r' 0 h2.symm i1 i2 i3
        refine ⟨⟨c', ?_⟩, j2, j3⟩
        rw [j1, od_cons, od_nil]; ring
    | cons d u =>
      rw [addBuf] at h
      obtain ⟨r', h1, h2⟩ := bind_ok.1 h
      simp only [Except.ok.injEq] at h2
      obtain ⟨i1, i2, i3⟩ := ih ht' h1
      obtain ⟨⟨c', j1⟩, j2, j3⟩ := step _ r' (Nat.ofDigits 2 u : ℕ) h2.symm i1 i2 i3
      refine ⟨⟨c', ?_⟩, j2, j3⟩
      rw [j1, od_cons, od_cons]; ring

theorem Bin.val_eq (x : Bin) : x.val = (Nat.ofDigits 2 x.bits.reverse : ℕ) * 2 ^ x.emin := by
  have h := fv_eq (b := 2) (by norm_num) x.bits
  rw [← vBE_reverse, List.reverse_reverse, ← h, Bin.val, Bin.emin]
  have : (2 : ℚ) ^ (x.emax + 1) = 2 ^ x.bits.length * 2 ^ (x.emax - x.bits.length + 1) := by
    rw [← zpow_natCast, ← zpow_add₀ (by norm_num)]; congr 1; ring
  rw [this]
  push_cast
  ring

theorem ofDigits2_zeros (n : ℕ) (l : List ℕ) : Nat.ofDigits 2 (List.replicate n 0 ++ l) = 2 ^ n * Nat.ofDigits 2 l := by
  induction n with
  | zero => simp
  | succ n ih => rw [List.replicate_succ, List.cons_append, Nat.ofDigits_cons, ih, pow_succ]; push_cast; ring

theorem ofDigits2_rdrop (l : List ℕ) : Nat.ofDigits 2 (l.rdropWhile (· = 0)) = Nat.ofDigits 2 l := by
  induction l using List.reverseRecOn with
  | nil => rfl
  | append_singleton l a ih =>
    by_cases h : a = 0
    · subst h
      rw [List.rdropWhile_concat_pos _ _ _ (by simp), ih, Nat.ofDigits_append]; simp
    · rw [List.rdropWhile_concat_neg _ _ _ (by simpa using h)]

theorem carry_zero {s W P X Y c : ℤ} (hs : s = 1 ∨ s = -1) (hP : 0 < P) (hY : 0 ≤ Y) (h1 : Y < X) (h2 : X < P) (h3 : 0 ≤ W)
    (h4 : W < 2 * P) (h : W + 2 * P * c = X + s * Y) : c = 0 := by
  have hlo : 0 < X + s * Y := by rcases hs with rfl | rfl <;> linarith
  have hhi : X + s * Y < 2 * P := by rcases hs with rfl | rfl <;> linarith
  rcases lt_trichotomy c 0 with hc | hc | hc
  · have : P * c ≤ P * (-1) := mul_le_mul_of_nonneg_left (by omega) hP.le
    linarith
  · exact hc
  · have : P * 1 ≤ P * c := mul_le_mul_of_nonneg_left (by omega) hP.le
    linarith

/-- the sum or difference of two sequences of bits -/
theorem addBin_spec {s : ℤ} (hs : s = 1 ∨ s = -1) {x y : Bin} (hx : x.Bits) (hy : y.Bits) (he : y.emax ≤ x.emax)
    (hy0 : 0 ≤ y.val) (hlt : y.val < x.val) :
    ∃ z, addBin s x y = .ok z ∧ z.val = x.val + s * y.val ∧ z.Bits ∧ z.emax ≤ x.emax + 1 ∧ min x.emin y.emin = z.emin := by
  have hex : x.emax = x.emin + x.bits.length - 1 := by unfold Bin.emin; ring
  have hey : y.emax = y.emin + y.bits.length - 1 := by unfold Bin.emin; ring
  unfold addBin
  dsimp only
  obtain ⟨em, hem⟩ : ∃ em, em = min x.emin y.emin := ⟨_, rfl⟩
  rw [← hem]
  have em1 : em ≤ x.emin := hem ▸ min_le_left _ _
  have em2 : em ≤ y.emin := hem ▸ min_le_right _ _
  obtain ⟨A, hA⟩ := Int.eq_ofNat_of_zero_le (show 0 ≤ x.emin - em by omega)
  obtain ⟨k, hk⟩ := Int.eq_ofNat_of_zero_le (show 0 ≤ y.emin - em by omega)
  rw [hA, hk, Int.toNat_natCast, Int.toNat_natCast]
  obtain ⟨buf, hbuf⟩ : ∃ buf, buf = List.replicate A 0 ++ x.bits.reverse ++ [0] := ⟨_, rfl⟩
  rw [← hbuf]
  have hblen : buf.length = A + x.bits.length + 1 := by rw [hbuf]; simp; omega
  have hbval : Nat.ofDigits 2 buf = 2 ^ A * Nat.ofDigits 2 x.bits.reverse := by
    rw [hbuf, Nat.ofDigits_append, ofDigits2_zeros]; simp
  have hbd : ∀ d ∈ buf, d < 2 := by
    intro d hd
    rw [hbuf] at hd
    rcases List.mem_append.1 hd with hd | hd
    · rcases List.mem_append.1 hd with hd | hd
      · rw [List.eq_of_mem_replicate hd]; norm_num
      · exact hx d (List.mem_reverse.1 hd)
    · rw [List.mem_singleton.1 hd]; norm_num
  have hkl : k ≤ buf.length := by omega
  obtain ⟨r, hr⟩ := addBuf_ok s (t := buf.drop k) (u := y.bits.reverse) 0 (by
    rw [List.length_drop, List.length_reverse]; omega)
  rw [hr]
  simp only [bind, Except.bind]
  obtain ⟨⟨c', v1⟩, v2, v3⟩ := addBuf_val s (fun d hd => hbd d (List.mem_of_mem_drop hd)) hr
  -- the number
  obtain ⟨w, hw⟩ : ∃ w, w = buf.take k ++ r := ⟨_, rfl⟩
  rw [← hw]
  have htk : (buf.take k).length = k := by rw [List.length_take]; omega
  have hwl : w.length = buf.length := by rw [hw, List.length_append, htk, v3, List.length_drop]; omega
  have hwd : ∀ d ∈ w, d < 2 := by
    intro d hd
    rw [hw] at hd
    rcases List.mem_append.1 hd with hd | hd
    · exact hbd d (List.mem_of_mem_take hd)
    · exact v2 d hd
  have hwv : Nat.ofDigits 2 w = Nat.ofDigits 2 (buf.take k) + 2 ^ k * Nat.ofDigits 2 r := by
    rw [hw, Nat.ofDigits_append, htk]
  have hbv : Nat.ofDigits 2 buf = Nat.ofDigits 2 (buf.take k) + 2 ^ k * Nat.ofDigits 2 (buf.drop k) := by
    conv_lhs => rw [← List.take_append_drop k buf]
    rw [Nat.ofDigits_append, htk]
  have hX := x.val_eq
  have hY := y.val_eq
  generalize hxn : Nat.ofDigits 2 x.bits.reverse = xn at *
  generalize hyn : Nat.ofDigits 2 y.bits.reverse = yn at *
  have hxlt : xn < 2 ^ x.bits.length := by
    rw [← hxn, ← List.length_reverse]
    exact ofDigits2_lt fun d hd => hx d (List.mem_reverse.1 hd)
  have total : ((Nat.ofDigits 2 w : ℕ) : ℤ) + 2 ^ buf.length * c' = 2 ^ A * xn + s * (2 ^ k * yn) := by
    have e1 : (2 : ℤ) ^ buf.length = 2 ^ k * 2 ^ (buf.drop k).length := by
      rw [← pow_add, List.length_drop]; congr 1; omega
    have e2 : ((Nat.ofDigits 2 buf : ℕ) : ℤ) = 2 ^ A * xn := by rw [hbval]; push_cast; ring
    have e3 : ((Nat.ofDigits 2 buf : ℕ) : ℤ) = (Nat.ofDigits 2 (buf.take k) : ℕ) + 2 ^ k * (Nat.ofDigits 2 (buf.drop k) : ℕ) := by
      rw [hbv]; push_cast; ring
    rw [hwv, e1, Nat.cast_add, Nat.cast_mul, Nat.cast_pow, Nat.cast_ofNat]
    linear_combination 2 ^ k * v1 + e2 - e3
  have p1 : (2 : ℚ) ^ x.emin = 2 ^ A * 2 ^ em := by
    rw [← zpow_natCast, ← zpow_add₀ (by norm_num)]; congr 1; omega
  have p2 : (2 : ℚ) ^ y.emin = 2 ^ k * 2 ^ em := by
    rw [← zpow_natCast, ← zpow_add₀ (by norm_num)]; congr 1; omega
  have pem : (0 : ℚ) < 2 ^ em := zpow_pos (by norm_num) _
  have hnlt : 2 ^ k * yn < 2 ^ A * xn := by
    rw [hX, hY, p1, p2] at hlt
    have h1 : (2 ^ k * yn : ℚ) * 2 ^ em < (2 ^ A * xn) * 2 ^ em := by linarith
    have h2 := lt_of_mul_lt_mul_right h1 pem.le
    exact_mod_cast h2
  have hnlt' : 2 ^ A * xn < 2 ^ (buf.length - 1) := by
    rw [hblen, Nat.add_sub_cancel, pow_add]
    exact Nat.mul_lt_mul_of_pos_left hxlt (by positivity)
  have hpw : 2 ^ buf.length = 2 * 2 ^ (buf.length - 1) := by
    rw [← pow_succ']; congr 1; omega
  have hwlt := ofDigits2_lt hwd
  rw [hwl] at hwlt
  have hc0 : c' = 0 := by
    have a1 : (2 ^ k * yn : ℤ) < 2 ^ A * xn := by exact_mod_cast hnlt
    have a2 : (2 ^ A * xn : ℤ) < 2 ^ (buf.length - 1) := by exact_mod_cast hnlt'
    have a3 : (2 : ℤ) ^ buf.length = 2 * 2 ^ (buf.length - 1) := by exact_mod_cast hpw
    have a4 : ((Nat.ofDigits 2 w : ℕ) : ℤ) < 2 ^ buf.length := by exact_mod_cast hwlt
    have a5 : (0 : ℤ) ≤ (Nat.ofDigits 2 w : ℕ) := by positivity
    have a6 : (0 : ℤ) ≤ 2 ^ k * yn := by positivity
    have a7 : (0 : ℤ) < 2 ^ (buf.length - 1) := by positivity
    exact carry_zero hs a7 a6 a1 a2 a5 (by rw [← a3]; exact a4) (by rw [← a3]; exact total)
  rw [hc0, mul_zero, add_zero] at total
  have hpos : 0 < Nat.ofDigits 2 w := by
    have a1 : (2 ^ k * yn : ℤ) < 2 ^ A * xn := by exact_mod_cast hnlt
    have a6 : (0 : ℤ) ≤ 2 ^ k * yn := by positivity
    have : (0 : ℤ) < (Nat.ofDigits 2 w : ℕ) := by rw [total]; rcases hs with rfl | rfl <;> linarith
    exact_mod_cast this
  have hne : w.rdropWhile (· = 0) ≠ [] := by
    intro h
    have := ofDigits2_rdrop w
    rw [h] at this
    simp at this
    omega
  rw [if_neg hne]
  have hrl : (w.rdropWhile (· = 0)).length ≤ w.length := (List.rdropWhile_prefix _ _).length_le
  have hemin : Bin.emin ⟨em + (w.rdropWhile (· = 0)).length - 1, (w.rdropWhile (· = 0)).reverse⟩ = em := by
    unfold Bin.emin; rw [List.length_reverse]; ring
  refine ⟨_, rfl, ?_, ?_, ?_, hemin.symm⟩
  · rw [Bin.val_eq, hemin]
    dsimp only
    rw [List.reverse_reverse, ofDigits2_rdrop]
    have : ((Nat.ofDigits 2 w : ℕ) : ℚ) = 2 ^ A * xn + s * (2 ^ k * yn) := by
      have h := congrArg (fun z : ℤ => (z : ℚ)) total
      simp only [Int.cast_natCast, Int.cast_add, Int.cast_mul, Int.cast_pow, Int.cast_ofNat] at h
      exact h
    rw [this, hX, hY, p1, p2]
    ring
  · intro d hd
    exact hwd d (mem_rdropWhile (List.mem_reverse.1 hd))
  · dsimp only
    omega

/-- all bits of the sum of the components -/
theorem ddBits_spec {q1 q2 : ℚ} (h1 : binary64.Rep q1) (h2 : binary64.Rep q2) (hlt : |q2| < |q1|) :
    ∃ z, ddBits q1 q2 = .ok z ∧ z.val = |q1 + q2| ∧ z.Bits ∧ (decOf z).ds.length ≤ 100000 := by
  have rabs : ∀ {q : ℚ}, binary64.Rep q → binary64.Rep |q| := by
    intro q h
    rcases abs_choice q with e | e <;> rw [e]
    · exact h
    · exact h.neg
  have hp1 : 0 < |q1| := lt_of_le_of_lt (abs_nonneg _) hlt
  obtain ⟨a1, a2, a3⟩ := toBin_spec hp1 (rabs h1)
  obtain ⟨b1, b2⟩ := log_bounds hp1 (rabs h1)
  have ea : (toBin |q1|).emax = Int.log 2 |q1| := rfl
  unfold ddBits
  by_cases h0 : q2 = 0
  · rw [if_pos h0]
    refine ⟨_, rfl, by rw [a1, h0, add_zero], a2, (decOf_len _).trans ?_⟩
    omega
  rw [if_neg h0]
  have hp2 : 0 < |q2| := abs_pos.2 h0
  obtain ⟨c1, c2, c3⟩ := toBin_spec hp2 (rabs h2)
  obtain ⟨d1, d2⟩ := log_bounds hp2 (rabs h2)
  have ec : (toBin |q2|).emax = Int.log 2 |q2| := rfl
  have hle : (toBin |q2|).emax ≤ (toBin |q1|).emax := Int.log_mono_right hp2 hlt.le
  obtain ⟨z, z1, z2, z3, z4, z5⟩ := addBin_spec (s := if (q1 < 0) = (q2 < 0) then 1 else -1)
    (by split_ifs <;> simp) a2 c2 hle (by rw [c1]; exact hp2.le) (by rw [a1, c1]; exact hlt)
  refine ⟨z, z1, ?_, z3, (decOf_len _).trans ?_⟩
  · rw [z2, a1, c1]
    rcases lt_or_ge q1 0 with n1 | n1 <;> rcases lt_or_ge q2 0 with n2 | n2
    · rw [if_pos (by simp [n1, n2]), abs_of_neg n1, abs_of_neg n2, abs_of_neg (by linarith)]; push_cast; ring
    · have : |q2| = q2 := abs_of_nonneg n2
      rw [abs_of_neg n1, this] at hlt
      rw [if_neg (by simp [n1, not_lt.2 n2]), abs_of_neg n1, this, abs_of_neg (by linarith)]; push_cast; ring
    · have : |q1| = q1 := abs_of_nonneg n1
      rw [abs_of_neg n2, this] at hlt
      rw [if_neg (by simp [n2, not_lt.2 n1]), abs_of_neg n2, this, abs_of_nonneg (by linarith)]; push_cast; ring
    · rw [if_pos (by simp [not_lt.2 n1, not_lt.2 n2]), abs_of_nonneg n1, abs_of_nonneg n2, abs_of_nonneg (by linarith)]; push_cast; ring
  · have e1 : z.emin = z.emax - z.bits.length + 1 := rfl
    have e2 : (toBin |q1|).emin = (toBin |q1|).emax - (toBin |q1|).bits.length + 1 := rfl
    have e3 : (toBin |q2|).emin = (toBin |q2|).emax - (toBin |q2|).bits.length + 1 := rfl
    omega

end Conv
end Kv
