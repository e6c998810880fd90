import Verif.Conv.Dec

/-!
# `dtostring` prints a decimal literal rounded in the right direction
-/

namespace Kv
namespace Conv

theorem digit_eq {d : ℕ} (h : d < 10) :
    ['0', '1', '2', '3', '4', '5', '6', '7', '8', '9'].getD d '?' = digit d := by
  interval_cases d <;> rfl

theorem digitChars_eq {l : List ℕ} (h : ∀ d ∈ l, d < 10) : digitChars l = l.map digit := by
  unfold digitChars
  exact List.map_congr_left fun d hd => digit_eq (h d hd)

theorem foldl_dec (l : List ℕ) (a : ℕ) : l.foldl (fun a d => 10 * a + d) a = a * 10 ^ l.length + vBE 10 l := by
  induction l generalizing a with
  | nil => simp [vBE]
  | cons d t ih => rw [List.foldl_cons, ih, vBE, List.length_cons, pow_succ]; ring

theorem decNat_eq (l : List ℕ) : decNat l = vBE 10 l := by
  rw [decNat, foldl_dec]; simp

/-! ## cutting zeros -/

theorem delTailF_spec (ds : List ℕ) (i : ℤ) :
    (delTailF ds i).val = (Dec.mk ds i).val ∧ (delTailF ds i).max = i + ds.length - 1 ∧ (i ≤ 0 → (delTailF ds i).min ≤ 0) ∧
    ∀ d ∈ (delTailF ds i).ds, d ∈ ds := by
  induction ds generalizing i with
  | nil => exact ⟨rfl, rfl, fun h => h, fun d h => h⟩
  | cons d t ih =>
    rw [delTailF]
    by_cases h : i < 0 ∧ d = 0
    · rw [if_pos h]
      obtain ⟨a1, a2, a3, a4⟩ := ih (i + 1)
      obtain ⟨h1, rfl⟩ := h
      refine ⟨?_, ?_, fun _ => a3 (by omega), fun d hd => List.mem_cons_of_mem _ (a4 d hd)⟩
      · rw [a1, Dec.val, Dec.val]
        dsimp only
        rw [Nat.ofDigits_cons, zpow_add₀ (by norm_num), zpow_one, Nat.cast_add, Nat.cast_mul]
        push_cast
        ring
      · rw [a2, List.length_cons]; push_cast; ring
    · rw [if_neg h]
      exact ⟨rfl, rfl, fun h => h, fun d h => h⟩

theorem delTailF_len (ds : List ℕ) (i : ℤ) : (delTailF ds i).ds.length ≤ ds.length := by
  induction ds generalizing i with
  | nil => exact le_rfl
  | cons d t ih =>
    rw [delTailF]
    split_ifs
    · exact (ih _).trans (by simp)
    · exact le_rfl

theorem delTailE_len {ds : List ℕ} {i : ℤ} {r : Dec} (h : delTailE ds i = .ok r) : r.ds.length ≤ ds.length := by
  induction ds generalizing i with
  | nil => simp [delTailE] at h
  | cons d t ih =>
    rw [delTailE] at h
    split_ifs at h
    · exact (ih h).trans (by simp)
    · simp only [Except.ok.injEq] at h
      rw [← h]

theorem delTailE_spec {ds : List ℕ} {i : ℤ} (h0 : 0 < (Dec.mk ds i).val) :
    ∃ r, delTailE ds i = .ok r ∧ r.val = (Dec.mk ds i).val ∧ r.max = i + ds.length - 1 ∧ r.ds ≠ [] ∧ ∀ d ∈ r.ds, d ∈ ds := by
  induction ds generalizing i with
  | nil => simp [Dec.val] at h0
  | cons d t ih =>
    rw [delTailE]
    by_cases h : d = 0
    · rw [if_pos h]
      have hv : (Dec.mk t (i + 1)).val = (Dec.mk (d :: t) i).val := by
        rw [Dec.val, Dec.val]
        dsimp only
        rw [Nat.ofDigits_cons, zpow_add₀ (by norm_num), zpow_one, Nat.cast_add, Nat.cast_mul, h]
        push_cast
        ring
      obtain ⟨r, a1, a2, a3, a4, a5⟩ := ih (i := i + 1) (by rwa [hv])
      refine ⟨r, a1, a2.trans hv, ?_, a4, fun d hd => List.mem_cons_of_mem _ (a5 d hd)⟩
      rw [a3, List.length_cons]; push_cast; ring
    · rw [if_neg h]
      exact ⟨_, rfl, rfl, rfl, by simp, fun d h => h⟩

theorem ofDigits_rdropWhile (l : List ℕ) : Nat.ofDigits 10 (l.rdropWhile (· = 0)) = Nat.ofDigits 10 l := by
  induction l using List.reverseRecOn with
  | nil => rfl
  | append_singleton l a ih =>
    by_cases h : a = 0
    · subst h
      rw [List.rdropWhile_concat_pos _ _ _ (by simp), ih, Nat.ofDigits_append]
      simp
    · rw [List.rdropWhile_concat_neg _ _ _ (by simpa using h)]

theorem ofDigits_last {l : List ℕ} (h : l ≠ []) (h2 : l.getLast h ≠ 0) : 10 ^ (l.length - 1) ≤ Nat.ofDigits 10 l := by
  have e := List.dropLast_append_getLast h
  have e2 : Nat.ofDigits 10 l = Nat.ofDigits 10 l.dropLast + 10 ^ (l.length - 1) * l.getLast h := by
    conv_lhs => rw [← e]
    rw [Nat.ofDigits_append, List.length_dropLast, Nat.ofDigits_singleton]
  have := Nat.le_mul_of_pos_right (10 ^ (l.length - 1)) (Nat.pos_of_ne_zero h2)
  omega

/-- the digits of a positive number without zeros at the head -/
theorem delHead_spec {r : Dec} (hd : r.Digits) (h0 : 0 < r.val) :
    (delHead r).val = r.val ∧ (delHead r).Digits ∧ (delHead r).min = r.min ∧ r.min ≤ (delHead r).max ∧
    (delHead r).max ≤ r.max ∧ (10 : ℚ) ^ (delHead r).max ≤ r.val ∧
    (∀ lo : ℤ, lo ≤ (delHead r).max → 0 < Nat.ofDigits 10 ((delHead r).ds.drop (lo - r.min).toNat)) := by
  have hv : (delHead r).val = r.val := by
    rw [Dec.val, Dec.val, delHead]
    dsimp only
    rw [ofDigits_rdropWhile]
  have hne : (delHead r).ds ≠ [] := by
    intro h
    rw [← hv, Dec.val, h] at h0
    simp at h0
  have hlast : (delHead r).ds.getLast hne ≠ 0 := by
    have := List.rdropWhile_last_not (fun x : ℕ => decide (x = 0)) r.ds hne
    simp only [decide_eq_true_eq] at this
    exact this
  have hlen := List.length_pos_iff.2 hne
  refine ⟨hv, fun d h => hd d (mem_rdropWhile h), rfl, ?_, ?_, ?_, fun lo hlo => ?_⟩
  · have : (delHead r).max = r.min + (delHead r).ds.length - 1 := rfl
    omega
  · have h1 : (delHead r).max = r.min + (delHead r).ds.length - 1 := rfl
    have h2 : (delHead r).ds.length ≤ r.ds.length := (List.rdropWhile_prefix _ _).length_le
    have h3 : r.max = r.min + r.ds.length - 1 := rfl
    omega
  · rw [← hv, Dec.val, Dec.max]
    have h1 := ofDigits_last hne hlast
    have h2 : ((10 : ℚ) ^ ((delHead r).ds.length - 1)) ≤ (Nat.ofDigits 10 (delHead r).ds : ℕ) := by exact_mod_cast h1
    have h3 : (10 : ℚ) ^ ((delHead r).min + (delHead r).ds.length - 1) = 10 ^ ((delHead r).ds.length - 1) * 10 ^ (delHead r).min := by
      rw [← zpow_natCast, ← zpow_add₀ (by norm_num)]
      congr 1
      push_cast [hlen]
      ring
    rw [h3]
    exact mul_le_mul_of_nonneg_right h2 (zpow_nonneg (by norm_num) _)
  · have hm : (delHead r).max = r.min + (delHead r).ds.length - 1 := rfl
    have hk : (lo - r.min).toNat < (delHead r).ds.length := by omega
    have hne2 : (delHead r).ds.drop (lo - r.min).toNat ≠ [] := by
      intro h
      have := List.drop_eq_nil_iff.1 h
      omega
    have := ofDigits_last hne2 (by rw [List.getLast_drop]; exact hlast)
    exact lt_of_lt_of_le (by positivity) this

/-! ## writing -/

theorem emitF_low (l : List ℕ) {i : ℤ} (hi : i < -1) : emitF l i = l.map digit := by
  induction l generalizing i with
  | nil => rfl
  | cons d t ih =>
    rw [emitF, if_neg (by omega), ih (by omega)]
    rfl

theorem emitF_nat (l : List ℕ) (n : ℕ) :
    emitF l (n - 1) = (l.take n).map digit ++ (if l.drop n = [] then [] else '.' :: (l.drop n).map digit) := by
  induction n generalizing l with
  | zero =>
    cases l with
    | nil => rfl
    | cons d t =>
      rw [emitF, if_pos (by simp), emitF_low _ (by simp)]
      simp
  | succ n ih =>
    cases l with
    | nil => rfl
    | cons d t =>
      rw [emitF, if_neg (by push_cast; omega)]
      rw [show ((n + 1 : ℕ) : ℤ) - 1 - 1 = n - 1 by push_cast; ring, ih]
      simp

/-- the text of a number in fixed notation -/
theorem emitF_lit {r : Dec} (hd : r.Digits) (h1 : r.min ≤ 0) (h2 : 0 ≤ r.max) :
    ∃ L : Lit, L.Valid ∧ L.sgn = none ∧ L.text = emitF r.ds.reverse r.max ∧ L.value = r.val ∧
      L.ip.length + (L.fp.getD []).length = r.ds.length ∧ L.exponent = 0 := by
  obtain ⟨n, hn⟩ := Int.eq_ofNat_of_zero_le (show 0 ≤ r.max + 1 by omega)
  have hlen : r.ds.reverse.length = n + (-r.min).toNat := by
    rw [List.length_reverse]; unfold Dec.max at hn; omega
  have hl : ∀ d ∈ r.ds.reverse, d < 10 := fun d h => hd d (List.mem_reverse.1 h)
  have hv : r.val = (vBE 10 r.ds.reverse : ℚ) / 10 ^ (-r.min).toNat := by
    rw [vBE_reverse, Dec.val, div_eq_mul_inv, ← zpow_natCast, ← zpow_neg, Int.toNat_of_nonneg (by omega), neg_neg]
  have hvv : vBE 10 r.ds.reverse = vBE 10 (r.ds.reverse.take n) * 10 ^ (-r.min).toNat + vBE 10 (r.ds.reverse.drop n) := by
    conv_lhs => rw [← List.take_append_drop n r.ds.reverse]
    rw [vBE_append, List.length_drop, hlen, Nat.add_sub_cancel_left]
  rw [show r.max = (n : ℤ) - 1 by omega, emitF_nat]
  have htl : (r.ds.reverse.take n).length = n := by rw [List.length_take]; omega
  have hdl : (r.ds.reverse.drop n).length = (-r.min).toNat := by rw [List.length_drop]; omega
  have ht : ∀ d ∈ r.ds.reverse.take n, d < 10 := fun d h => hl d (List.mem_of_mem_take h)
  have hdr : ∀ d ∈ r.ds.reverse.drop n, d < 10 := fun d h => hl d (List.mem_of_mem_drop h)
  have hne : r.ds.reverse.take n ≠ [] := by
    intro h; rw [h] at htl; simp at htl; omega
  generalize r.ds.reverse.take n = a at *
  generalize r.ds.reverse.drop n = b at *
  have hg : (if b = [] then none else some b).getD [] = b := by
    by_cases hb : b = []
    · simp [hb]
    · simp [hb]
  refine ⟨⟨none, a, if b = [] then none else some b, none⟩, ⟨ht, ?_, ?_, by simp⟩, rfl, ?_, ?_, ?_, rfl⟩
  · by_cases hb : b = []
    · simp [hb]
    · simpa [hb] using hdr
  · simp [hne]
  · by_cases hb : b = []
    · simp [Lit.text, hb, signChars, digitChars_eq ht]
    · simp [Lit.text, hb, signChars, digitChars_eq ht, digitChars_eq hdr]
  · rw [hv, hvv, Lit.value, Lit.mantissa, Lit.exponent]
    dsimp only
    rw [hg, decNat_eq, decNat_eq, hdl]
    push_cast
    simp
    field_simp
  · dsimp only
    rw [hg, htl, hdl, ← List.length_reverse, hlen]

theorem exp2_spec (n : ℕ) : ∃ ds : List ℕ, ds ≠ [] ∧ (∀ d ∈ ds, d < 10) ∧ exp2 n = digitChars ds ∧ decNat ds = n := by
  refine ⟨List.replicate (2 - (Nat.digits 10 n).length) 0 ++ (Nat.digits 10 n).reverse, ?_, ?_, ?_, ?_⟩
  · intro h
    have := congrArg List.length h
    simp only [List.length_append, List.length_replicate, List.length_reverse, List.length_nil] at this
    omega
  · intro d h
    rcases List.mem_append.1 h with h | h
    · rw [List.eq_of_mem_replicate h]; norm_num
    · exact Nat.digits_lt_base (by norm_num) (List.mem_reverse.1 h)
  · rw [digitChars_eq, exp2]
    · simp [List.map_append, List.map_replicate]
      right; rfl
    · intro d h
      rcases List.mem_append.1 h with h | h
      · rw [List.eq_of_mem_replicate h]; norm_num
      · exact Nat.digits_lt_base (by norm_num) (List.mem_reverse.1 h)
  · rw [decNat_eq, vBE_append, vBE_replicate, vBE_reverse, Nat.ofDigits_digits]; simp

/-- the text of a number in scientific notation -/
theorem emitE_lit {r : Dec} (hd : r.Digits) (h0 : r.ds ≠ []) :
    ∃ L : Lit, L.Valid ∧ L.sgn = none ∧ L.text = emitE r.ds.reverse r.max ∧ L.value = r.val ∧
      L.ip.length + (L.fp.getD []).length = r.ds.length ∧ L.exponent = r.max := by
  have hl : ∀ d ∈ r.ds.reverse, d < 10 := fun d h => hd d (List.mem_reverse.1 h)
  have hlen : (r.ds.reverse.length : ℤ) = r.max - r.min + 1 := by rw [List.length_reverse]; unfold Dec.max; omega
  have hv : r.val = (vBE 10 r.ds.reverse : ℚ) * 10 ^ r.min := by rw [vBE_reverse, Dec.val]
  have hne : r.ds.reverse ≠ [] := by simpa using h0
  rw [← List.length_reverse (as := r.ds)]
  generalize r.ds.reverse = l at *
  obtain ⟨d, t, rfl⟩ := List.exists_cons_of_ne_nil hne
  obtain ⟨es, e1, e2, e3, e4⟩ := exp2_spec r.max.natAbs
  have hdd : ∀ x ∈ [d], x < 10 := fun x h => by rw [List.mem_singleton.1 h]; exact hl d List.mem_cons_self
  have ht : ∀ x ∈ t, x < 10 := fun x h => hl x (List.mem_cons_of_mem _ h)
  have hg : (if t = [] then none else some t).getD [] = t := by
    by_cases hb : t = []
    · simp [hb]
    · simp [hb]
  have hex : Lit.exponent ⟨none, [d], if t = [] then none else some t, some (false, some (decide (r.max < 0)), es)⟩ = r.max := by
    rw [Lit.exponent]
    by_cases h : r.max < 0
    · simp only [h, decide_true, e4]; omega
    · simp only [h, decide_false, e4]; omega
  refine ⟨⟨none, [d], if t = [] then none else some t, some (false, some (decide (r.max < 0)), es)⟩, ⟨hdd, ?_, by simp, ?_⟩, rfl, ?_, ?_, ?_, hex⟩
  · by_cases hb : t = []
    · simp [hb]
    · simpa [hb] using ht
  · rintro e he
    simp only [Option.mem_some_iff] at he
    subst he
    exact ⟨e2, e1⟩
  · have hs : signChars (some (decide (r.max < 0))) = [if r.max < 0 then '-' else '+'] := by
      by_cases h : r.max < 0 <;> simp [h, signChars]
    simp only [Lit.text, emitE, e3]
    rw [hs, digitChars_eq hdd]
    cases t with
    | nil => simp [signChars]
    | cons x t => simp [signChars, digitChars_eq ht]
  · rw [Lit.value, hex, Lit.mantissa]
    dsimp only
    rw [hg, decNat_eq, decNat_eq, hv]
    have hm : r.max = r.min + (t.length : ℤ) := by
      rw [List.length_cons] at hlen; push_cast at hlen; omega
    rw [hm, zpow_add₀ (by norm_num), zpow_natCast]
    simp only [vBE, List.length_nil, pow_zero]
    push_cast
    simp
    field_simp
  · dsimp only
    rw [hg]
    simp [add_comm]

/-- how far the printed number may be from the number, by format and precision -/
def tol (fmt : Fmt) (prec : ℕ) (q : ℚ) : ℚ :=
  match fmt with
  | .f => 10 ^ (-(prec : ℤ))
  | .e => 10 ^ (Int.log 10 q - prec)
  | .g => 10 ^ (Int.log 10 q + 1 - prec)
  | .a => 0

theorem render_spec {r : Dec} (hd : r.Digits) (hmin : r.min ≤ 0) (hmax : 0 ≤ r.max) (h0 : 0 < r.val) (prec : ℕ) (fmt : Fmt)
    (hp : fmt = .g → 1 ≤ prec) (mode : RMode) (neg : Bool) :
    ∃ L : Lit, L.Valid ∧ L.sgn = none ∧ render r prec fmt mode neg = .ok L.text ∧
      Toward mode neg r.val L.value (tol fmt prec r.val) ∧
      (L.value ≠ 0 ∨ L.exponent = 0) ∧
      L.ip.length + (L.fp.getD []).length + L.exponent.natAbs ≤ 4 * r.ds.length + 10 := by
  have hN : r.max = r.min + r.ds.length - 1 := rfl
  cases fmt with
  | a =>
    obtain ⟨L, a1, a2, a3, a4, a5, a6⟩ := emitF_lit hd hmin hmax
    exact ⟨L, a1, a2, by rw [a3]; rfl, by rw [a4]; exact Toward.refl le_rfl, Or.inr a6, by rw [a5, a6]; simp; omega⟩
  | f =>
    have key : ∃ c : Dec, (if -(prec + 1 : ℤ) ≥ r.min then cut r (-prec) mode neg false else r) = c ∧ c.Digits ∧ c.min ≤ 0 ∧ 0 ≤ c.max ∧
        (c.max ≤ r.max + 1 ∧ r.min ≤ c.min) ∧ Toward mode neg r.val c.val (10 ^ (-(prec : ℤ))) := by
      refine ⟨_, rfl, ?_⟩
      by_cases hc : -(prec + 1 : ℤ) ≥ r.min
      · rw [if_pos hc]
        obtain ⟨c1, c2, c3, c4, -, c5⟩ := cut_shape hd (lo := -prec) (by omega) mode neg false (by omega)
        refine ⟨c1, by rw [c5 rfl]; omega, by omega, ⟨c4, by rw [c5 rfl]; omega⟩, ?_⟩
        rw [c2]
        exact cut_core hd (by omega) (by omega) mode neg
      · rw [if_neg hc]
        exact ⟨hd, hmin, hmax, ⟨by omega, le_rfl⟩, Toward.refl (zpow_nonneg (by norm_num) _)⟩
    obtain ⟨c, hc, c1, c2, c3, cb, c4⟩ := key
    obtain ⟨t1, t2, t3, t4⟩ := delTailF_spec c.ds c.min
    obtain ⟨L, a1, a2, a3, a4, a5, a6⟩ := emitF_lit (r := delTailF c.ds c.min) (fun d h => c1 d (t4 d h)) (t3 c2) (by rw [t2]; exact c3)
    refine ⟨L, a1, a2, ?_, ?_, Or.inr a6, ?_⟩
    · rw [a3]
      simp only [render]
      rw [hc]
    · rw [a4, t1]; exact c4
    · rw [a5, a6]
      have hl := delTailF_len c.ds c.min
      have hcN : c.max = c.min + c.ds.length - 1 := rfl
      simp
      omega
  | e =>
    obtain ⟨d1, d2, d3, d4, d7, d5, d6⟩ := delHead_spec hd h0
    have hlog : (delHead r).max ≤ Int.log 10 r.val := (Int.zpow_le_iff_le_log (b := 10) (by norm_num) h0).1 (by exact_mod_cast d5)
    have key : ∃ c : Dec, (if (delHead r).max - prec - 1 ≥ (delHead r).min then cut (delHead r) ((delHead r).max - prec) mode neg true else delHead r) = c ∧
        c.Digits ∧ 0 < c.val ∧ (c.max ≤ r.max + 1 ∧ r.min ≤ c.min ∧ r.min ≤ c.max) ∧ Toward mode neg r.val c.val (10 ^ (Int.log 10 r.val - prec)) := by
      refine ⟨_, rfl, ?_⟩
      by_cases hc : (delHead r).max - prec - 1 ≥ (delHead r).min
      · rw [if_pos hc]
        obtain ⟨c1, c2, c3, c4, c5, -⟩ := cut_shape d2 (lo := (delHead r).max - prec) (by omega) mode neg true (by omega)
        refine ⟨c1, ?_, ⟨by omega, by rw [c5 rfl]; omega, by omega⟩, ?_⟩
        · rw [c2]
          apply mul_pos _ (zpow_pos (by norm_num) _)
          have := d6 ((delHead r).max - prec) (by omega)
          rw [d3]
          have h2 : (0 : ℚ) < (Nat.ofDigits 10 ((delHead r).ds.drop ((delHead r).max - prec - r.min).toNat) : ℕ) := by exact_mod_cast this
          split_ifs <;> linarith
        · rw [c2, ← d1]
          refine (cut_core d2 (lo := (delHead r).max - prec) (by omega) (by omega) mode neg).mono ?_
          have := hlog
          rw [d1]
          exact zpow_le_zpow_right₀ (by norm_num) (by omega)
      · rw [if_neg hc]
        refine ⟨d2, by rwa [d1], ⟨by omega, d3.ge, by omega⟩, ?_⟩
        rw [d1]
        exact Toward.refl (zpow_nonneg (by norm_num) _)
    obtain ⟨c, hc, c1, c2, cb, c3⟩ := key
    obtain ⟨r', t1, t2, t3, t4, t5⟩ := delTailE_spec (ds := c.ds) (i := c.min) c2
    obtain ⟨L, a1, a2, a3, a4, a5, a6⟩ := emitE_lit (r := r') (fun d h => c1 d (t5 d h)) t4
    refine ⟨L, a1, a2, ?_, ?_, Or.inl ?_, ?_⟩
    · rw [a3]
      simp only [render]
      rw [hc, t1]; rfl
    · rw [a4, t2]; exact c3
    · rw [a4, t2]; exact c2.ne'
    · rw [a5, a6, t3]
      have hl := delTailE_len t1
      have hcN : c.max = c.min + c.ds.length - 1 := rfl
      omega
  | g =>
    have hp1 := hp rfl
    obtain ⟨d1, d2, d3, d4, d7, d5, d6⟩ := delHead_spec hd h0
    have hlog : (delHead r).max ≤ Int.log 10 r.val := (Int.zpow_le_iff_le_log (b := 10) (by norm_num) h0).1 (by exact_mod_cast d5)
    have key : ∃ c : Dec, (if (delHead r).max - prec ≥ (delHead r).min then cut (delHead r) ((delHead r).max - prec + 1) mode neg true else delHead r) = c ∧
        c.Digits ∧ 0 < c.val ∧ (c.max ≤ prec - 1 → c.min ≤ 0) ∧ (c.max ≤ r.max + 1 ∧ r.min ≤ c.min ∧ r.min ≤ c.max) ∧ Toward mode neg r.val c.val (10 ^ (Int.log 10 r.val + 1 - prec)) := by
      refine ⟨_, rfl, ?_⟩
      by_cases hc : (delHead r).max - prec ≥ (delHead r).min
      · rw [if_pos hc]
        obtain ⟨c1, c2, c3, c4, c5, -⟩ := cut_shape d2 (lo := (delHead r).max - prec + 1) (by omega) mode neg true (by omega)
        refine ⟨c1, ?_, ?_, ⟨by omega, by rw [c5 rfl]; omega, by omega⟩, ?_⟩
        · rw [c2]
          apply mul_pos _ (zpow_pos (by norm_num) _)
          have := d6 ((delHead r).max - prec + 1) (by omega)
          rw [d3]
          have h2 : (0 : ℚ) < (Nat.ofDigits 10 ((delHead r).ds.drop ((delHead r).max - prec + 1 - r.min).toNat) : ℕ) := by exact_mod_cast this
          split_ifs <;> linarith
        · intro h
          rw [c5 rfl]; omega
        · rw [c2, ← d1]
          refine (cut_core d2 (lo := (delHead r).max - prec + 1) (by omega) (by omega) mode neg).mono ?_
          have := hlog
          rw [d1]
          exact zpow_le_zpow_right₀ (by norm_num) (by omega)
      · rw [if_neg hc]
        refine ⟨d2, by rwa [d1], fun _ => by rw [d3]; exact hmin, ⟨by omega, d3.ge, by omega⟩, ?_⟩
        rw [d1]
        exact Toward.refl (zpow_nonneg (by norm_num) _)
    obtain ⟨c, hc, c1, c2, c3, cb, c4⟩ := key
    have hcN : c.max = c.min + c.ds.length - 1 := rfl
    by_cases hf : -4 ≤ c.max ∧ c.max ≤ prec - 1
    · obtain ⟨t1, t2, t3, t4⟩ := delTailF_spec c.ds c.min
      have key2 : ∃ p : Dec, (if c.max < 0 then (⟨(delTailF c.ds c.min).ds ++ List.replicate (-c.max).toNat 0, (delTailF c.ds c.min).min⟩ : Dec)
          else delTailF c.ds c.min) = p ∧ p.Digits ∧ p.min ≤ 0 ∧ 0 ≤ p.max ∧ p.ds.length ≤ c.ds.length + 4 ∧ p.val = c.val := by
        have hl := delTailF_len c.ds c.min
        refine ⟨_, rfl, ?_⟩
        by_cases hn : c.max < 0
        · rw [if_pos hn]
          refine ⟨?_, t3 (c3 hf.2), ?_, ?_, ?_⟩
          · intro d h
            rcases List.mem_append.1 h with h | h
            · exact c1 d (t4 d h)
            · rw [List.eq_of_mem_replicate h]; norm_num
          · have e1 : (delTailF c.ds c.min).max = c.max := t2
            rw [Dec.max] at e1
            simp only [Dec.max_mk, List.length_append, List.length_replicate]
            push_cast
            omega
          · simp only [List.length_append, List.length_replicate]
            omega
          · rw [← show (delTailF c.ds c.min).val = c.val from t1, Dec.val, Dec.val]
            dsimp only
            rw [Nat.ofDigits_append, Nat.ofDigits_replicate_zero]
            simp
        · rw [if_neg hn]
          exact ⟨fun d h => c1 d (t4 d h), t3 (c3 hf.2), by rw [t2]; unfold Dec.max at hn; omega, by omega, t1⟩
      obtain ⟨p, hpp, p1, p2, p3, pl, p4⟩ := key2
      obtain ⟨L, a1, a2, a3, a4, a5, a6⟩ := emitF_lit p1 p2 p3
      refine ⟨L, a1, a2, ?_, ?_, Or.inr a6, ?_⟩
      · rw [a3]
        simp only [render]
        rw [hc, if_pos hf, hpp]
      · rw [a4, p4]; exact c4
      · rw [a5, a6]
        simp
        omega
    · obtain ⟨r', t1, t2, t3, t4, t5⟩ := delTailE_spec (ds := c.ds) (i := c.min) c2
      obtain ⟨L, a1, a2, a3, a4, a5, a6⟩ := emitE_lit (r := r') (fun d h => c1 d (t5 d h)) t4
      refine ⟨L, a1, a2, ?_, ?_, Or.inl ?_, ?_⟩
      · rw [a3]
        simp only [render]
        rw [hc, if_neg hf, t1]; rfl
      · rw [a4, t2]; exact c4
      · rw [a4, t2]; exact c2.ne'
      · rw [a5, a6, t3]
        have hl := delTailE_len t1
        omega

end Conv
end Kv
