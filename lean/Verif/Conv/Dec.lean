import Verif.Conv.Base
import Verif.Conv.Spec
import Mathlib.Data.List.GetD

/-!
# The digits found by `dtostring` and what becomes of them
-/

namespace Kv
namespace Conv

theorem bitLoop_spec {n : ℕ} {t : ℚ} {e : ℤ} (h0 : 0 ≤ t) (h1 : t < 2 ^ (e + 1)) (hk : ∃ k : ℤ, t = k * 2 ^ (e + 1 - n)) :
    fv 2 (bitLoop n t e) = t / 2 ^ (e + 1) ∧ (∀ d ∈ bitLoop n t e, d < 2) := by
  induction n generalizing t e with
  | zero =>
    obtain ⟨k, rfl⟩ := hk
    have hp : (0 : ℚ) < 2 ^ (e + 1) := zpow_pos (by norm_num) _
    simp only [Nat.cast_zero, sub_zero] at h0 h1 ⊢
    have a1 : (0 : ℚ) ≤ k := nonneg_of_mul_nonneg_left h0 hp
    have a2 : (k : ℚ) < 1 := by
      by_contra hc
      push Not at hc
      nlinarith
    have : k = 0 := by
      have b1 : (0 : ℤ) ≤ k := by exact_mod_cast a1
      have b2 : k < 1 := by exact_mod_cast a2
      omega
    subst this
    simp [bitLoop, fv]
  | succ n ih =>
    obtain ⟨k, hk⟩ := hk
    have hp : (0 : ℚ) < 2 ^ e := zpow_pos (by norm_num) _
    have he : (2 : ℚ) ^ (e + 1) = 2 * 2 ^ e := by rw [zpow_add₀ (by norm_num)]; ring
    have hexp : e - 1 + 1 - (n : ℤ) = e + 1 - ((n + 1 : ℕ) : ℤ) := by push_cast; ring
    have key : ∀ t' : ℚ, 0 ≤ t' → t' < 2 ^ e → (∃ k : ℤ, t' = k * 2 ^ (e + 1 - ((n + 1 : ℕ) : ℤ))) →
        fv 2 (if t' = 0 then [] else bitLoop n t' (e - 1)) = t' / 2 ^ e ∧
        ∀ d ∈ (if t' = 0 then [] else bitLoop n t' (e - 1)), d < 2 := by
      intro t' a1 a2 a3
      by_cases h : t' = 0
      · simp [h, fv]
      · rw [if_neg h]
        have := ih (t := t') (e := e - 1) a1 (by rwa [sub_add_cancel]) (by rwa [hexp])
        rwa [sub_add_cancel] at this
    by_cases hb : (2 : ℚ) ^ e ≤ t
    · have h2 := key (t - 2 ^ e) (by linarith) (by linarith) ⟨k - 2 ^ n, by
        have : (2 : ℚ) ^ e = 2 ^ n * 2 ^ (e + 1 - ((n + 1 : ℕ) : ℤ)) := by
          rw [← zpow_natCast, ← zpow_add₀ (by norm_num)]; congr 1; push_cast; ring
        rw [hk]
        push_cast at this ⊢
        rw [sub_mul, ← this]⟩
      simp only [bitLoop, if_pos hb]
      refine ⟨?_, ?_⟩
      · rw [fv, h2.1, he]; field_simp; push_cast; ring
      · intro d hd
        rcases List.mem_cons.1 hd with rfl | hd
        · norm_num
        · exact h2.2 d hd
    · have h2 := key t h0 (not_le.1 hb) ⟨k, hk⟩
      simp only [bitLoop, if_neg hb]
      refine ⟨?_, ?_⟩
      · rw [fv, h2.1, he]; field_simp; push_cast; ring
      · intro d hd
        rcases List.mem_cons.1 hd with rfl | hd
        · norm_num
        · exact h2.2 d hd

/-- the number a list of digits stands for -/
def Dec.val (r : Dec) : ℚ := (Nat.ofDigits 10 r.ds : ℕ) * 10 ^ r.min

theorem Dec.max_mk (ds : List ℕ) (m : ℤ) : (Dec.mk ds m).max = m + ds.length - 1 := rfl

def Dec.Digits (r : Dec) : Prop := ∀ d ∈ r.ds, d < 10

theorem ofDigits_reverse (l : List ℕ) : ((Nat.ofDigits 10 l.reverse : ℕ) : ℚ) = fv 10 l * 10 ^ l.length := by
  have h := fv_eq (b := 10) (by norm_num) l
  have h2 := vBE_reverse (b := 10) l.reverse
  rw [List.reverse_reverse] at h2
  rw [← h2, ← h]
  norm_num

theorem mDec_pos (n : ℕ) : 1 ≤ mDec n := by unfold mDec; split_ifs <;> norm_num

theorem intLoop_ne_nil {b B : ℕ} {mOf : ℕ → ℕ} (hm : ∀ n, 1 ≤ mOf n) {ds : List ℕ} (h : ds ≠ []) {fuel : ℕ} (hf : 0 < fuel) :
    intLoop b B mOf fuel ds ≠ [] := by
  obtain ⟨f, rfl⟩ := Nat.exists_eq_succ_of_ne_zero hf.ne'
  rw [intLoop, if_neg h]
  intro h2
  have h3 := congrArg List.length h2
  simp only [List.length_append, digitsLE_length, List.length_nil] at h3
  have := hm (ds.length - 1)
  omega

/-- `toDec` finds all decimal digits of a double -/
theorem toDec_spec {q : ℚ} (hq : 0 < q) (hr : binary64.Rep q) :
    (toDec q).val = q ∧ (toDec q).Digits ∧ (toDec q).min ≤ 0 ∧ 0 ≤ (toDec q).max := by
  have hlo : (2 : ℚ) ^ Int.log 2 q ≤ q := by exact_mod_cast Int.zpow_log_le_self (b := 2) (by norm_num) hq
  have hhi : q < (2 : ℚ) ^ (Int.log 2 q + 1) := by exact_mod_cast Int.lt_zpow_succ_log_self (b := 2) (by norm_num) q
  unfold toDec
  dsimp only
  generalize hex : Int.log 2 q = ex at *
  have hk : ∃ k : ℤ, q = k * 2 ^ (ex + 1 - ((53 : ℕ) : ℤ)) := by
    obtain ⟨m, e, hm, he, -, rfl⟩ := hr
    have h1 : (m : ℚ) * 2 ^ e < 2 ^ (53 + e) := by
      have : (m : ℚ) < 2 ^ (53 : ℤ) := by
        have h2 : m < 2 ^ 53 := lt_of_le_of_lt (le_abs_self m) hm
        exact_mod_cast h2
      rw [zpow_add₀ (by norm_num)]
      exact mul_lt_mul_of_pos_right this (zpow_pos (by norm_num) _)
    have h2 : ex < 53 + e := (zpow_lt_zpow_iff_right₀ (by norm_num : (1 : ℚ) < 2)).1 (lt_of_le_of_lt hlo h1)
    obtain ⟨n, hn⟩ := Int.le.dest (show ex + 1 - 53 ≤ e by omega)
    refine ⟨m * 2 ^ n, ?_⟩
    rw [← hn, zpow_add₀ (by norm_num)]
    push_cast
    rw [zpow_natCast]
    ring
  obtain ⟨hl, hld⟩ := bitLoop_spec (n := 53) hq.le hhi hk
  generalize bitLoop 53 q ex = l at hl hld ⊢
  have hfb : (∀ d ∈ (if ex < 0 then List.replicate (-1 - ex).toNat 0 ++ l else l.drop (ex + 1).toNat), d < 2) := by
    intro d hd
    split_ifs at hd
    · rcases List.mem_append.1 hd with h | h
      · rw [List.eq_of_mem_replicate h]; norm_num
      · exact hld d h
    · exact hld d (List.mem_of_mem_drop hd)
  have hib : (∀ d ∈ (if ex < 0 then [0] else (l ++ List.replicate ((ex + 1).toNat - l.length) 0).take (ex + 1).toNat), d < 2) := by
    intro d hd
    split_ifs at hd
    · rw [List.mem_singleton.1 hd]; norm_num
    · rcases List.mem_append.1 (List.mem_of_mem_take hd) with h | h
      · exact hld d h
      · rw [List.eq_of_mem_replicate h]; norm_num
  have hne : (if ex < 0 then [0] else (l ++ List.replicate ((ex + 1).toNat - l.length) 0).take (ex + 1).toNat) ≠ [] := by
    split_ifs with h
    · simp
    · intro h2
      have h3 := congrArg List.length h2
      simp only [List.length_take, List.length_append, List.length_replicate, List.length_nil] at h3
      omega
  have hsum : (vBE 2 (if ex < 0 then [0] else (l ++ List.replicate ((ex + 1).toNat - l.length) 0).take (ex + 1).toNat) : ℚ)
      + fv 2 (if ex < 0 then List.replicate (-1 - ex).toNat 0 ++ l else l.drop (ex + 1).toNat) = q := by
    by_cases h : ex < 0
    · rw [if_pos h, if_pos h, fv_append (by norm_num), fv_replicate, hl]
      have : (2 : ℚ) ^ (ex + 1) * 2 ^ (-1 - ex).toNat = 1 := by
        rw [← zpow_natCast, ← zpow_add₀ (by norm_num), Int.toNat_of_nonneg (by omega)]
        ring_nf; norm_num
      simp only [vBE, List.length_replicate, List.length_nil]
      push_cast
      rw [div_div, this]
      norm_num
    · rw [if_neg h, if_neg h]
      set k := (ex + 1).toNat with hkk
      have hk2 : ((2 : ℚ) ^ (ex + 1)) = 2 ^ k := by
        rw [← zpow_natCast, hkk, Int.toNat_of_nonneg (by omega)]
      rw [hk2] at hl
      set l' := l ++ List.replicate (k - l.length) 0 with hl'
      have e1 : fv 2 l' = fv 2 l := by
        rw [hl', fv_append (by norm_num), fv_replicate]; simp
      have e2 : l'.drop k = l.drop k := by
        rw [hl', List.drop_append]
        simp
      have e3 := fv_append (b := 2) (by norm_num) (l'.take k) (l'.drop k)
      have e4 : (l'.take k).length = k := by
        rw [List.length_take, hl', List.length_append, List.length_replicate]
        omega
      have e5 := fv_eq (b := 2) (by norm_num) (l'.take k)
      rw [e4] at e3 e5
      rw [List.take_append_drop, e1, hl, e2] at e3
      rw [← e5]
      push_cast at e3 ⊢
      field_simp at e3 ⊢
      linarith
  generalize (if ex < 0 then [0] else (l ++ List.replicate ((ex + 1).toNat - l.length) 0).take (ex + 1).toNat) = ib at *
  generalize (if ex < 0 then List.replicate (-1 - ex).toNat 0 ++ l else l.drop (ex + 1).toNat) = fb at *
  have h1 := intLoop_val (b := 2) (B := 10) (by norm_num) mDec_pos (fuel := ib.length) (ds := ib) (vBE_lt hib)
  have h1d := intLoop_digits (b := 2) (B := 10) (by norm_num) (mOf := mDec) (fuel := ib.length) (ds := ib)
  have h1n := intLoop_ne_nil (b := 2) (B := 10) mDec_pos hne (List.length_pos_iff.2 hne)
  obtain ⟨h2, h2d⟩ := fracLoop_spec (le_refl fb.length) hfb
  generalize intLoop 2 10 mDec ib.length ib = r1 at *
  generalize fracLoop fb.length fb = r2 at *
  refine ⟨?_, ?_, ?_, ?_⟩
  · rw [Dec.val]
    rw [Nat.ofDigits_append, List.length_reverse, h1, Nat.cast_add, Nat.cast_mul, Nat.cast_pow, ofDigits_reverse, h2, ← hsum, zpow_neg, zpow_natCast, Nat.cast_ofNat]
    field_simp
    ring
  · intro d hd
    rcases List.mem_append.1 hd with h | h
    · exact h2d d (List.mem_reverse.1 h)
    · exact h1d d h
  · omega
  · have := List.length_pos_iff.2 h1n
    simp only [Dec.max, List.length_append, List.length_reverse]
    push_cast
    omega

/-! ## rounding -/

theorem ofDigits_lt {l : List ℕ} (h : ∀ d ∈ l, d < 10) : Nat.ofDigits 10 l < 10 ^ l.length := by
  rw [← vBE_reverse, ← List.length_reverse]
  exact vBE_lt fun d hd => h d (List.mem_reverse.1 hd)

theorem inc_val {l : List ℕ} (h : Nat.ofDigits 10 l + 1 < 10 ^ l.length) : Nat.ofDigits 10 (inc l) = Nat.ofDigits 10 l + 1 := by
  induction l with
  | nil => simp at h
  | cons d t ih =>
    rw [inc]
    by_cases hd : d + 1 = 10
    · rw [if_neg (by simpa using hd), Nat.ofDigits_cons, Nat.ofDigits_cons, ih]
      · omega
      · rw [Nat.ofDigits_cons, List.length_cons, pow_succ] at h
        omega
    · rw [if_pos hd, Nat.ofDigits_cons, Nat.ofDigits_cons]
      omega

theorem inc_length (l : List ℕ) : (inc l).length = l.length := by
  induction l with
  | nil => rfl
  | cons d t ih => rw [inc]; split_ifs <;> simp [ih]

theorem inc_digits {l : List ℕ} (h : ∀ d ∈ l, d < 10) : ∀ d ∈ inc l, d < 10 := by
  induction l with
  | nil => simp [inc]
  | cons d t ih =>
    intro x hx
    have h1 := h d List.mem_cons_self
    rw [inc] at hx
    split_ifs at hx with hc
    · rcases List.mem_cons.1 hx with rfl | hx
      · omega
      · exact h x (List.mem_cons_of_mem _ hx)
    · rcases List.mem_cons.1 hx with rfl | hx
      · norm_num
      · exact ih (fun x hx => h x (List.mem_cons_of_mem _ hx)) x hx

/-- how a number `v ≥ 0`, standing for `v` or `-v`, may be changed to `v'` -/
structure Toward (mode : RMode) (neg : Bool) (v v' u : ℚ) : Prop where
  grow : (mode = .up ∧ neg = false) ∨ (mode = .down ∧ neg = true) → v ≤ v'
  shrink : (mode = .down ∧ neg = false) ∨ (mode = .up ∧ neg = true) → v' ≤ v
  close : |v' - v| ≤ u
  near : mode = .near → 2 * |v' - v| ≤ u

theorem Toward.refl {mode : RMode} {neg : Bool} {v u : ℚ} (hu : 0 ≤ u) : Toward mode neg v v u :=
  ⟨fun _ => le_rfl, fun _ => le_rfl, by simpa, fun _ => by simpa⟩

theorem Toward.mono {mode : RMode} {neg : Bool} {v v' u u' : ℚ} (h : Toward mode neg v v' u) (hu : u ≤ u') :
    Toward mode neg v v' u' :=
  ⟨h.grow, h.shrink, h.close.trans hu, fun hn => (h.near hn).trans hu⟩

/-- the digits below `10^lo` dropped or rounded up -/
theorem cut_core {r : Dec} (hd : r.Digits) {lo : ℤ} (h1 : r.min < lo) (h2 : lo ≤ r.max + 1) (mode : RMode) (neg : Bool) :
    Toward mode neg r.val
      (((Nat.ofDigits 10 (r.ds.drop (lo - r.min).toNat) : ℕ) +
        if away mode neg (r.ds.getD ((lo - r.min).toNat - 1) 0) then 1 else 0 : ℚ) * 10 ^ lo) (10 ^ lo) := by
  obtain ⟨k, hk⟩ := Int.eq_ofNat_of_zero_le (show 0 ≤ lo - r.min - 1 by omega)
  have hk1 : (lo - r.min).toNat = k + 1 := by omega
  have hlen : k < r.ds.length := by unfold Dec.max at h2; omega
  rw [hk1, Nat.add_sub_cancel]
  have hsplit : r.ds = r.ds.take k ++ ([r.ds.getD k 0] ++ r.ds.drop (k + 1)) := by
    rw [List.getD_eq_getElem _ _ hlen, List.singleton_append, List.cons_getElem_drop_succ, List.take_append_drop]
  have e1 : Nat.ofDigits 10 r.ds = Nat.ofDigits 10 (r.ds.take k) + 10 ^ k * (r.ds.getD k 0 + 10 * Nat.ofDigits 10 (r.ds.drop (k + 1))) := by
    conv_lhs => rw [hsplit]
    rw [Nat.ofDigits_append, List.length_take, min_eq_left hlen.le, Nat.ofDigits_append, Nat.ofDigits_singleton]
    simp
  have e2 : Nat.ofDigits 10 (r.ds.take k) < 10 ^ k := by
    have := ofDigits_lt (l := r.ds.take k) fun d h => hd d (List.mem_of_mem_take h)
    rwa [List.length_take, min_eq_left hlen.le] at this
  have e3 : r.ds.getD k 0 < 10 := by
    rw [List.getD_eq_getElem _ _ hlen]
    exact hd _ (List.getElem_mem hlen)
  generalize Nat.ofDigits 10 (r.ds.take k) = T at *
  generalize Nat.ofDigits 10 (r.ds.drop (k + 1)) = V at *
  generalize r.ds.getD k 0 = t at *
  have hlo : (10 : ℚ) ^ lo = 10 * 10 ^ k * 10 ^ r.min := by
    rw [show lo = 1 + k + r.min by omega, zpow_add₀ (by norm_num), zpow_add₀ (by norm_num), zpow_natCast, zpow_one]
  have hp : (0 : ℚ) < 10 ^ r.min := zpow_pos (by norm_num) _
  have hval : r.val = ((T : ℚ) + 10 ^ k * (t + 10 * V)) * 10 ^ r.min := by
    rw [Dec.val, e1]; push_cast; ring
  have f2 : (T : ℚ) + 1 ≤ 10 ^ k := by exact_mod_cast e2
  have f3 : (t : ℚ) + 1 ≤ 10 := by exact_mod_cast e3
  have f0 : (0 : ℚ) ≤ T := Nat.cast_nonneg T
  have f1 : (0 : ℚ) ≤ t := Nat.cast_nonneg t
  rw [hval, hlo]
  generalize (10 : ℚ) ^ r.min = u at *
  have hK : (0 : ℚ) < 10 ^ k := by positivity
  generalize (10 : ℚ) ^ k = K at *
  have g1 : (0 : ℚ) ≤ T + K * t := by positivity
  have g2 : (T : ℚ) + K * t ≤ 10 * K := by nlinarith
  by_cases ha : away mode neg t = true
  · simp only [ha, if_true]
    have d1 : ((V : ℚ) + 1) * (10 * K * u) - ((T : ℚ) + K * (t + 10 * V)) * u = (10 * K - (T + K * t)) * u := by ring
    have d2 : (0 : ℚ) ≤ (10 * K - (T + K * t)) * u := mul_nonneg (by linarith) hp.le
    have d3 : (0 : ℚ) ≤ (T + K * t) * u := mul_nonneg g1 hp.le
    have d4 : |((V : ℚ) + 1) * (10 * K * u) - ((T : ℚ) + K * (t + 10 * V)) * u| = (10 * K - (T + K * t)) * u := by
      rw [d1, abs_of_nonneg d2]
    refine ⟨fun _ => by linarith, fun h => ?_, ?_, fun h => ?_⟩
    · exfalso
      rcases h with ⟨rfl, rfl⟩ | ⟨rfl, rfl⟩ <;> simp [away] at ha
    · rw [d4]; linarith
    · rw [d4]
      subst h
      simp [away] at ha
      have : (5 : ℚ) ≤ t := by exact_mod_cast ha
      have : 2 * (10 * K - (T + K * t)) ≤ 10 * K := by nlinarith
      nlinarith
  · have ha' : away mode neg t = false := by simpa using ha
    simp only [ha', Bool.false_eq_true, if_false]
    have d1 : ((V : ℚ) + 0) * (10 * K * u) - ((T : ℚ) + K * (t + 10 * V)) * u = -((T + K * t) * u) := by ring
    have d3 : (0 : ℚ) ≤ (T + K * t) * u := mul_nonneg g1 hp.le
    have d4 : |((V : ℚ) + 0) * (10 * K * u) - ((T : ℚ) + K * (t + 10 * V)) * u| = (T + K * t) * u := by
      rw [d1, abs_neg, abs_of_nonneg d3]
    refine ⟨fun h => ?_, fun h => by linarith, ?_, fun h => ?_⟩
    · exfalso
      rcases h with ⟨rfl, rfl⟩ | ⟨rfl, rfl⟩ <;> simp [away] at ha'
    · rw [d4]; nlinarith
    · rw [d4]
      subst h
      simp [away] at ha'
      have : (t : ℚ) + 1 ≤ 5 := by exact_mod_cast ha'
      have : 2 * (T + K * t) ≤ 10 * K := by nlinarith
      nlinarith

/-- the digits after rounding -/
theorem cut_shape {r : Dec} (hd : r.Digits) {lo : ℤ} (h1 : r.min < lo) (mode : RMode) (neg keep : Bool)
    (h2 : lo ≤ r.max) :
    (cut r lo mode neg keep).Digits ∧
    (cut r lo mode neg keep).val = ((Nat.ofDigits 10 (r.ds.drop (lo - r.min).toNat) : ℕ) +
        if away mode neg (r.ds.getD ((lo - r.min).toNat - 1) 0) then 1 else 0 : ℚ) * 10 ^ lo ∧
    r.max ≤ (cut r lo mode neg keep).max ∧ (cut r lo mode neg keep).max ≤ r.max + 1 ∧
    (keep = true → (cut r lo mode neg keep).min = (cut r lo mode neg keep).max - r.max + lo) ∧
    (keep = false → (cut r lo mode neg keep).min = lo) := by
  unfold cut
  dsimp only
  generalize away mode neg (r.ds.getD ((lo - r.min).toNat - 1) 0) = aw
  have hdd : ∀ d ∈ r.ds.drop (lo - r.min).toNat, d < 10 := fun d h => hd d (List.mem_of_mem_drop h)
  have hlen : lo + (r.ds.drop (lo - r.min).toNat).length - 1 = r.max := by
    unfold Dec.max at h2 ⊢
    rw [List.length_drop]; omega
  have hne : 0 < (r.ds.drop (lo - r.min).toNat).length := by omega
  generalize r.ds.drop (lo - r.min).toNat = ds at *
  generalize r.max = M at *
  cases aw with
  | false =>
    simp only [Bool.false_eq_true, if_false]
    refine ⟨hdd, by simp [Dec.val], ?_, ?_, fun _ => ?_, fun _ => trivial⟩
    · simp only [Dec.max_mk]; omega
    · simp only [Dec.max_mk]; omega
    · simp only [Dec.max_mk]; omega
  | true =>
    simp only [if_true]
    have hV := ofDigits_lt hdd
    have hd1 : ∀ d ∈ ds ++ [0], d < 10 := by
      intro d h
      rcases List.mem_append.1 h with h | h
      · exact hdd d h
      · rw [List.mem_singleton.1 h]; norm_num
    have hv1 : Nat.ofDigits 10 (ds ++ [0]) = Nat.ofDigits 10 ds := by
      rw [Nat.ofDigits_append]; simp
    have hi := inc_val (l := ds ++ [0]) (by
      rw [hv1, List.length_append, List.length_singleton, pow_succ]; omega)
    rw [hv1] at hi
    have hil := inc_length (ds ++ [0])
    rw [List.length_append, List.length_singleton] at hil
    have hidd := inc_digits hd1
    generalize inc (ds ++ [0]) = ds' at *
    have hne' : ds' ≠ [] := by rintro rfl; simp at hil
    have happ : ds' = ds'.dropLast ++ [ds'.getLastD 0] := by
      rw [List.getLastD_eq_getLast?, List.getLast?_eq_getLast_of_ne_nil hne']
      exact (List.dropLast_append_getLast hne').symm
    have hll : ds'.dropLast.length = ds.length := by rw [List.length_dropLast]; omega
    have hofs : Nat.ofDigits 10 ds' = Nat.ofDigits 10 ds'.dropLast + 10 ^ ds.length * ds'.getLastD 0 := by
      conv_lhs => rw [happ]
      rw [Nat.ofDigits_append, hll, Nat.ofDigits_singleton]
    by_cases hz : ds'.getLastD 0 = 0
    · rw [if_pos hz]
      refine ⟨fun d h => hidd d (List.mem_of_mem_dropLast h), ?_, ?_, ?_, fun _ => ?_, fun _ => rfl⟩
      · rw [Dec.val]
        dsimp only
        rw [hz] at hofs
        rw [show Nat.ofDigits 10 ds'.dropLast = Nat.ofDigits 10 ds + 1 by omega]
        push_cast; ring
      · simp only [Dec.max_mk]; omega
      · simp only [Dec.max_mk]; omega
      · simp only [Dec.max_mk]; omega
    · rw [if_neg hz]
      cases keep with
      | false =>
        simp only [Bool.false_eq_true, if_false]
        refine ⟨hidd, ?_, ?_, ?_, fun h => absurd h (by simp), fun _ => trivial⟩
        · rw [Dec.val]
          dsimp only
          rw [hi]; push_cast; ring
        · simp only [Dec.max_mk]; omega
        · simp only [Dec.max_mk]; omega
      | true =>
        simp only [if_true]
        have hlead : 10 ^ ds.length ≤ 10 ^ ds.length * ds'.getLastD 0 :=
          Nat.le_mul_of_pos_right _ (Nat.pos_of_ne_zero hz)
        have hVe : Nat.ofDigits 10 ds' = 10 ^ ds.length := by omega
        obtain ⟨a, t, rfl⟩ := List.exists_cons_of_ne_nil hne'
        have ha : a < 10 := hidd a List.mem_cons_self
        have ha0 : a = 0 := by
          rw [Nat.ofDigits_cons] at hVe
          obtain ⟨n, hn⟩ := Nat.exists_eq_succ_of_ne_zero hne.ne'
          rw [hn, pow_succ] at hVe
          omega
        subst ha0
        refine ⟨fun d h => hidd d (List.mem_of_mem_drop h), ?_, ?_, ?_, fun _ => ?_, fun h => absurd h (by simp)⟩
        · rw [Dec.val]
          simp only [List.drop_succ_cons, List.drop_zero]
          rw [Nat.ofDigits_cons] at hi
          have hi' : (0 : ℚ) + 10 * (Nat.ofDigits 10 t : ℕ) = (Nat.ofDigits 10 ds : ℕ) + 1 := by exact_mod_cast hi
          rw [zpow_add₀ (by norm_num), zpow_one, ← hi']
          ring
        · simp only [Dec.max_mk, List.drop_succ_cons, List.drop_zero, List.length_cons] at hil ⊢; omega
        · simp only [Dec.max_mk, List.drop_succ_cons, List.drop_zero, List.length_cons] at hil ⊢; omega
        · simp only [Dec.max_mk, List.drop_succ_cons, List.drop_zero, List.length_cons] at hil ⊢; omega

end Conv
end Kv
