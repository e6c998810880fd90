import Verif.Special.Trigamma
import Verif.Props.GammaRun
import Mathlib.NumberTheory.ZetaValues

/-!
# C91: `trigamma`

Main theorems: `C91_partial`, `C91_pole_end_violated`.
-/

namespace Kv
open PM RopSem GammaFn Trigamma
open Rop (lit)

/-- `v` is the value of the trigamma function at `x`, which is not a pole: the sum of `1/(x + k)²` over the natural numbers `k` -/
def IsTrigamma (x v : ℝ) : Prop := (∀ n : ℕ, x ≠ -n) ∧ HasSum (fun k : ℕ => 1 / (x + k) ^ 2) v

namespace Trigamma

variable {X Z : Interval D} {x v : ℝ} {tp : Interval D → PM (Interval D) (Interval D)} {st st' : PSt (Interval D)}

theorem nonneg (h : IsTrigamma x v) : 0 ≤ v := h.2.nonneg fun k => by positivity

/-- the recurrence, upwards -/
theorem succ (h : IsTrigamma x v) : IsTrigamma (x + 1) (v - 1 / x ^ 2) := by
  refine ⟨fun n hn => h.1 (n + 1) (by push_cast; linarith), ?_⟩
  have := (hasSum_nat_add_iff' (f := fun k : ℕ => 1 / (x + k) ^ 2) 1).2 h.2
  simp only [Finset.range_one, Finset.sum_singleton, Nat.cast_zero, add_zero] at this
  have e : (fun k : ℕ => 1 / (x + 1 + k) ^ 2) = fun k : ℕ => 1 / (x + ((k + 1 : ℕ) : ℝ)) ^ 2 := by
    funext k; rw [show x + 1 + (k : ℝ) = x + ((k + 1 : ℕ) : ℝ) by push_cast; ring]
  rw [e]
  exact this

/-- the recurrence, downwards -/
theorem pred (h : IsTrigamma x v) (hx : x - 1 ≠ 0) : IsTrigamma (x - 1) (v + 1 / (x - 1) ^ 2) := by
  refine ⟨fun n hn => ?_, ?_⟩
  · cases n with
    | zero => exact hx (by simpa using hn)
    | succ n => exact h.1 n (by push_cast at hn; linarith)
  · refine (hasSum_nat_add_iff' (f := fun k : ℕ => 1 / (x - 1 + k) ^ 2) 1).1 ?_
    simp only [Finset.range_one, Finset.sum_singleton, Nat.cast_zero, add_zero]
    have e : (fun k : ℕ => 1 / (x - 1 + ((k + 1 : ℕ) : ℝ)) ^ 2) = fun k : ℕ => 1 / (x + k) ^ 2 := by
      funext k; rw [show x - 1 + ((k + 1 : ℕ) : ℝ) = x + k by push_cast; ring]
    rw [add_sub_cancel_right, e]
    exact h.2

theorem up : ∀ (k : ℕ), IsTrigamma x v → IsTrigamma (x + k) (v - ∑ i ∈ Finset.range k, 1 / (x + (i : ℕ)) ^ 2)
  | 0, h => by simpa using h
  | k + 1, h => by
    have := succ (up k h)
    rw [Finset.sum_range_succ, ← sub_sub]
    push_cast
    rwa [← add_assoc]

theorem down : ∀ (k : ℕ), IsTrigamma x v → 0 < x - k → IsTrigamma (x - k) (v + ∑ i ∈ Finset.range k, 1 / (x - (i + 1 : ℕ)) ^ 2)
  | 0, h, _ => by simpa using h
  | k + 1, h, h0 => by
    push_cast at h0
    have e : x - k - 1 = x - ((k + 1 : ℕ) : ℝ) := by push_cast; ring
    have := pred (down k h (by linarith)) (by linarith)
    rw [Finset.sum_range_succ, ← add_assoc]
    rwa [e] at this

/-- decreasing for positive arguments -/
theorem anti {y w : ℝ} (h : IsTrigamma x v) (h' : IsTrigamma y w) (h0 : 0 < x) (hxy : x ≤ y) : w ≤ v :=
  hasSum_le (fun k => by
    have hk : (0 : ℝ) ≤ k := k.cast_nonneg
    exact one_div_le_one_div_of_le (by positivity) (pow_le_pow_left₀ (by linarith) (by linarith) 2)) h'.2 h.2

theorem exists_one : IsTrigamma 1 (Real.pi ^ 2 / 6) := by
  refine ⟨fun n hn => by have : (0 : ℝ) ≤ n := n.cast_nonneg; linarith, ?_⟩
  have := (hasSum_nat_add_iff' (f := fun n : ℕ => 1 / (n : ℝ) ^ 2) 1).2 hasSum_zeta_two
  simp only [Finset.range_one, Finset.sum_singleton, Nat.cast_zero] at this
  have e : (fun k : ℕ => 1 / ((1 : ℝ) + k) ^ 2) = fun k : ℕ => 1 / ((k + 1 : ℕ) : ℝ) ^ 2 := by
    funext k; rw [show (1 : ℝ) + k = ((k + 1 : ℕ) : ℝ) by push_cast; ring]
  rw [e]
  norm_num at this ⊢
  exact this

/-- there is a value wherever there is no pole -/
theorem exists_pos {y : ℝ} (h : 1 ≤ y) : ∃ w, IsTrigamma y w := by
  refine ⟨_, fun n hn => by have : (0 : ℝ) ≤ n := n.cast_nonneg; linarith, (Summable.of_nonneg_of_le (fun k => by positivity) (fun k => ?_) exists_one.2.summable).hasSum⟩
  have hk : (0 : ℝ) ≤ k := k.cast_nonneg
  exact one_div_le_one_div_of_le (by positivity) (pow_le_pow_left₀ (by linarith) (by linarith) 2)

/-! ## the loops -/

theorem recSq_mem {q : ℚ} {c : ℝ} {Q : Interval D} (hx : x ∈ X) (hq : Is (lit q : D) c) (h : recSq X q = .ok Q) : 1 / (x - c) ^ 2 ∈ Q ∧ x - c ≠ 0 := by
  have hm := Interval.mul_mem (Interval.subS_mem hx hq) (Interval.subS_mem hx hq)
  have h1 := Interval.sDiv_mem h hm Interval.is_one
  rw [← pow_two] at h1
  exact ⟨h1, fun h0 => sDiv_ok_ne h hm (by rw [h0, zero_mul])⟩

theorem subSq_mem (hx : x ∈ X) : ∀ (k : ℕ) (r : Interval D) (g : ℝ), k ≤ 2 ^ 40 → g ∈ r → ∀ Z, subSq X k r = .ok Z →
    g - ∑ i ∈ Finset.range k, 1 / (x - (i + 1 : ℕ)) ^ 2 ∈ Z
  | 0, r, g, _, hg, Z, h => by cases h; simpa using hg
  | k + 1, r, g, hk, hg, Z, h => by
    obtain ⟨q, hq, h⟩ := bind_ok.1 h
    have hd := recSq_mem hx (is_lit_int (n := (k + 1 : ℕ)) (by rw [abs_of_nonneg (by positivity)]; exact_mod_cast hk)) (by exact_mod_cast hq)
    have := subSq_mem hx k _ _ (by omega) (Interval.sub_mem hg hd.1) Z h
    rw [Finset.sum_range_succ, add_comm (∑ i ∈ _, _), ← sub_sub]
    exact_mod_cast this

theorem addSq_mem (hx : x ∈ X) : ∀ (k j : ℕ) (r : Interval D) (g : ℝ), j + k ≤ 2 ^ 40 → g ∈ r → ∀ Z, addSq X k j r = .ok Z →
    g + ∑ i ∈ Finset.range k, 1 / (x + ((j + i : ℕ) : ℝ)) ^ 2 ∈ Z
  | 0, j, r, g, _, hg, Z, h => by cases h; simpa using hg
  | k + 1, j, r, g, hk, hg, Z, h => by
    obtain ⟨q, hq, h⟩ := bind_ok.1 h
    have hd := (recSq_mem hx (lit_neg_nat (j := j) (by omega)) hq).1
    rw [sub_neg_eq_add] at hd
    have := addSq_mem hx k (j + 1) _ _ (by omega) (Interval.add_mem hg hd) Z h
    have e : ∑ i ∈ Finset.range (k + 1), 1 / (x + ((j + i : ℕ) : ℝ)) ^ 2 = 1 / (x + j) ^ 2 + ∑ i ∈ Finset.range k, 1 / (x + ((j + 1 + i : ℕ) : ℝ)) ^ 2 := by
      rw [Finset.sum_range_succ', add_comm]
      congr 1
      exact Finset.sum_congr rfl fun i _ => by rw [show j + (i + 1) = j + 1 + i by ring]
    rwa [e, ← add_assoc]

/-- the specification of `trigamma_plus`: it encloses the values for arguments between 1 and 2 -/
def PlusOk (tp : Interval D → PM (Interval D) (Interval D)) : Prop :=
  ∀ X Z x v st st', tp X st = (.ok Z, st') → x ∈ X → 1 ≤ x → x ≤ 2 → IsTrigamma x v → v ∈ Z

theorem point_mem {c : ℝ} (hP : PlusOk tp) (hc : Is X.inf c) (hx : x ∈ X) (hle : x ≤ ⌊c⌋ + 1) (hv : IsTrigamma x v)
    (h : point tp X st = (.ok Z, st')) : v ∈ Z := by
  have hcx : c ≤ x := by have := hx.1.2; rw [hc.2] at this; exact_mod_cast this
  have hf := is_floor hc
  have hzc := Int.floor_le c
  unfold point at h
  by_cases h1 : Rop.eq (Rop.floor X.inf) (lit 1) = true
  · rw [if_pos h1] at h
    rw [Interval.eq_of_is hf Interval.is_one] at h1
    exact hP _ _ _ _ _ _ h hx (by linarith) (by linarith) hv
  rw [if_neg h1] at h
  rw [Interval.eq_of_is hf Interval.is_one] at h1
  obtain ⟨r, st1, hr, h2⟩ := bind_run h
  by_cases h3 : Rop.lt (lit 1) (Rop.floor X.inf) = true
  · rw [if_pos h3] at h2
    rw [Interval.lt_of_is Interval.is_one hf] at h3
    obtain ⟨h4, rfl⟩ := lift_run h2
    obtain ⟨i, hi, h5⟩ := bind_ok.1 h4
    have h3' : 1 < ⌊c⌋ := by exact_mod_cast h3
    obtain ⟨hz, rfl⟩ := toInt_sub_one hf h3'.le hi
    have hs := is_sub_one hf (by rw [abs_le]; constructor <;> omega)
    have hd := Interval.subS_mem hx hs
    push_cast at hd
    have hk : (((⌊c⌋ - 1).toNat : ℕ) : ℝ) = (⌊c⌋ : ℝ) - 1 := by
      have : (((⌊c⌋ - 1).toNat : ℕ) : ℤ) = ⌊c⌋ - 1 := Int.toNat_of_nonneg (by omega)
      have e2 : ((((⌊c⌋ - 1).toNat : ℕ) : ℤ) : ℝ) = ((⌊c⌋ - 1 : ℤ) : ℝ) := by rw [this]
      push_cast at e2
      exact_mod_cast e2
    have hdn := down (⌊c⌋ - 1).toNat hv (by rw [hk]; linarith)
    rw [← hk] at hd
    have hg := hP _ _ _ _ _ _ hr hd (by rw [hk]; linarith) (by rw [hk]; linarith) hdn
    have := subSq_mem hx (⌊c⌋ - 1).toNat r _ (by omega) hg Z h5
    rwa [add_sub_cancel_right] at this
  · rw [if_neg h3] at h2
    rw [Interval.lt_of_is Interval.is_one hf, not_lt] at h3
    obtain ⟨h4, rfl⟩ := lift_run h2
    obtain ⟨k, hk, h5⟩ := bind_ok.1 h4
    obtain ⟨hz, rfl⟩ := passes_eq hf hk
    have h3' : ⌊c⌋ ≤ 0 := by
      have e1 : ⌊c⌋ ≤ 1 := by exact_mod_cast h3
      have e2 : ⌊c⌋ ≠ 1 := fun e => h1 (by exact_mod_cast e)
      omega
    have hs := is_sub_one hf (by rw [abs_le]; constructor <;> omega)
    have hd := Interval.subS_mem hx hs
    push_cast at hd
    have hk : (((1 - ⌊c⌋).toNat : ℕ) : ℝ) = 1 - (⌊c⌋ : ℝ) := by
      have : (((1 - ⌊c⌋).toNat : ℕ) : ℤ) = 1 - ⌊c⌋ := Int.toNat_of_nonneg (by omega)
      have e2 : ((((1 - ⌊c⌋).toNat : ℕ) : ℤ) : ℝ) = ((1 - ⌊c⌋ : ℤ) : ℝ) := by rw [this]
      push_cast at e2
      exact_mod_cast e2
    have hup := up (1 - ⌊c⌋).toNat hv
    have hd' : x + ((1 - ⌊c⌋).toNat : ℕ) ∈ Interval.subS X (Rop.sub (Rop.floor X.inf) (lit 1)) := by
      rw [hk, show x + (1 - (⌊c⌋ : ℝ)) = x - (⌊c⌋ - 1) by ring]; exact hd
    have hg := hP _ _ _ _ _ _ hr hd' (by rw [hk]; linarith) (by rw [hk]; linarith) hup
    have := addSq_mem hx _ 0 r _ (by omega) hg Z h5
    simp only [Nat.zero_add] at this
    rwa [sub_add_cancel] at this

theorem point_fin (hn : ¬ nan X.inf) (h : point tp X st = (.ok Z, st')) : ∃ c, Is X.inf c := by
  rcases inf_cases hn with h1 | h1 | h1
  · exact h1
  · exfalso
    unfold point at h
    rw [h1, floor_inf, if_neg eq_inf_one] at h
    obtain ⟨r, st1, hr, h2⟩ := bind_run h
    rw [if_pos lt_one_inf] at h2
    obtain ⟨h4, rfl⟩ := lift_run h2
    obtain ⟨k, hk, h5⟩ := bind_ok.1 h4
    rw [toInt_inf] at hk; cases hk
  · exfalso
    unfold point at h
    rw [h1, floor_ninf, if_neg eq_ninf_one] at h
    obtain ⟨r, st1, hr, h2⟩ := bind_run h
    rw [if_neg lt_one_ninf] at h2
    obtain ⟨h4, rfl⟩ := lift_run h2
    obtain ⟨k, hk, h5⟩ := bind_ok.1 h4
    rw [passes_ninf] at hk; cases hk

end Trigamma

variable {X Z : Interval D} {x v : ℝ} {tp : Interval D → PM (Interval D) (Interval D)} {st st' : PSt (Interval D)}

/-- C91 (partial): whatever `trigamma` returns for an interval contains the value of the trigamma function at each of its points which is not
a pole, if the lower end is not a pole and `trigamma_plus` encloses the values for arguments between 1 and 2.

Missing: intervals whose lower end is a pole (false, see `C91_pole_end_violated`), the integral in `trigamma_plus`. -/
theorem C91_partial (hP : PlusOk tp) (hx : x ∈ X) (hv : IsTrigamma x v) (hn : ∀ n : ℕ, ¬ Is X.inf (-n)) (h : trigamma tp X st = (.ok Z, st')) :
    v ∈ Z := by
  unfold trigamma at h
  by_cases h0 : Rop.lt (lit 0) X.inf = true
  · rw [if_pos h0] at h
    obtain ⟨A, st1, hA, h1⟩ := bind_run h
    obtain ⟨B, st2, hB, h2⟩ := bind_run h1
    obtain ⟨rfl, rfl⟩ := pure_run h2
    obtain ⟨b, hb⟩ := point_fin (X := Interval.point X.sup) hx.2.1 hA
    obtain ⟨a, ha⟩ := point_fin (X := Interval.point X.inf) hx.1.1 hB
    replace ha : Is X.inf a := ha
    replace hb : Is X.sup b := hb
    rw [Interval.lt_of_is Interval.is_zero ha] at h0
    have hab := (GammaFn.mem_of_is ha hb).1 hx
    have val : ∀ c, 0 < c → ∃ w, IsTrigamma c w := fun c hc => by
      obtain ⟨w, hw⟩ := exists_pos (y := c + 1) (by linarith)
      have := pred hw (by simpa using hc.ne')
      rw [add_sub_cancel_right] at this
      exact ⟨_, this⟩
    obtain ⟨wa, hwa⟩ := val a h0
    obtain ⟨wb, hwb⟩ := val b (by linarith)
    have h1 := Trigamma.point_mem hP (X := Interval.point X.inf) ha ((point_is ha).2 rfl) (Int.lt_floor_add_one a).le hwa hB
    have h2 := Trigamma.point_mem hP (X := Interval.point X.sup) hb ((point_is hb).2 rfl) (Int.lt_floor_add_one b).le hwb hA
    have hA' := C07_hull_contains ⟨_, h2⟩ ⟨_, h1⟩ (.inl h2)
    have hB' := C07_hull_contains ⟨_, h2⟩ ⟨_, h1⟩ (.inr h1)
    exact mem_between' hA' hB' (Set.mem_uIcc_of_le (anti hv hwb (by linarith) hab.2) (anti hwa hv h0 hab.1))
  rw [if_neg h0] at h
  by_cases h1 : Rop.eq (Rop.floor X.inf) (Rop.floor X.sup) = true
  · rw [h1, if_neg (by simp)] at h
    obtain ⟨u, w, hu, hw, hf⟩ := floor_eq_is hx h1
    by_cases h2 : Rop.eq (Rop.floor X.inf) X.inf = true
    · exfalso
      rw [Interval.eq_of_is (is_floor hu) hu] at h2
      rw [Interval.lt_of_is Interval.is_zero hu, not_lt, ← h2] at h0
      have h3 : ⌊u⌋ ≤ 0 := by exact_mod_cast h0
      refine hn (-⌊u⌋).toNat ?_
      have : (((-⌊u⌋).toNat : ℤ) : ℝ) = ((-⌊u⌋ : ℤ) : ℝ) := by rw [Int.toNat_of_nonneg (by omega)]
      push_cast at this
      have e : -(((-⌊u⌋).toNat : ℕ) : ℝ) = u := by rw [this, neg_neg, h2]
      rw [e]; exact hu
    rw [if_neg h2] at h
    have hxu := (GammaFn.mem_of_is hu hw).1 hx
    have := Int.lt_floor_add_one w
    rw [← hf] at this
    exact Trigamma.point_mem hP hu hx (by linarith) hv h
  · rw [Bool.not_eq_true] at h1
    rw [h1, if_pos (by simp)] at h
    obtain ⟨rfl, rfl⟩ := pure_run h
    exact ⟨Interval.is_zero.lo.mono (Trigamma.nonneg hv), (mem_whole v).2⟩

/-- C91 fails for an interval whose lower end is a pole (gamma.hpp:527-529): for `[0, 1/2]` the result is `[DBL_MAX, ∞]`, whatever `trigamma_plus` does, but the
value at 1/2 is below 8. -/
theorem C91_pole_end_violated (tp : Interval D → PM (Interval D) (Interval D)) (st : PSt (Interval D)) :
    trigamma tp ⟨lit 0, lit (1 / 2)⟩ st = (.ok ⟨Rop.maxv, Rop.inf⟩, st) ∧ (1 / 2 : ℝ) ∈ (⟨lit 0, lit (1 / 2)⟩ : Interval D) ∧
      ∃ v, IsTrigamma (1 / 2) v ∧ v ∉ (⟨Rop.maxv, Rop.inf⟩ : Interval D) := by
  refine ⟨?_, (GammaFn.mem_of_is (X := ⟨lit 0, lit (1 / 2)⟩) Interval.is_zero is_gm_1_2).2 ⟨by norm_num, le_rfl⟩, ?_⟩
  · unfold trigamma
    rw [if_neg (by decide +kernel), if_neg (by decide +kernel), if_pos (by decide +kernel)]
    rfl
  · obtain ⟨w, hw⟩ := Trigamma.exists_pos (y := 3 / 2) (by norm_num)
    have h1 := Trigamma.anti Trigamma.exists_one hw (by norm_num) (by norm_num)
    have h2 := Trigamma.pred hw (by norm_num)
    norm_num at h2
    refine ⟨_, h2, fun h => ?_⟩
    have h3 : Rop.lt (lit 8 : D) Rop.maxv = true := by decide +kernel
    have h4 := ((RopSem.lt_iff _ _).1 h3).2.2
    have h8 : Is (lit 8 : D) 8 := by have := is_lit_int (n := 8) (by norm_num); exact_mod_cast this
    rw [h8.2] at h4
    have h5 : (8 : ℝ) < w + 4 := by exact_mod_cast h4.trans_le h.1.2
    nlinarith [Real.pi_lt_d2, Real.pi_pos]

/-- `[1/2, 2]` contains the values of the trigamma function between 1 and 2 -/
def exPlus : Interval D → PM (Interval D) (Interval D) := fun _ => pure ⟨lit (1 / 2), lit 2⟩

theorem exPlus_ok : PlusOk exPlus := fun X Z x v st st' h hx h1 h2 hv => by
  obtain ⟨rfl, rfl⟩ := pure_run h
  have e1 := Trigamma.anti Trigamma.exists_one hv one_pos h1
  have e2 := Trigamma.succ Trigamma.exists_one
  norm_num at e2
  have e3 := Trigamma.anti hv e2 (by linarith) h2
  exact (GammaFn.mem_of_is (X := ⟨lit (1 / 2), lit 2⟩) is_gm_1_2 Interval.is_two).2
    ⟨by nlinarith [Real.pi_gt_d2], by nlinarith [Real.pi_lt_d2, Real.pi_pos]⟩

/-- C91 applies to `[1/2, 3]` and to `[-3/4, -1/2]` -/
example : okRun (trigamma exPlus ⟨lit (1 / 2), lit 3⟩ (st0 1)) = true ∧ okRun (trigamma exPlus ⟨lit (-3 / 4), lit (-1 / 2)⟩ (st0 1)) = true := by
  constructor <;> decide +kernel

end Kv
