import Verif.Conv.DDModel
import Verif.Conv.ReadMain
import Verif.Double.DDLemmas
import Verif.Float.Exact

/-!
# `stringtodd`: the two components
-/

set_option exponentiation.threshold 3000

namespace Kv
namespace Conv
open Rop (lit)
open Emu (maxQ64)

/-! ## the fraction loop -/

theorem binLoopDD_spec {fast : Bool} {X : ℚ} {r1 : List ℕ} {fuel : ℕ} {fs : List ℕ} {st st' : BinSt} (hfs : ∀ d ∈ fs, d < 10)
    (h : Inv X r1 st (fv 10 fs)) (hr : binLoopDD fast fuel fs st = .ok st') :
    ∃ f : ℚ, 0 ≤ f ∧ f < 1 ∧ Inv X r1 st' f ∧ (f = 0 ∨ ∃ mx, st'.max = some mx ∧ wanted fast mx st'.min ≤ 0) := by
  induction fuel generalizing fs st with
  | zero => simp [binLoopDD] at hr
  | succ fuel ih =>
    rw [binLoopDD] at hr
    by_cases h0 : fs = []
    · subst h0
      simp only [if_true, Except.ok.injEq] at hr
      subst hr
      exact ⟨0, le_rfl, by norm_num, h, Or.inl rfl⟩
    rw [if_neg h0] at hr
    have step : ∀ m, binLoopDD fast fuel ((mulPass 10 (2 ^ m) fs).1.rdropWhile (· = 0))
        ((digitsBE 2 m (mulPass 10 (2 ^ m) fs).2).foldl addBit st) = .ok st' →
        ∃ f : ℚ, 0 ≤ f ∧ f < 1 ∧ Inv X r1 st' f ∧ (f = 0 ∨ ∃ mx, st'.max = some mx ∧ wanted fast mx st'.min ≤ 0) := by
      intro m hgo
      refine ih ?_ (mul_inv_step hfs m h) hgo
      exact fun d hd => mulPass_digits (by norm_num) fs d (mem_rdropWhile hd)
    cases hm : st.max with
    | none =>
      rw [hm] at hr
      exact step 16 hr
    | some mx =>
      rw [hm] at hr
      dsimp only at hr
      by_cases hc : wanted fast mx st.min ≤ 0
      · rw [if_pos hc] at hr
        simp only [Except.ok.injEq] at hr
        subst hr
        exact ⟨_, fv_nonneg _, fv_lt hfs, h, Or.inr ⟨mx, hm, hc⟩⟩
      · rw [if_neg hc] at hr
        exact step _ hr

theorem binLoopDD_some {fast : Bool} {fuel : ℕ} {fs : List ℕ} {st : BinSt} {mx : ℤ} (hm : st.max = some mx)
    (hf : (wanted fast mx st.min).toNat + 1 ≤ fuel) : ∃ st', binLoopDD fast fuel fs st = .ok st' := by
  induction fuel generalizing fs st with
  | zero => omega
  | succ fuel ih =>
    rw [binLoopDD]
    by_cases h0 : fs = []
    · rw [if_pos h0]; exact ⟨_, rfl⟩
    rw [if_neg h0, hm]
    dsimp only
    by_cases hc : wanted fast mx st.min ≤ 0
    · rw [if_pos hc]; exact ⟨_, rfl⟩
    rw [if_neg hc]
    apply ih (addBits_some _ hm)
    rw [addBits_min, digitsBE_length]
    have : ∀ d : ℤ, wanted fast mx (st.min - d) = wanted fast mx st.min - d := by
      intro d; unfold wanted; split_ifs <;> ring
    rw [this]
    omega

theorem binLoopDD_zero {fast : Bool} {fuel : ℕ} {fs : List ℕ} {st : BinSt} (hz : fv 10 fs = 0) (hf : 2 ≤ fuel) :
    ∃ st', binLoopDD fast fuel fs st = .ok st' := by
  obtain ⟨f, rfl⟩ := Nat.exists_eq_add_of_le' hf
  rw [show f + 2 = (f + 1) + 1 from rfl, binLoopDD]
  by_cases h0 : fs = []
  · rw [if_pos h0]; exact ⟨_, rfl⟩
  rw [if_neg h0]
  have hgo : ∀ m st2, ∃ st', binLoopDD fast (f + 1) ((mulPass 10 (2 ^ m) fs).1.rdropWhile (· = 0)) st2 = .ok st' := by
    intro m st2
    rw [(mulPass_zero hz m).1, binLoopDD, if_pos rfl]; exact ⟨_, rfl⟩
  cases st.max with
  | none => exact hgo 16 _
  | some mx =>
    dsimp only
    split_ifs
    · exact ⟨_, rfl⟩
    · exact hgo _ _

/-- for a fraction consisting of zeros no bit is found -/
theorem binLoopDD_zeros {fast : Bool} {fuel : ℕ} {fs : List ℕ} {st : BinSt} (hm : st.max = none) (h0 : fs ≠ []) (hz : fv 10 fs = 0) :
    ∃ st', binLoopDD fast (fuel + 2) fs st = .ok st' ∧ st'.max = none ∧ st'.min = st.min - 16 := by
  rw [show fuel + 2 = (fuel + 1) + 1 from rfl, binLoopDD, if_neg h0, hm]
  dsimp only
  rw [(mulPass_zero hz 16).1, (mulPass_zero hz 16).2, binLoopDD, if_pos rfl]
  refine ⟨_, rfl, ?_, ?_⟩
  · have : digitsBE 2 16 0 = [0, 0, 0, 0, 0, 0, 0, 0, 0, 0, 0, 0, 0, 0, 0, 0] := by decide
    rw [this]
    simp [addBit, hm]
  · rw [addBits_min, digitsBE_length]; rfl

theorem binLoopDD_none {fast : Bool} {fuel j : ℕ} {fs : List ℕ} {st : BinSt} (hfs : ∀ d ∈ fs, d < 10) (hm : st.max = none)
    (h0min : st.min ≤ 0) (hj : fv 10 fs = 0 ∨ 1 ≤ fv 10 fs * 10 ^ j) (hf : j + 1100 ≤ fuel) :
    ∃ st', binLoopDD fast fuel fs st = .ok st' := by
  induction fuel generalizing fs st j with
  | zero => omega
  | succ fuel ih =>
    rcases hj with hj | hj
    · exact binLoopDD_zero hj (by omega)
    rw [binLoopDD]
    by_cases h0 : fs = []
    · rw [if_pos h0]; exact ⟨_, rfl⟩
    rw [if_neg h0, hm]
    have h1 := mulPass_val (b := 10) (pm := 2 ^ 16) (by norm_num) fs
    have h2 := mulPass_carry (b := 10) (pm := 2 ^ 16) (by positivity) hfs
    have h3 := mulPass_digits (b := 10) (pm := 2 ^ 16) (by norm_num) fs
    have hdg := digitsBE_digits (B := 2) (by norm_num) h2
    dsimp only
    by_cases hc : (mulPass 10 (2 ^ 16) fs).2 = 0
    · have hz : ∀ d ∈ digitsBE 2 16 (mulPass 10 (2 ^ 16) fs).2, d = 0 := by rw [hc]; decide
      have hjp : j ≠ 0 := by
        rintro rfl
        have := fv_lt hfs
        simp at hj
        linarith
      obtain ⟨i, rfl⟩ := Nat.exists_eq_add_one_of_ne_zero hjp
      apply ih (j := i) (fun d hd => h3 d (mem_rdropWhile hd)) (addBits_none' hm hz)
      · rw [addBits_min, digitsBE_length]; push_cast; omega
      · right
        rw [fv_rdropWhile (by norm_num)]
        rw [hc, Nat.cast_zero, zero_add] at h1
        rw [← h1]
        push_cast
        rw [pow_succ] at hj
        have : 0 ≤ fv 10 fs * 10 ^ i := mul_nonneg (fv_nonneg _) (by positivity)
        clear hf ih
        nlinarith
      · exact Nat.le_of_succ_le_succ (by rw [Nat.succ_eq_add_one]; calc i + 1100 + 1 = i + 1 + 1100 := Nat.add_right_comm _ _ _
          _ ≤ fuel + 1 := hf)
    · obtain ⟨mx, m1, m2⟩ := addBits_none hdg hm (by rw [digitsBE_val]; simpa using hc)
      apply binLoopDD_some m1
      rw [addBits_min, digitsBE_length]
      rw [digitsBE_length] at m2
      unfold wanted
      cases fast
      · simp only [Bool.false_eq_true, if_false]; omega
      · simp only [if_true]; omega

theorem binLoopDD_ends {fast : Bool} {fp : List ℕ} (hfp : ∀ d ∈ fp, d < 10) {st : BinSt} (h0 : st.min = 0)
    (hm : ∀ mx, st.max = some mx → 0 ≤ mx) :
    ∃ st', binLoopDD fast (fp.length + 1200) fp st = .ok st' := by
  cases h : st.max with
  | some mx =>
    have := hm mx h
    refine binLoopDD_some h ?_
    unfold wanted
    cases fast
    · simp only [Bool.false_eq_true, if_false]; omega
    · simp only [if_true]; omega
  | none =>
    refine binLoopDD_none (j := fp.length) hfp h h0.le ?_ (by omega)
    have h1 := fv_eq (b := 10) (by norm_num) fp
    by_cases h2 : vBE 10 fp = 0
    · left
      rw [h2] at h1
      have : ((10 : ℕ) : ℚ) ^ fp.length ≠ 0 := by positivity
      simpa [this] using h1
    · right
      push_cast at h1
      rw [h1]
      exact_mod_cast Nat.pos_of_ne_zero h2

/-! ## the first component -/

theorem part1_cons (mx : ℤ) (b : ℕ) (t : List ℕ) (i : ℤ) (r : D) :
    part1 mx (b :: t) i r = if mx - i = 53 ∨ i = -1075 then
      if b = 0 then ⟨r, false, i, b :: t⟩ else ⟨Rop.add r (lit (2 ^ (i + 1))), true, i, b :: t⟩
    else part1 mx t (i - 1) (Rop.add r (lit (b * 2 ^ i))) := rfl

/-- What the first loop leaves when the bits have the value `Y`: the component `S` and the rest of the bits. -/
structure P1 (mx : ℤ) (low : ℤ) (Y : ℚ) (p : Part1) (S : ℚ) : Prop where
  rep : binary64.RepU S
  nonneg : 0 ≤ S
  val : p.r = lit S
  sum : Y = S - (if p.flag then 2 ^ (p.max2 + 1) else 0) + fv 2 p.rest * 2 ^ (p.max2 + 1)
  bits : ∀ d ∈ p.rest, d < 2
  len : p.max2 - p.rest.length + 1 = low
  over : S ≤ binary64.maxQ ∨ (p.flag = true ∧ S - 2 ^ p.max2 ≤ Y)
  stop : (p.rest = [] ∧ p.flag = false ∧ mx - p.max2 ≤ 53 ∧ -1075 ≤ p.max2) ∨ (-1075 ≤ p.max2 ∧ (mx - p.max2 = 53 ∨ (p.max2 = -1075 ∧ mx - p.max2 ≤ 53)))

theorem part1_spec {mx : ℤ} (hmx : mx ≤ 1023) {t : List ℕ} (ht : ∀ d ∈ t, d < 2) {i : ℤ} {n K : ℕ} (hn : mx = i + n) (hn53 : n ≤ 53)
    (hi : -1075 ≤ i) (hK : K < 2 ^ n) {R : ℚ} (hRK : R = K * 2 ^ (i + 1)) (hR : binary64.Rep R) :
    ∃ S, P1 mx (i - t.length + 1) (R + fv 2 t * 2 ^ (i + 1)) (part1 mx t i (Hw.fin R hR)) S := by
  have hR0 : 0 ≤ R := by rw [hRK]; positivity
  have hRm : R ≤ binary64.maxQ := (le_abs_self R).trans hR.abs_le
  induction t generalizing i n K R with
  | nil =>
    refine ⟨R, hR.repU, hR0, (lit_fin hR).symm, ?_, by simp [part1], by simp [part1], Or.inl hRm, Or.inl ⟨rfl, rfl, ?_, hi⟩⟩
    · simp [part1, fv]
    · show mx - i ≤ 53; omega
  | cons b t ih =>
    rw [part1_cons]
    have hb := ht b List.mem_cons_self
    by_cases hc : mx - i = 53 ∨ i = -1075
    · rw [if_pos hc]
      have hstop : mx - i = 53 ∨ (i = -1075 ∧ mx - i ≤ 53) := by omega
      by_cases hb0 : b = 0
      · rw [if_pos hb0]
        refine ⟨R, hR.repU, hR0, (lit_fin hR).symm, ?_, ht, rfl, Or.inl hRm, Or.inr ⟨hi, hstop⟩⟩
        simp
      · rw [if_neg hb0]
        have hb1 : b = 1 := by omega
        have hlit : binary64.Rep ((2 : ℚ) ^ (i + 1)) := by
          have := rep64 (K := 1) (e := i + 1) (n := 1) (mx := i + 1) (by norm_num) (by norm_num) (by omega) (by push_cast; ring) (by omega)
          simpa using this
        refine ⟨R + 2 ^ (i + 1), ?_, by positivity, lit_add_fin hR hlit, ?_, ht, rfl, Or.inr ⟨rfl, ?_⟩, Or.inr ⟨hi, hstop⟩⟩
        · rw [hRK]
          have := Format.repU_of_le (F := binary64) (m := (K : ℤ) + 1) (e := i + 1) (by
            rw [abs_of_nonneg (by positivity)]
            have : K + 1 ≤ 2 ^ 53 := lt_of_lt_of_le hK (Nat.pow_le_pow_right (by norm_num) hn53)
            exact_mod_cast this) (by show (-1074 : ℤ) ≤ i + 1; omega)
          convert this using 1
          push_cast; ring
        · simp
        · have hz : (2 : ℚ) ^ (i + 1) = 2 * 2 ^ i := by rw [zpow_add₀ (by norm_num), zpow_one]; ring
          have hp : (0 : ℚ) < 2 ^ i := zpow_pos (by norm_num) _
          have := mul_nonneg (fv_nonneg (b := 2) t) hp.le
          dsimp only
          rw [fv, hb1, hz]
          push_cast
          linarith
    · rw [if_neg hc]
      push Not at hc
      have hz : (2 : ℚ) ^ (i + 1) = 2 * 2 ^ i := by rw [zpow_add₀ (by norm_num), zpow_one]; ring
      have hlit : binary64.Rep ((b : ℚ) * 2 ^ i) :=
        rep64 (K := b) (e := i) (n := 1) (mx := i) (by omega) (by norm_num) (by omega) (by push_cast; ring) (by omega)
      have hsum : R + (b : ℚ) * 2 ^ i = ((2 * K + b : ℕ) : ℚ) * 2 ^ i := by rw [hRK, hz]; push_cast; ring
      have hK' : 2 * K + b < 2 ^ (n + 1) := by rw [pow_succ]; omega
      have hrep : binary64.Rep (R + (b : ℚ) * 2 ^ i) := by
        rw [hsum]
        exact rep64 (n := n + 1) (mx := mx) hK' (by omega) (by omega) (by push_cast; omega) hmx
      rw [lit_add_fin hR hlit, lit_fin hrep]
      obtain ⟨S, hS⟩ := ih (fun x hx => ht x (List.mem_cons_of_mem _ hx)) (i := i - 1) (n := n + 1) (K := 2 * K + b)
        (by push_cast; omega) (by omega) (by omega) hK' (by rw [hsum, sub_add_cancel]) hrep (by positivity)
        ((le_abs_self _).trans hrep.abs_le)
      refine ⟨S, ?_⟩
      convert hS using 1
      · rw [List.length_cons]; push_cast; ring
      · rw [fv, sub_add_cancel, hz]
        push_cast
        ring

/-! ## the second component -/

theorem part2_cons (fast neg : Bool) (mode : RMode) (flag : Bool) (max2 : ℤ) (b : ℕ) (t : List ℕ) (i : ℤ) (msb : Option ℤ) (r : D) :
    part2 fast neg mode flag max2 (b :: t) i msb r =
    if (if fast then max2 - i = 53 else msb = some (i + 53)) ∨ i = -1075 then
      if away mode neg (if b = 0 then 0 else 5) then Rop.add r (lit (2 ^ (i + 1))) else r
    else
      part2 fast neg mode flag max2 t (i - 1)
        (if msb = none ∧ ((flag ∧ b = 0) ∨ (¬ flag ∧ b = 1)) then some i else msb) (Rop.add r (lit (b * 2 ^ i))) := rfl

theorem rep_int {K : ℤ} {e : ℤ} {n : ℕ} (hK : |K| ≤ 2 ^ n) (hn : n ≤ 53) (he : -1074 ≤ e) (hm : e + n ≤ 1023) :
    binary64.Rep ((K : ℚ) * 2 ^ e) := by
  have h53 : |K| ≤ 2 ^ 53 := hK.trans (pow_le_pow_right₀ (by norm_num) hn)
  refine Format.rep_of_repU (Format.repU_of_le (F := binary64) h53 he) ?_
  have h1 : |(K : ℚ)| ≤ 2 ^ n := by exact_mod_cast hK
  rw [abs_mul, abs_of_pos (zpow_pos (by norm_num : (0 : ℚ) < 2) e)]
  refine (mul_le_mul_of_nonneg_right h1 (zpow_nonneg (by norm_num) _)).trans ?_
  rw [← zpow_natCast, ← zpow_add₀ (by norm_num)]
  exact (zpow_le_zpow_right₀ (by norm_num) (by omega)).trans Emu.pow_le_maxQ64

/-- the number of significant bits found so far -/
def Found (fast : Bool) (max2 : ℤ) (i : ℤ) (n : ℕ) (msb : Option ℤ) : Prop :=
  if fast then max2 = i + n else match msb with | none => n = 0 | some m => m = i + n

theorem part2_spec {fast neg : Bool} {mode : RMode} {flag : Bool} {max2 : ℤ} {Z f : ℚ} (hf0 : 0 ≤ f) (hf1 : f < 1)
    {t : List ℕ} (ht : ∀ d ∈ t, d < 2) {i : ℤ} {msb : Option ℤ} {n : ℕ} {K : ℤ} (hfound : Found fast max2 i n msb) (hn53 : n ≤ 53)
    (hi : -1075 ≤ i) (hin : i + n ≤ 970) (hK0 : 0 ≤ K + (if flag then 2 ^ n else 0)) (hK1 : K + (if flag then 2 ^ n else 0) < 2 ^ n)
    {Q : ℚ} (hQK : Q = K * 2 ^ (i + 1)) (hQ : binary64.Rep Q)
    (hZ : Z = Q + (fv 2 t + f / 2 ^ t.length) * 2 ^ (i + 1))
    (hfull : f = 0 ∨ i - t.length + 1 ≤ (if fast then max2 - 53 else -1075)) :
    ∃ Q' hQ', part2 fast neg mode flag max2 t i msb (Hw.fin Q hQ) = Hw.fin Q' hQ' ∧
      (Grow mode neg → Z ≤ Q') ∧ (Shrink mode neg → Q' ≤ Z) := by
  induction t generalizing i n K Q msb with
  | nil =>
    have hf : f = 0 := by
      rcases hfull with h | h
      · exact h
      · simp only [List.length_nil, Nat.cast_zero, sub_zero] at h
        cases fast
        · simp only [Bool.false_eq_true, if_false] at h; omega
        · simp only [if_true] at h
          have : max2 = i + n := hfound
          omega
    have : Z = Q := by rw [hZ, hf]; simp [fv]
    exact ⟨Q, hQ, rfl, fun _ => this.le, fun _ => this.ge⟩
  | cons b t ih =>
    have hy := rest_bounds ht hf0 hf1
    have hp : (0 : ℚ) < 2 ^ (i + 1) := zpow_pos (by norm_num) _
    have hpn : (0 : ℤ) < 2 ^ n := by positivity
    rw [part2_cons]
    by_cases hc : (if fast then max2 - i = 53 else msb = some (i + 53)) ∨ i = -1075
    · rw [if_pos hc]
      by_cases ha : away mode neg (if b = 0 then 0 else 5) = true
      · rw [if_pos ha]
        have hlit : binary64.Rep ((2 : ℚ) ^ (i + 1)) := by
          have := rep64 (K := 1) (e := i + 1) (n := 1) (mx := i + 1) (by norm_num) (by norm_num) (by omega) (by push_cast; ring) (by omega)
          simpa using this
        have hrep : binary64.Rep (Q + 2 ^ (i + 1)) := by
          have := rep_int (K := K + 1) (e := i + 1) (n := n) (by rw [abs_le]; split_ifs at hK0 hK1 <;> omega) hn53 (by omega) (by omega)
          rw [hQK]
          convert this using 1
          push_cast; ring
        refine ⟨Q + 2 ^ (i + 1), hrep, by rw [lit_add_fin hQ hlit, lit_fin hrep], fun _ => ?_, fun hs => ?_⟩
        · rw [hZ]; nlinarith [hy.2]
        · rw [away_of_shrink hs] at ha; simp at ha
      · rw [if_neg ha]
        refine ⟨Q, hQ, rfl, fun hg => absurd (away_of_grow hg _) ha, fun _ => ?_⟩
        rw [hZ]
        have := mul_nonneg hy.1 hp.le
        linarith
    · rw [if_neg hc]
      push Not at hc
      have hb := ht b List.mem_cons_self
      have hz : (2 : ℚ) ^ (i + 1) = 2 * 2 ^ i := by rw [zpow_add₀ (by norm_num), zpow_one]; ring
      have hlit : binary64.Rep ((b : ℚ) * 2 ^ i) :=
        rep64 (K := b) (e := i) (n := 1) (mx := i) (by omega) (by norm_num) (by omega) (by push_cast; ring) (by omega)
      have hsum : Q + (b : ℚ) * 2 ^ i = ((2 * K + b : ℤ) : ℚ) * 2 ^ i := by rw [hQK, hz]; push_cast; ring
      have hZ' : Z = Q + (b : ℚ) * 2 ^ i + (fv 2 t + f / 2 ^ t.length) * 2 ^ (i - 1 + 1) := by
        rw [hZ, fv, List.length_cons, sub_add_cancel, hz, pow_succ]
        push_cast
        field_simp
        ring
      have hfull' : f = 0 ∨ i - 1 - t.length + 1 ≤ (if fast then max2 - 53 else -1075) := by
        rcases hfull with h | h
        · exact Or.inl h
        · right
          rw [List.length_cons] at h
          push_cast at h
          omega
      -- one more bit
      have step : ∀ (n' : ℕ) (msb' : Option ℤ), Found fast max2 (i - 1) n' msb' → n' ≤ 53 → i - 1 + n' ≤ 970 →
          0 ≤ 2 * K + b + (if flag then 2 ^ n' else 0) → 2 * K + b + (if flag then 2 ^ n' else 0) < 2 ^ n' →
          ∃ Q' hQ', part2 fast neg mode flag max2 t (i - 1) msb' (Rop.add (Hw.fin Q hQ) (lit (b * 2 ^ i))) = Hw.fin Q' hQ' ∧
            (Grow mode neg → Z ≤ Q') ∧ (Shrink mode neg → Q' ≤ Z) := by
        intro n' msb' g1 g2 g3 g4 g5
        have hrep : binary64.Rep (Q + (b : ℚ) * 2 ^ i) := by
          rw [hsum]
          have hpn' : (0 : ℤ) < 2 ^ n' := by positivity
          exact rep_int (n := n') (by rw [abs_le]; split_ifs at g4 g5 <;> omega) g2 (by omega) (by omega)
        rw [lit_add_fin hQ hlit, lit_fin hrep]
        exact ih (fun x hx => ht x (List.mem_cons_of_mem _ hx)) g1 g2 (by omega) g3 g4 g5 (by rw [hsum, sub_add_cancel]) hrep hZ' hfull'
      have more : n ≤ 52 → ∀ msb', Found fast max2 (i - 1) (n + 1) msb' →
          ∃ Q' hQ', part2 fast neg mode flag max2 t (i - 1) msb' (Rop.add (Hw.fin Q hQ) (lit (b * 2 ^ i))) = Hw.fin Q' hQ' ∧
            (Grow mode neg → Z ≤ Q') ∧ (Shrink mode neg → Q' ≤ Z) := by
        intro hn msb' hF
        refine step (n + 1) msb' hF (by omega) (by push_cast; omega) ?_ ?_
        · rw [pow_succ]; split_ifs at hK0 hK1 ⊢ <;> omega
        · rw [pow_succ]; split_ifs at hK0 hK1 ⊢ <;> omega
      cases hfa : fast with
      | true =>
        subst hfa
        have hmn : max2 = i + n := hfound
        have h1 : ¬ max2 - i = 53 := hc.1
        exact more (by omega) _ (show max2 = i - 1 + ((n + 1 : ℕ) : ℤ) by push_cast; omega)
      | false =>
        subst hfa
        have h1 : ¬ msb = some (i + 53) := hc.1
        cases msb with
        | some m =>
          have hmn : m = i + n := hfound
          have hn52 : n ≤ 52 := by
            by_contra hcon
            have : n = 53 := by omega
            subst this
            exact h1 (by rw [hmn]; rfl)
          have e : (if (some m : Option ℤ) = none ∧ ((flag ∧ b = 0) ∨ (¬ flag ∧ b = 1)) then some i else some m) = some m := by simp
          rw [e]
          exact more hn52 _ (show m = i - 1 + ((n + 1 : ℕ) : ℤ) by push_cast; omega)
        | none =>
          have hn0 : n = 0 := hfound
          subst hn0
          by_cases hfl : ((flag = true ∧ b = 0) ∨ (¬ flag = true ∧ b = 1))
          · rw [if_pos ⟨rfl, hfl⟩]
            refine step 1 (some i) (show i = i - 1 + ((1 : ℕ) : ℤ) by push_cast; omega) (by norm_num) (by omega) ?_ ?_
            · split_ifs at hK0 hK1 ⊢ <;> simp at hfl <;> omega
            · split_ifs at hK0 hK1 ⊢ <;> simp at hfl <;> omega
          · rw [if_neg (fun h => hfl h.2)]
            refine step 0 none rfl (by norm_num) (by omega) ?_ ?_
            · cases flag <;> simp at hfl hK0 hK1 ⊢ <;> omega
            · cases flag <;> simp at hfl hK0 hK1 ⊢ <;> omega

/-! ## both components -/

/-- `x1 + x2` is an upper bound for `v` -/
def UpOf2 (x : DD) (v : ℚ) : Prop :=
  match x.a1, x.a2 with
  | .fin q1 _, .fin q2 _ => v ≤ q1 + q2
  | .pinf, .fin _ _ => True
  | .pinf, .pinf => True
  | _, _ => False

/-- `x1 + x2` is a lower bound for `v` -/
def DnOf2 (x : DD) (v : ℚ) : Prop :=
  match x.a1, x.a2 with
  | .fin q1 _, .fin q2 _ => q1 + q2 ≤ v
  | .ninf, .fin _ _ => True
  | .ninf, .ninf => True
  | _, _ => False

theorem neg_up2 {r1 r2 : D} {X : ℚ} (h : UpOf2 ⟨r1, r2⟩ X) : DnOf2 ⟨(Rop.neg r1 : D), (Rop.neg r2 : D)⟩ (-X) := by
  rcases r1 with _ | _ | _ | ⟨q, hq⟩ <;> rcases r2 with _ | _ | _ | ⟨q', hq'⟩ <;> first | exact h.elim | trivial | skip
  show -q + -q' ≤ -X
  have : X ≤ q + q' := h
  linarith

theorem neg_dn2 {r1 r2 : D} {X : ℚ} (h : DnOf2 ⟨r1, r2⟩ X) : UpOf2 ⟨(Rop.neg r1 : D), (Rop.neg r2 : D)⟩ (-X) := by
  rcases r1 with _ | _ | _ | ⟨q, hq⟩ <;> rcases r2 with _ | _ | _ | ⟨q', hq'⟩ <;> first | exact h.elim | trivial | skip
  show -X ≤ -q + -q'
  have : q + q' ≤ X := h
  linarith

theorem signed2_spec {neg : Bool} {mode : RMode} {X : ℚ} {r1 r2 : D} (hg : Grow mode neg → UpOf2 ⟨r1, r2⟩ X)
    (hs : Shrink mode neg → DnOf2 ⟨r1, r2⟩ X) :
    (mode = .up → UpOf2 ⟨signed neg r1, signed neg r2⟩ ((if neg then -1 else 1) * X)) ∧
    (mode = .down → DnOf2 ⟨signed neg r1, signed neg r2⟩ ((if neg then -1 else 1) * X)) := by
  cases neg
  · simp only [signed, Bool.false_eq_true, if_false, one_mul]
    exact ⟨fun h => hg (Or.inl ⟨h, rfl⟩), fun h => hs (Or.inl ⟨h, rfl⟩)⟩
  · simp only [signed, if_true, neg_mul, one_mul]
    exact ⟨fun h => neg_dn2 (hs (Or.inr ⟨h, rfl⟩)), fun h => neg_up2 (hg (Or.inr ⟨h, rfl⟩))⟩

theorem shrink_iff {mode : RMode} {neg : Bool} : ((mode = .down && !neg) || (mode = .up && neg)) = true ↔ Shrink mode neg := by
  unfold Shrink; simp

theorem grow_iff {mode : RMode} {neg : Bool} : ((mode = .up && !neg) || (mode = .down && neg)) = true ↔ Grow mode neg := by
  unfold Grow; simp

theorem not_both {mode : RMode} {neg : Bool} (h1 : Grow mode neg) (h2 : Shrink mode neg) : False := by
  rcases h1 with ⟨rfl, rfl⟩ | ⟨rfl, rfl⟩ <;> rcases h2 with ⟨h, h'⟩ | ⟨h, h'⟩ <;> simp_all

theorem max_pair : (binary64.maxQ * 2 ^ (-54 : ℤ)) = DD.max2 := by
  rw [maxQ64, DD.max2, mul_assoc, ← zpow_add₀ (by norm_num)]; norm_num

theorem max_next : binary64.maxQ + 2 ^ (971 : ℤ) = 2 ^ (1024 : ℤ) := by
  rw [maxQ64, show (1024 : ℤ) = 971 + 53 by norm_num, zpow_add₀ (by norm_num)]; norm_num

theorem finishDD_spec {fast neg : Bool} {mode : RMode} {X f : ℚ} {r1 : List ℕ} {st : BinSt} {mx : ℤ} (h : Inv X r1 st f)
    (hr1 : ∀ d ∈ r1, d < 2) (hm : st.max = some mx) (hf0 : 0 ≤ f) (hf1 : f < 1) (hfull : f = 0 ∨ wanted fast mx st.min ≤ 0)
    (hbig : 1023 < mx → (2 : ℚ) ^ mx ≤ X)
    (hlim : X < binary64.maxQ + 2 ^ (970 : ℤ) ∨ binary64.maxQ + 2 ^ (971 : ℤ) ≤ X ∨ Grow mode neg) :
    (mode = .up → UpOf2 (finishDD fast neg mode mx (r1 ++ st.bits)) ((if neg then -1 else 1) * X)) ∧
    (mode = .down → DnOf2 (finishDD fast neg mode mx (r1 ++ st.bits)) ((if neg then -1 else 1) * X)) := by
  have hd : ∀ d ∈ r1 ++ st.bits, d < 2 := by
    intro d hd
    rcases List.mem_append.1 hd with hd | hd
    · exact hr1 d hd
    · exact h.bit d hd
  have hsc := h.scaled hm
  have hlen := h.some' mx hm
  generalize r1 ++ st.bits = bits at *
  have hy := rest_bounds hd hf0 hf1
  have hpos : (0 : ℚ) < 2 ^ (mx + 1) := zpow_pos (by norm_num) _
  have hX0 : 0 ≤ X := by rw [hsc]; exact mul_nonneg hy.1 hpos.le
  unfold finishDD
  by_cases h1 : mx > 1023
  · rw [if_pos h1]
    by_cases ha : ((mode = .down && !neg) || (mode = .up && neg)) = true
    · rw [if_pos ha, max_pair, lit_fin DD.rep_max2]
      refine signed2_spec (fun hg => (not_both hg (shrink_iff.1 ha)).elim) fun hs => ?_
      show binary64.maxQ + DD.max2 ≤ X
      have h2 : (2 : ℚ) ^ (1024 : ℤ) ≤ 2 ^ mx := zpow_le_zpow_right₀ (by norm_num) (by omega)
      have h3 := DD.max2_lt
      have h4 : (2 : ℚ) ^ (970 : ℤ) ≤ 2 ^ (971 : ℤ) := zpow_le_zpow_right₀ (by norm_num) (by norm_num)
      have h5 := max_next
      have h6 := hbig h1
      linarith
    · rw [if_neg ha]
      exact signed2_spec (fun _ => trivial) fun hs => absurd (shrink_iff.2 hs) ha
  · rw [if_neg h1]
    by_cases h2 : mx < -1075
    · rw [if_pos h2]
      have hlt : X ≤ 2 ^ (-1074 : ℤ) := by
        have : (2 : ℚ) ^ (mx + 1) ≤ 2 ^ (-1074 : ℤ) := zpow_le_zpow_right₀ (by norm_num) (by omega)
        rw [hsc]
        exact (mul_le_of_le_one_left hpos.le hy.2.le).trans this
      by_cases ha : ((mode = .up && !neg) || (mode = .down && neg)) = true
      · rw [if_pos ha, lit_fin rep_minQ, lit_fin rep_zero64]
        refine signed2_spec (fun _ => ?_) fun hs => (not_both (grow_iff.1 ha) hs).elim
        show X ≤ 2 ^ (-1074 : ℤ) + 0
        rwa [add_zero]
      · rw [if_neg ha, lit_fin rep_zero64]
        refine signed2_spec (fun hg => absurd (grow_iff.2 hg) ha) fun hs => ?_
        show (0 : ℚ) + 0 ≤ X
        rwa [add_zero]
    · rw [if_neg h2]
      dsimp only
      rw [lit_fin rep_zero64]
      obtain ⟨S, hS⟩ := part1_spec (mx := mx) (by omega) hd (i := mx) (n := 0) (K := 0) (by simp) (by norm_num) (by omega) (by norm_num)
        (by simp) rep_zero64
      generalize part1 mx bits mx (Hw.fin 0 rep_zero64) = p at *
      obtain ⟨hrep, hS0, hval, hsum, hbits, hl, hover, hstop⟩ := hS
      rw [zero_add] at hsum
      have hlow : mx - bits.length + 1 = st.min := by omega
      rw [hlow] at hl
      have hmin : (2 : ℚ) ^ (mx + 1) = 2 ^ bits.length * 2 ^ st.min := by
        rw [← zpow_natCast, ← zpow_add₀ (by norm_num)]; congr 1; omega
      have hmin' : (2 : ℚ) ^ (p.max2 + 1) = 2 ^ p.rest.length * 2 ^ st.min := by
        rw [← zpow_natCast, ← zpow_add₀ (by norm_num)]; congr 1; omega
      have hXY : X = fv 2 bits * 2 ^ (mx + 1) + f * 2 ^ st.min := by
        rw [hsc, add_mul, hmin]
        have : (2 : ℚ) ^ bits.length ≠ 0 := by positivity
        field_simp
      have hZ : X - S = (if p.flag then -(2 : ℚ) ^ (p.max2 + 1) else 0) + (fv 2 p.rest + f / 2 ^ p.rest.length) * 2 ^ (p.max2 + 1) := by
        have e : f / 2 ^ p.rest.length * 2 ^ (p.max2 + 1) = f * 2 ^ st.min := by
          rw [hmin']
          have : (2 : ℚ) ^ p.rest.length ≠ 0 := by positivity
          field_simp
        rw [add_mul, e, hXY, hsum]
        split_ifs <;> ring
      -- the second component
      have key : ∃ Q' hQ', part2 fast neg mode p.flag p.max2 p.rest p.max2 none
          (if p.flag then Rop.neg (lit (2 ^ (p.max2 + 1))) else Hw.fin 0 rep_zero64) = Hw.fin Q' hQ' ∧
          (Grow mode neg → X - S ≤ Q') ∧ (Shrink mode neg → Q' ≤ X - S) := by
        rcases hstop with ⟨e1, e2, e3, e4⟩ | ⟨e1, e2⟩
        · have hf : f = 0 := by
            rcases hfull with hf | hf
            · exact hf
            · rw [e1] at hl
              simp only [List.length_nil, Nat.cast_zero, sub_zero] at hl
              unfold wanted at hf
              split_ifs at hf <;> omega
          rw [e1, e2]
          refine ⟨0, rep_zero64, rfl, ?_⟩
          rw [hZ, e1, e2, hf]
          simp [fv]
        · have hm970 : p.max2 ≤ 970 := by omega
          have hful : f = 0 ∨ p.max2 - p.rest.length + 1 ≤ (if fast then p.max2 - 53 else -1075) := by
            rcases hfull with hf | hf
            · exact Or.inl hf
            · right
              rw [hl]
              unfold wanted at hf
              split_ifs at hf ⊢ <;> omega
          have hF : Found fast p.max2 p.max2 0 none := by
            unfold Found
            split_ifs <;> simp
          cases hfl : p.flag with
          | false =>
            rw [hfl] at hZ
            simp only [Bool.false_eq_true, if_false] at hZ ⊢
            exact part2_spec hf0 hf1 hbits (n := 0) (K := 0) hF (by norm_num) e1 (by simpa using hm970) (by simp) (by simp) (by simp)
              rep_zero64 hZ hful
          | true =>
            rw [hfl] at hZ
            simp only [if_true] at hZ ⊢
            have hlit : binary64.Rep ((2 : ℚ) ^ (p.max2 + 1)) := by
              have := rep64 (K := 1) (e := p.max2 + 1) (n := 1) (mx := p.max2 + 1) (by norm_num) (by norm_num) (by omega) (by push_cast; ring) (by omega)
              simpa using this
            rw [lit_fin hlit]
            exact part2_spec hf0 hf1 hbits (n := 0) (K := -1) hF (by norm_num) e1 (by simpa using hm970) (by simp) (by simp) (by simp)
              hlit.neg hZ hful
      obtain ⟨Q', hQ', k1, k2, k3⟩ := key
      rw [k1, hval]
      by_cases hSm : S ≤ binary64.maxQ
      · rw [lit_fin (Format.rep_of_repU hrep (by rwa [abs_of_nonneg hS0]))]
        refine signed2_spec (fun hg => ?_) fun hs => ?_
        · show X ≤ S + Q'
          linarith [k2 hg]
        · show S + Q' ≤ X
          linarith [k3 hs]
      · have hgt := RepU.gt_maxQ hrep (lt_of_not_ge hSm)
        have hg2 : binary64.maxQ + 2 ^ (971 : ℤ) ≤ S := hgt
        have hpinf : (lit S : D) = (Fl.pinf : Fl binary64) := by
          have h1 : binary64.roundQ .near S = S := hrep.roundQ_eq .near
          have hpos : 0 < S := lt_of_le_of_ne hS0 (by rintro rfl; exact hSm Format.maxQ_pos.le)
          show (Fl.round .near S : Fl binary64) = .pinf
          unfold Fl.round Fl.pack
          rw [dif_neg (by rw [h1, abs_of_nonneg hS0]; exact hSm), h1]
          simp [hpos, Fl.overflow]
        rw [hpinf]
        refine signed2_spec (fun hg => trivial) fun hs => ?_
        exfalso
        obtain ⟨o1, o2⟩ := hover.resolve_left hSm
        have hm970 : p.max2 ≤ 970 := by
          rcases hstop with ⟨e1, e2, e3, e4⟩ | ⟨e1, e2⟩
          · rw [o1] at e2; simp at e2
          · omega
        have h7 : (2 : ℚ) ^ p.max2 ≤ 2 ^ (970 : ℤ) := zpow_le_zpow_right₀ (by norm_num) hm970
        have h8 : (2 : ℚ) ^ (971 : ℤ) = 2 * 2 ^ (970 : ℤ) := by norm_num
        have h9 : X < 2 ^ (1024 : ℤ) := by
          rw [hsc]
          have : (2 : ℚ) ^ (mx + 1) ≤ 2 ^ (1024 : ℤ) := zpow_le_zpow_right₀ (by norm_num) (by omega)
          exact lt_of_lt_of_le (mul_lt_of_lt_one_left hpos hy.2) this
        have h10 : 0 ≤ f * 2 ^ st.min := mul_nonneg hf0 (zpow_nonneg (by norm_num) _)
        have h11 := max_next
        rw [zero_add] at o2
        rcases hlim with hlim | hlim | hlim
        · linarith
        · linarith
        · exact not_both hlim hs

/-- the parts of `convertDD` -/
theorem convertDD_eq {fast : Bool} {p : Parsed} {mode : RMode} (hs : atoi p.nume + p.num1.length + p.num2.length ≤ 100000000)
    {e10 : ℤ} (he : e10 = if p.eneg then -(atoi p.nume : ℤ) else atoi p.nume)
    {n1 n2 all ip fp r1 : List ℕ} (h1 : n1 = p.num1.dropWhile (· = 0)) (h2 : n2 = p.num2.rdropWhile (· = 0))
    (hall : all = n1 ++ n2 ++ List.replicate (e10 - n2.length : ℤ).toNat 0)
    (hip : ip = all.take ((n1.length - 1 + e10 : ℤ) + 1).toNat)
    (hfp : fp = List.replicate (-1 - (n1.length - 1 + e10 : ℤ)).toNat 0 ++ all.drop ((n1.length - 1 + e10 : ℤ) + 1).toNat)
    (hr : r1 = intLoop 10 2 mBin (4 * ip.length) ip) :
    convertDD fast p mode = (do
      let st ← binLoopDD fast (fp.length + 1200) fp ⟨if r1 = [] then none else some (r1.length - 1), 0, []⟩
      match st.max with
      | none => if st.min < 0 then .error .undefined else .ok ⟨signed p.neg (lit 0 : D), signed p.neg (lit 0 : D)⟩
      | some mx => .ok (finishDD fast p.neg mode mx (r1.reverse ++ st.bits))) := by
  unfold convertDD
  dsimp only
  rw [if_neg (by omega), ← he, ← h1, ← h2, ← hall, ← hip, ← hfp, ← hr]
  congr 1

theorem convertDD_spec {fast : Bool} {p : Parsed} (hp : p.Digits) {mode : RMode} :
    (∀ r, convertDD fast p mode = .ok r →
      (p.abs < binary64.maxQ + 2 ^ (970 : ℤ) ∨ binary64.maxQ + 2 ^ (971 : ℤ) ≤ p.abs ∨ Grow mode p.neg) →
      (mode = .up → UpOf2 r ((if p.neg then -1 else 1) * p.abs)) ∧ (mode = .down → DnOf2 r ((if p.neg then -1 else 1) * p.abs))) ∧
    (atoi p.nume + p.num1.length + p.num2.length ≤ 100000000 →
      ((p.abs ≠ 0 ∨ p.eneg = false ∨ atoi p.nume = 0) ∧ ∃ r, convertDD fast p mode = .ok r) ∨
      (p.abs = 0 ∧ p.eneg = true ∧ atoi p.nume ≠ 0 ∧ convertDD fast p mode = .error .undefined)) := by
  by_cases hs : atoi p.nume + p.num1.length + p.num2.length ≤ 100000000
  swap
  · refine ⟨fun r h _ => ?_, fun h => absurd h hs⟩
    unfold convertDD at h
    dsimp only at h
    rw [if_pos (by omega)] at h
    simp at h
  obtain ⟨e10, he⟩ : ∃ e10 : ℤ, e10 = if p.eneg then -(atoi p.nume : ℤ) else atoi p.nume := ⟨_, rfl⟩
  obtain ⟨n1, h1⟩ : ∃ n1, n1 = p.num1.dropWhile (· = 0) := ⟨_, rfl⟩
  obtain ⟨n2, h2⟩ : ∃ n2, n2 = p.num2.rdropWhile (· = 0) := ⟨_, rfl⟩
  obtain ⟨all, hall⟩ : ∃ all, all = n1 ++ n2 ++ List.replicate (e10 - n2.length : ℤ).toNat 0 := ⟨_, rfl⟩
  obtain ⟨ip, hip⟩ : ∃ ip, ip = all.take ((n1.length - 1 + e10 : ℤ) + 1).toNat := ⟨_, rfl⟩
  obtain ⟨fp, hfp⟩ : ∃ fp, fp = List.replicate (-1 - (n1.length - 1 + e10 : ℤ)).toNat 0 ++ all.drop ((n1.length - 1 + e10 : ℤ) + 1).toNat := ⟨_, rfl⟩
  obtain ⟨r1, hr⟩ : ∃ r1, r1 = intLoop 10 2 mBin (4 * ip.length) ip := ⟨_, rfl⟩
  rw [convertDD_eq hs he h1 h2 hall hip hfp hr]
  obtain ⟨hX, hipd, hfpd⟩ := table_spec hp he h1 h2 hall hip hfp
  have hinit := inv_init hX hipd hr
  have hr1d : ∀ d ∈ r1.reverse, d < 2 := by
    intro d hd
    rw [hr] at hd
    exact intLoop_digits (by norm_num) d (List.mem_reverse.1 hd)
  have hbig : ∀ mx : ℤ, (r1.length : ℤ) = mx + 1 → 1023 < mx → (2 : ℚ) ^ mx ≤ p.abs := by
    intro mx hl hmx
    have hv : vBE 10 ip < 2 ^ (4 * ip.length) := lt_of_lt_of_le (vBE_lt hipd) (pow10_lt _)
    have h3 := intLoop_big hv (by rw [← hr]; omega)
    rw [← hr] at h3
    have h4 : ((2 : ℚ) ^ (r1.length - 1)) ≤ vBE 10 ip := by exact_mod_cast h3
    have h5 := fv_nonneg (b := 10) fp
    have h6 : (2 : ℚ) ^ mx = 2 ^ (r1.length - 1) := by
      rw [← zpow_natCast]; congr 1; omega
    rw [h6, ← hX]; linarith
  obtain ⟨st, hst⟩ := binLoopDD_ends (fast := fast) hfpd (st := ⟨if r1 = [] then none else some (r1.length - 1), 0, []⟩) rfl (by
    intro mx h
    have := hinit.some' mx h
    have h0 : r1 ≠ [] := by rintro rfl; simp at h
    have := List.length_pos_iff.2 h0
    simp only [List.append_nil, List.length_reverse] at *
    omega)
  obtain ⟨f, hf0, hf1, hinv, hfull⟩ := binLoopDD_spec hfpd hinit hst
  have hzero : p.abs = 0 → n1 = [] ∧ n2 = [] := by
    intro h0
    rw [Parsed.abs, mul_eq_zero] at h0
    have h0' := h0.resolve_right (zpow_ne_zero _ (by norm_num))
    have a1 : (0 : ℚ) ≤ (vBE 10 p.num1 : ℕ) := Nat.cast_nonneg _
    have a2 := fv_nonneg (b := 10) p.num2
    have a3 : vBE 10 p.num1 = 0 := by
      have : ((vBE 10 p.num1 : ℕ) : ℚ) = 0 := by linarith
      exact_mod_cast this
    constructor
    · rw [← vBE_dropWhile, ← h1] at a3
      cases hn : n1 with
      | nil => rfl
      | cons d t =>
        have hd : d ≠ 0 := dropWhile_head (h1.symm.trans hn)
        rw [hn] at a3
        have := vBE_cons_ge (t := t) hd
        have := Nat.one_le_pow t.length 10 (by norm_num)
        omega
    · rw [h2]
      apply rdrop_nil
      rw [fv_rdropWhile (by norm_num)]
      linarith
  have factU : p.abs = 0 ∧ p.eneg = true ∧ atoi p.nume ≠ 0 → st.max = none ∧ st.min < 0 := by
    rintro ⟨u1, u2, u3⟩
    obtain ⟨z1, z2⟩ := hzero u1
    rw [u2, if_pos rfl] at he
    have eall : all = [] := by
      rw [hall, z1, z2]; simp; omega
    have eip : ip = [] := by rw [hip, eall]; simp
    have er1 : r1 = [] := by rw [hr, eip, intLoop_nil]
    have efp : fp = List.replicate (atoi p.nume) 0 := by
      rw [hfp, eall, z1, he]
      simp
    obtain ⟨st', s1, s2, s3⟩ := binLoopDD_zeros (fast := fast) (fuel := fp.length + 1198) (fs := fp) (st := ⟨none, 0, []⟩) rfl
      (by rw [efp]; intro h; exact u3 (by simpa using congrArg List.length h)) (by rw [efp, fv_replicate])
    rw [er1, if_pos rfl, show fp.length + 1200 = fp.length + 1198 + 2 from rfl, s1] at hst
    cases hst
    exact ⟨s2, by rw [s3]; norm_num⟩
  have factN : ¬ (p.abs = 0 ∧ p.eneg = true ∧ atoi p.nume ≠ 0) → st.max = none → st.min = 0 := by
    intro hN hm
    obtain ⟨b1, b2⟩ := hinv.none' hm
    have hf : f = 0 := by
      rcases hfull with h | ⟨m, h1, -⟩
      · exact h
      · rw [hm] at h1; simp at h1
    have hX0 : p.abs = 0 := by rw [hinv.val, b1, b2, hf]; simp [vBE]
    obtain ⟨z1, z2⟩ := hzero hX0
    have he0 : 0 ≤ e10 := by
      by_contra hc
      apply hN
      refine ⟨hX0, ?_, ?_⟩
      · by_contra h
        rw [if_neg h] at he; omega
      · intro h
        rw [h] at he; simp at he; omega
    have efp : fp = [] := by
      rw [hfp, hall, z1, z2]
      simp
      omega
    rw [efp, binLoopDD, if_pos rfl] at hst
    cases hst
    rfl
  rw [hst]
  simp only [bind, Except.bind]
  by_cases hU : p.abs = 0 ∧ p.eneg = true ∧ atoi p.nume ≠ 0
  · obtain ⟨u1, u2⟩ := factU hU
    rw [u1]
    dsimp only
    rw [if_pos u2]
    exact ⟨fun r h _ => by simp at h, fun _ => Or.inr ⟨hU.1, hU.2.1, hU.2.2, rfl⟩⟩
  have hN : p.abs ≠ 0 ∨ p.eneg = false ∨ atoi p.nume = 0 := by
    by_contra hc
    push Not at hc
    exact hU ⟨hc.1, by simpa using hc.2.1, hc.2.2⟩
  cases hm : st.max with
  | some mx =>
    have hfull' : f = 0 ∨ wanted fast mx st.min ≤ 0 := by
      rcases hfull with h | ⟨m, h1, h2⟩
      · exact Or.inl h
      · rw [hm] at h1; cases h1; exact Or.inr h2
    have hfin := finishDD_spec (fast := fast) (neg := p.neg) (mode := mode) hinv hr1d hm hf0 hf1 hfull'
      (fun h => hbig mx (by have := hinv.top mx hm (by omega); simpa using this) h)
    refine ⟨fun r h hlim => ?_, fun _ => Or.inl ⟨hN, _, rfl⟩⟩
    simp only [Except.ok.injEq] at h
    rw [← h]; exact hfin hlim
  | none =>
    obtain ⟨b1, b2⟩ := hinv.none' hm
    have hf : f = 0 := by
      rcases hfull with h | ⟨m, h1, -⟩
      · exact h
      · rw [hm] at h1; simp at h1
    have hX0 : p.abs = 0 := by rw [hinv.val, b1, b2, hf]; simp [vBE]
    have hmin := factN hU hm
    dsimp only
    rw [if_neg (by omega)]
    refine ⟨fun r h hlim => ?_, fun _ => Or.inl ⟨hN, _, rfl⟩⟩
    simp only [Except.ok.injEq] at h
    rw [← h, hX0, lit_fin rep_zero64]
    exact signed2_spec (fun _ => by show (0 : ℚ) ≤ 0 + 0; norm_num) fun _ => by show (0 : ℚ) + 0 ≤ 0; norm_num

end Conv
end Kv
