import Verif.Double.DD
import Verif.Double.EmuSqrt

/-!
# `rop<dd>`: helper lemmas
-/

set_option exponentiation.threshold 3000

namespace Kv
namespace DD
open Fl Format Emu

local notation "B" => binary64

/-! ## upper and lower bounds represented by doubles -/

/-- `x` is an upper bound of `v`: `+∞` or a finite number not below `v` -/
inductive UB : Dbl → ℝ → Prop
  | inf (v : ℝ) : UB pinf v
  | fin {q : ℚ} (h : (B).Rep q) {v : ℝ} (hv : v ≤ (q : ℝ)) : UB (fin q h) v

/-- upper bound (`s = true`) or lower bound (`s = false`) -/
def Bd (s : Bool) (x : Dbl) (v : ℝ) : Prop :=
  match s with
  | true => UB x v
  | false => UB (Fl.neg x) (-v)

/-- the mode that preserves `Bd s` -/
def dir (s : Bool) : RMode :=
  match s with
  | true => .up
  | false => .down

theorem UB.mono {x : Dbl} {v w : ℝ} (h : UB x v) (hw : w ≤ v) : UB x w := by
  cases h with
  | inf => exact .inf _
  | fin h hv => exact .fin h (hw.trans hv)

theorem UB.ne_nan {x : Dbl} {v : ℝ} (h : UB x v) : x ≠ nan := by cases h <;> simp

theorem ub_of_isUp {x : Dbl} {v : ℝ} (h : IsUp (v : EReal) x) : UB x v := by
  cases x with
  | nan => exact absurd rfl h.1
  | pinf => exact .inf _
  | ninf => exact absurd h.2.1 (by simp)
  | fin q hq => exact .fin hq (by have := h.2.1; rw [toE_fin, EReal.coe_le_coe_iff] at this; exact this)

theorem ub_round (q : ℚ) : UB (Fl.round .up q) q := ub_of_isUp (round_up_isUp q)

theorem ub_add {a b : Dbl} {u v : ℝ} (ha : UB a u) (hb : UB b v) : UB (Fl.add .up a b) (u + v) := by
  cases ha with
  | inf => cases hb <;> exact .inf _
  | fin h hv =>
    cases hb with
    | inf => exact .inf _
    | fin h' hv' =>
      exact (ub_round _).mono (by push_cast; linarith)

theorem ub_mul {a b : ℚ} (ha : (B).Rep a) (hb : (B).Rep b) :
    UB (Fl.mul .up (fin a ha) (fin b hb)) ((a : ℝ) * b) :=
  (ub_round _).mono (by push_cast; exact le_rfl)

theorem ub_mul_pos {x : Dbl} {v : ℝ} {c : ℚ} (hc : (B).Rep c) (h0 : 0 < c) (hx : UB x v) :
    UB (Fl.mul .up x (fin c hc)) (v * c) := by
  cases hx with
  | inf =>
    have : Fl.mul .up pinf (fin c hc) = (pinf : Dbl) := by simp [Fl.mul, sgn, infOfSign, h0]
    rw [this]; exact .inf _
  | fin h hv =>
    refine (ub_round _).mono ?_
    push_cast
    exact mul_le_mul_of_nonneg_right hv (by exact_mod_cast h0.le)

/-- relation of the two modes -/
theorem neg_add_dn (a b : Dbl) : Fl.neg (Fl.add .down a b) = Fl.add .up (Fl.neg a) (Fl.neg b) := by
  rw [← neg_add_up, Fl.neg_neg]
theorem neg_sub_dn (a b : Dbl) : Fl.neg (Fl.sub .down a b) = Fl.sub .up (Fl.neg a) (Fl.neg b) := by
  unfold Fl.sub; rw [neg_add_dn]
theorem neg_mul_dn (a b : Dbl) : Fl.neg (Fl.mul .down a b) = Fl.mul .up (Fl.neg a) b := by
  rw [← neg_mul_up, Fl.neg_neg]
theorem neg_div_dn (a b : Dbl) : Fl.neg (Fl.div .down a b) = Fl.div .up (Fl.neg a) b := by
  rw [← neg_div_up, Fl.neg_neg]

theorem Bd.mono {s : Bool} {x : Dbl} {v w : ℝ} (h : Bd s x v) (hw : if s then w ≤ v else v ≤ w) : Bd s x w := by
  cases s
  · exact UB.mono h (by simp at hw; linarith)
  · exact UB.mono h (by simpa using hw)

theorem Bd.congr {s : Bool} {x : Dbl} {v w : ℝ} (h : Bd s x v) (hw : v = w) : Bd s x w := hw ▸ h

theorem Bd.ne_nan {s : Bool} {x : Dbl} {v : ℝ} (h : Bd s x v) : x ≠ nan := by
  cases s
  · have := UB.ne_nan h
    rintro rfl; exact this rfl
  · exact UB.ne_nan h

theorem bd_exact (s : Bool) {a : ℚ} (ha : (B).Rep a) : Bd s (fin a ha) a := by
  cases s
  · show UB (Fl.fin (-a) _) _
    exact .fin _ (by push_cast; exact le_rfl)
  · exact .fin _ le_rfl

theorem bd_fin_iff {s : Bool} {a : ℚ} (ha : (B).Rep a) {v : ℝ} :
    Bd s (fin a ha) v ↔ (if s then v ≤ a else (a : ℝ) ≤ v) := by
  cases s
  · constructor
    · intro h
      change UB (Fl.fin (-a) _) _ at h
      cases h with
      | fin _ hv => push_cast at hv; simp; linarith
    · intro h
      show UB (Fl.fin (-a) _) _
      exact .fin _ (by push_cast; simp at h; linarith)
  · constructor
    · intro h
      change UB _ _ at h
      cases h with
      | fin _ hv => simpa using hv
    · intro h
      exact UB.fin _ (by simpa using h)

theorem bd_round (s : Bool) (q : ℚ) : Bd s (Fl.round (dir s) q) q := by
  cases s
  · show UB (Fl.neg (Fl.round .down q)) _
    rw [← round_neg_up]
    exact (ub_round _).mono (by push_cast; exact le_rfl)
  · exact ub_round q

theorem bd_add {s : Bool} {a b : Dbl} {u v : ℝ} (ha : Bd s a u) (hb : Bd s b v) :
    Bd s (Fl.add (dir s) a b) (u + v) := by
  cases s
  · show UB (Fl.neg (Fl.add .down a b)) _
    rw [neg_add_dn]
    exact (ub_add ha hb).mono (by linarith)
  · exact ub_add ha hb

theorem bd_mul (s : Bool) {a b : ℚ} (ha : (B).Rep a) (hb : (B).Rep b) :
    Bd s (Fl.mul (dir s) (fin a ha) (fin b hb)) ((a : ℝ) * b) :=
  (bd_round s (a * b)).congr (by push_cast; ring)

theorem bd_mul_pos {s : Bool} {x : Dbl} {v : ℝ} {c : ℚ} (hc : (B).Rep c) (h0 : 0 < c) (hx : Bd s x v) :
    Bd s (Fl.mul (dir s) x (fin c hc)) (v * c) := by
  cases s
  · show UB (Fl.neg (Fl.mul .down _ _)) _
    rw [neg_mul_dn]
    exact (ub_mul_pos hc h0 hx).mono (by linarith)
  · exact ub_mul_pos hc h0 hx

theorem bd_sub {s : Bool} {a : Dbl} {u : ℝ} {x : ℚ} (ha : Bd s a u) (hx : (B).Rep x) :
    Bd s (Fl.sub (dir s) a (fin x hx)) (u - x) := by
  have := bd_add ha (bd_exact s hx.neg)
  exact this.congr (by push_cast; ring)

theorem mul_exact (md : RMode) {a b c : ℚ} (ha : (B).Rep a) (hb : (B).Rep b) (hc : (B).Rep c) (e : a * b = c) :
    Fl.mul md (fin a ha) (fin b hb) = fin c hc := by
  subst e; exact round_of_rep _ _

/-! ## the product with remainder -/

theorem rep_two : (B).Rep 2 := by
  have := rep_pow (k := 1) (by norm_num) (by norm_num); rwa [zpow_one] at this

theorem rep_half_of {t : ℚ} (ht : (B).Rep t) {g : ℤ} (hg : OnGrid g t) (h : -1073 ≤ g) : (B).Rep (t * (1 / 2)) := by
  refine rep_of_repU (RepU.half ht.repU (hg.mono (by rw [emin64]; omega))) ?_
  refine le_trans ?_ ht.abs_le
  rw [abs_mul, abs_of_pos (by norm_num : (0 : ℚ) < 1 / 2)]
  have := abs_nonneg t; linarith

theorem dekkerR_bd (s : Bool) {a b x : ℚ} (ha : (B).Rep a) (hb : (B).Rep b) (hla : |a| ≤ 2 ^ (996 : ℤ))
    (hlb : |b| ≤ 2 ^ (996 : ℤ)) (hx : (B).Rep x) (hr : x = (B).roundQ .near (a * b)) :
    Bd s (dekkerR (dir s) (fin x hx) (fin a ha) (fin b hb)) ((a : ℝ) * b - x) := by
  obtain ⟨a1, ha1, ha2, ea, ra⟩ := split_fin ha hla
  obtain ⟨b1, hb1, hb2, eb, rb⟩ := split_fin hb hlb
  have tail : ∀ z : Dbl, Bd s z ((a1 : ℝ) * b1 - x) →
      Bd s (Fl.add (dir s) (Fl.add (dir s) (Fl.add (dir s) z
        (Fl.mul (dir s) (fin (a - a1) ha2) (fin b1 hb1))) (Fl.mul (dir s) (fin a1 ha1) (fin (b - b1) hb2)))
        (Fl.mul (dir s) (fin (a - a1) ha2) (fin (b - b1) hb2))) ((a : ℝ) * b - x) := by
    intro z hz
    exact (bd_add (bd_add (bd_add hz (bd_mul s ha2 hb1)) (bd_mul s ha1 hb2)) (bd_mul s ha2 hb2)).congr
      (by push_cast; ring)
  unfold dekkerR
  rw [ea, eb, le_two_fin (by norm_num) (by norm_num)]
  simp only
  by_cases hbig : 2 ^ (1023 : ℤ) < |x|
  · rw [if_pos (decide_eq_true hbig)]
    apply tail
    have hab : a * b ≠ 0 := by
      intro h
      rw [hr, h, rep_zero.repU.roundQ_eq, abs_zero] at hbig
      exact absurd hbig (not_lt.2 (two_zpow_pos _).le)
    have ⟨a0, b0⟩ := mul_ne_zero_iff.1 hab
    obtain ⟨la1, la2⟩ := log_bounds a0
    have h1 : (2 : ℚ) ^ (1022 : ℤ) < |a * b| := by
      by_contra hc
      have h2 := abs_near_le (F := B) (repU_pow (k := 1022) (by rw [emin64]; norm_num)) (not_lt.1 hc)
      rw [← hr] at h2
      exact absurd (hbig.trans_le h2) (not_lt.2 (pw_le (by norm_num)))
    have h2 : 25 ≤ Int.log 2 |a| := by
      by_contra hc
      have h3 : |a * b| ≤ 2 ^ (1022 : ℤ) := by
        refine le_trans ?_ (pw_le (show Int.log 2 |a| + 1 + 996 ≤ 1022 by omega))
        rw [zpow_add₀ (by norm_num), abs_mul]
        exact mul_le_mul la2.le hlb (abs_nonneg _) (two_zpow_pos _).le
      exact absurd h1 (not_lt.2 h3)
    have q1 : (B).Rep (a1 * (1 / 2)) := rep_half_of ha1 (ra.spec a0).grid (by omega)
    have q2 : (B).Rep (x * (1 / 2)) := rep_half_of hx (onGrid_of_large p64 hx.repU hbig.le) (by norm_num)
    rw [lit_eq Format.rep_half, lit_eq rep_two, mul_exact _ ha1 _ q1 rfl, mul_exact _ hx _ q2 rfl]
    exact (bd_mul_pos rep_two (by norm_num) (bd_sub (bd_mul s q1 hb1) q2)).congr (by push_cast; ring)
  · rw [if_neg (by simpa using hbig)]
    exact tail _ (bd_sub (bd_mul s ha1 hb1) hx)

theorem twoproductR_fst (md : RMode) (fma : Bool) (a b : Dbl) : (twoproductR md fma a b).1 = ti a b := by
  unfold twoproductR
  simp only
  split_ifs <;> rfl

/-- the remainder of `twoproduct_up`/`twoproduct_down` is a bound in the right direction, also when
the product underflows -/
theorem twoproductR_bd (s fma : Bool) {a b x : ℚ} (ha : (B).Rep a) (hb : (B).Rep b) (hx : (B).Rep x)
    (hr : (Fl.round .near (a * b) : Dbl) = fin x hx) :
    Bd s (twoproductR (dir s) fma (fin a ha) (fin b hb)).2 ((a : ℝ) * b - x) := by
  have hrq := round_fin_val hr
  unfold twoproductR
  simp only [ti_fin ha hb, hr]
  cases fma
  · rw [if_neg (by simp)]
    have c1 : (B).Rep (2 ^ (-28 : ℤ)) := rep_pow (by norm_num) (by norm_num)
    have c2 : (B).Rep (2 ^ (28 : ℤ)) := rep_pow (by norm_num) (by norm_num)
    have e : (2 : ℚ) ^ (-28 : ℤ) * 2 ^ (28 : ℤ) = 1 := by rw [← zpow_add₀ (by norm_num)]; norm_num
    rw [le_two_fin (by norm_num) (by norm_num), le_two_fin (by norm_num) (by norm_num)]
    by_cases h1 : 2 ^ (996 : ℤ) < |a|
    · rw [if_pos (decide_eq_true h1)]
      obtain ⟨ka, kb, la, lb, -⟩ := scale_ok ha hb hx hrq h1
      rw [two_eq (by norm_num) (by norm_num), two_eq (by norm_num) (by norm_num), ti_exact ha c1 ka rfl,
        ti_exact hb c2 kb rfl]
      have e2 : a * 2 ^ (-28 : ℤ) * (b * 2 ^ (28 : ℤ)) = a * b := by
        rw [show a * 2 ^ (-28 : ℤ) * (b * 2 ^ (28 : ℤ)) = a * b * (2 ^ (-28 : ℤ) * 2 ^ (28 : ℤ)) by ring, e, mul_one]
      have := dekkerR_bd s ka kb la lb hx (by rw [e2]; exact hrq)
      refine this.congr ?_
      rw [← Rat.cast_mul, ← Rat.cast_mul, e2]
    · rw [if_neg (by simpa using h1)]
      by_cases h2 : 2 ^ (996 : ℤ) < |b|
      · rw [if_pos (decide_eq_true h2)]
        obtain ⟨kb, ka, lb, la, -⟩ := scale_ok hb ha hx (by rw [mul_comm]; exact hrq) h2
        rw [two_eq (by norm_num) (by norm_num), two_eq (by norm_num) (by norm_num), ti_exact ha c2 ka rfl,
          ti_exact hb c1 kb rfl]
        have e2 : a * 2 ^ (28 : ℤ) * (b * 2 ^ (-28 : ℤ)) = a * b := by
          rw [show a * 2 ^ (28 : ℤ) * (b * 2 ^ (-28 : ℤ)) = a * b * (2 ^ (-28 : ℤ) * 2 ^ (28 : ℤ)) by ring, e, mul_one]
        have := dekkerR_bd s ka kb la lb hx (by rw [e2]; exact hrq)
        refine this.congr ?_
        rw [← Rat.cast_mul, ← Rat.cast_mul, e2]
      · rw [if_neg (by simpa using h2)]
        exact dekkerR_bd s ha hb (not_lt.1 h1) (not_lt.1 h2) hx hrq
  · rw [if_pos rfl]
    show Bd s (Fl.round (dir s) (a * b + -x)) _
    exact (bd_round s _).congr (by push_cast; ring)

/-! ## overflow of the leading part -/

theorem ovf {q : ℚ} (h : ¬ |(B).roundQ .near q| ≤ (B).maxQ) : (B).maxQ + 2 ^ (970 : ℤ) ≤ |q| := by
  by_contra hc
  rw [not_le] at hc
  have hm : (B).RepU (B).maxQ := (maxQ_rep (F := B)).repU
  have hm0 : 0 < (B).maxQ := maxQ_pos
  have hq : (B).maxQ < |q| := by
    by_contra h'
    exact h (abs_near_le hm (not_lt.1 h'))
  have h1 : |(B).roundQ .near q - q| ≤ |q| - (B).maxQ := by
    rcases le_total 0 q with h0 | h0
    · rw [abs_of_nonneg h0] at hq ⊢
      refine (RepU.near_le hm).trans_eq ?_
      rw [abs_of_neg (by linarith)]; ring
    · rw [abs_of_nonpos h0] at hq ⊢
      refine (RepU.near_le hm.neg).trans_eq ?_
      rw [abs_of_pos (by linarith)]; ring
  have h2 : |(B).roundQ .near q| < (B).maxQ + 2 ^ (971 : ℤ) := by
    have h3 : |(B).roundQ .near q| ≤ |(B).roundQ .near q - q| + |q| := by
      have := abs_add_le ((B).roundQ .near q - q) q
      rwa [sub_add_cancel] at this
    have e : (2 : ℚ) ^ (971 : ℤ) = 2 * 2 ^ (970 : ℤ) := by rw [show (971 : ℤ) = 1 + 970 by norm_num, zpow_add₀ (by norm_num)]; norm_num
    linarith
  obtain ⟨m, hm'⟩ := onGrid_of_large p64 (roundQ_repU .near q)
    (pow_le_maxQ64.trans (not_le.1 h).le : (2 : ℚ) ^ (1023 : ℤ) ≤ _)
  rw [hm', abs_mul, abs_of_pos (two_zpow_pos _)] at h h2
  rw [not_le] at h
  have e1 : (1023 : ℤ) - 52 = 971 := by norm_num
  rw [maxQ64] at h h2
  have hp := two_zpow_pos 971
  norm_num only at h h2
  have g1 : ((2 ^ 53 - 1 : ℚ)) < |(m : ℚ)| := lt_of_mul_lt_mul_right (by norm_num only; exact h) hp.le
  have g2 : |(m : ℚ)| < 2 ^ 53 := lt_of_mul_lt_mul_right (by norm_num only at h2 ⊢; linarith) hp.le
  have g3 : ((2 ^ 53 - 1 : ℤ)) < |m| := by exact_mod_cast g1
  have g4 : |m| < 2 ^ 53 := by exact_mod_cast g2
  omega

/-- the second component of `std::numeric_limits<dd>::max()` -/
def max2 : ℚ := (2 ^ 53 - 1) * 2 ^ (917 : ℤ)

theorem rep_max2 : (B).Rep max2 := by
  refine ⟨2 ^ 53 - 1, 917, by decide, by decide, by decide, ?_⟩
  unfold max2; push_cast; ring

theorem maxD_eq : maxD = ⟨fin (B).maxQ maxQ_rep, fin max2 rep_max2⟩ := by
  unfold maxD
  congr 1
  rw [two_eq (by norm_num) (by norm_num)]
  exact ti_exact _ _ rep_max2 (by rw [maxQ64, max2, mul_assoc, ← zpow_add₀ (by norm_num)]; norm_num)

theorem max2_nonneg : 0 ≤ max2 := by unfold max2; have := two_zpow_pos 917; nlinarith

theorem max2_lt : max2 < 2 ^ (970 : ℤ) := by
  unfold max2
  rw [two_zpow_add 917 970 53 (by norm_num)]
  have := two_zpow_pos 917
  nlinarith

theorem max_norm : (B).maxQ = (B).roundQ .near ((B).maxQ + max2) := by decide +kernel

theorem near_cases (q : ℚ) :
    (∃ h, (Fl.round .near q : Dbl) = fin ((B).roundQ .near q) h) ∨
    ((Fl.round .near q : Dbl) = pinf ∧ (B).maxQ + max2 ≤ q) ∨
    ((Fl.round .near q : Dbl) = ninf ∧ q ≤ -((B).maxQ + max2)) := by
  by_cases h : |(B).roundQ .near q| ≤ (B).maxQ
  · exact Or.inl ⟨_, round_fin_of_le h⟩
  · have h1 := ovf h
    have h2 := max2_lt
    rcases round_near_cases (F := B) q with ⟨h3, e⟩ | ⟨e, h3⟩ | ⟨e, h3⟩
    · exact absurd h3.abs_le h
    · right; left
      have : (0:ℚ) < (B).maxQ := maxQ_pos
      rw [abs_of_pos (by linarith)] at h1
      exact ⟨e, by linarith⟩
    · right; right
      have : (0:ℚ) < (B).maxQ := maxQ_pos
      rw [abs_of_neg (by linarith)] at h1
      exact ⟨e, by linarith⟩

/-! ## bounds represented by `dd` numbers -/

/-- `r` is an upper bound of `v`: `(+∞, 0)`, or a finite normalised pair with sum not below `v` -/
inductive DUB : DD → ℝ → Prop
  | inf (v : ℝ) : DUB ⟨pinf, lit 0⟩ v
  | fin {a b : ℚ} (ha : (B).Rep a) (hb : (B).Rep b) (n : a = (B).roundQ .near (a + b)) {v : ℝ}
      (hv : v ≤ (a : ℝ) + b) : DUB ⟨fin a ha, fin b hb⟩ v

/-- upper bound (`s = true`) or lower bound (`s = false`) -/
def DBd (s : Bool) (r : DD) (v : ℝ) : Prop :=
  match s with
  | true => DUB r v
  | false => DUB (neg r) (-v)

theorem neg_neg' (x : DD) : neg (neg x) = x := by
  cases x; simp [neg, Fl.neg_neg]

theorem DUB.mono {r : DD} {v w : ℝ} (h : DUB r v) (hw : w ≤ v) : DUB r w := by
  cases h with
  | inf => exact .inf _
  | fin h h' n hv => exact .fin h h' n (hw.trans hv)

theorem DBd.congr {s : Bool} {r : DD} {v w : ℝ} (h : DBd s r v) (hw : v = w) : DBd s r w := hw ▸ h

theorem pl_neg (a b : Dbl) : pl (Fl.neg a) (Fl.neg b) = Fl.neg (pl a b) := by
  unfold pl
  cases a <;> cases b <;> try rfl
  rename_i a ha b hb
  show Fl.round .near (-a + -b) = Fl.neg (Fl.round .near (a + b))
  rw [← neg_add, round_neg_near]

theorem mi_neg (a b : Dbl) : mi (Fl.neg a) (Fl.neg b) = Fl.neg (mi a b) := by
  unfold mi Fl.sub
  exact pl_neg a (Fl.neg b)

theorem abs_neg' (a : Dbl) : Fl.abs (Fl.neg a) = Fl.abs a := by
  cases a with
  | nan => rfl
  | pinf => rfl
  | ninf => rfl
  | fin q h =>
    simp only [Fl.abs, Fl.neg]
    rcases lt_trichotomy q 0 with h0 | h0 | h0
    · rw [if_pos (by linarith), if_neg (by linarith)]
    · subst h0; simp
    · rw [if_neg (by linarith), if_pos h0.le]; exact fin_congr _ _ (by ring)

theorem twosum_neg (a b : Dbl) : twosum (Fl.neg a) (Fl.neg b) =
    (Fl.neg (twosum a b).1, Fl.neg (twosum a b).2) := by
  unfold twosum
  simp only [abs_neg', pl_neg, mi_neg]
  split_ifs <;> rfl

theorem twosum_fst (a b : Dbl) : (twosum a b).1 = pl a b := by
  unfold twosum
  simp only
  split_ifs <;> rfl

theorem eq_neg_pinf (a : Dbl) : Fl.eq (Fl.neg a) pinf = Fl.eq a ninf := by
  cases a <;> rfl
theorem eq_neg_ninf (a : Dbl) : Fl.eq (Fl.neg a) ninf = Fl.eq a pinf := by
  cases a <;> rfl

/-- the end of the functions in direction `s` -/
def finishR (s : Bool) (z1 z2 : Dbl) : DD :=
  match s with
  | true => finishUp z1 z2
  | false => finishDown z1 z2

theorem neg_lit0 : Fl.neg (lit 0 : Dbl) = lit 0 := by
  rw [lit0]; exact fin_congr _ _ (by norm_num)

theorem finishDown_neg (z1 z2 : Dbl) : neg (finishDown z1 z2) = finishUp (Fl.neg z1) (Fl.neg z2) := by
  unfold finishDown finishUp
  rw [twosum_neg]
  simp only [eq_neg_pinf, eq_neg_ninf]
  split_ifs
  · simp only [neg, neg_lit0]
  · rfl
  · rfl

theorem finishUp_ub {z : ℚ} (hz : (B).Rep z) {z2 : Dbl} {w : ℝ} (h : UB z2 w) :
    DUB (finishUp (fin z hz) z2) (z + w) := by
  unfold finishUp
  simp only
  cases h with
  | inf =>
    have e : (twosum (fin z hz) pinf).1 = pinf := by rw [twosum_fst]; rfl
    rw [e]
    exact .inf _
  | fin hq hv =>
    rename_i q
    rcases near_cases (z + q) with ⟨h, e⟩ | ⟨e, h⟩ | ⟨e, h⟩
    · obtain ⟨h', e'⟩ := twosum_fin hz hq h e
      rw [e']
      have e1 : Fl.eq (fin ((B).roundQ .near (z + q)) h) pinf = false := rfl
      have e2 : Fl.eq (fin ((B).roundQ .near (z + q)) h) ninf = false := rfl
      simp only [e1, e2, Bool.false_eq_true, if_false]
      refine .fin _ _ (by congr 1; ring) ?_
      push_cast
      linarith
    · have e1 : (twosum (fin z hz) (fin q hq)).1 = pinf := by rw [twosum_fst, pl_fin, e]
      rw [e1]
      exact .inf _
    · have e1 : (twosum (fin z hz) (fin q hq)).1 = ninf := by rw [twosum_fst, pl_fin, e]
      rw [e1]
      have e2 : Fl.eq (ninf : Dbl) pinf = false := rfl
      have e3 : Fl.eq (ninf : Dbl) ninf = true := rfl
      simp only [e2, e3, Bool.false_eq_true, if_false, if_true, maxD_eq]
      refine DUB.fin (maxQ_rep.neg) (rep_max2.neg) ?_ ?_
      · rw [← neg_add, roundQ_neg_near]; rw [← max_norm]
      · have : ((z : ℝ) + q) ≤ ((-((B).maxQ + max2) : ℚ) : ℝ) := by exact_mod_cast h
        push_cast at this ⊢
        linarith

theorem finish_bd (s : Bool) {z : ℚ} (hz : (B).Rep z) {z2 : Dbl} {w : ℝ} (h : Bd s z2 w) :
    DBd s (finishR s (fin z hz) z2) (z + w) := by
  cases s
  · show DUB (neg (finishDown _ _)) _
    rw [finishDown_neg]
    exact (finishUp_ub hz.neg h).mono (by push_cast; linarith)
  · exact finishUp_ub hz h

/-- infinity in direction `s` -/
def infS (s : Bool) : Dbl :=
  match s with
  | true => pinf
  | false => ninf

/-- the finite number of largest magnitude in direction `s` -/
def maxS (s : Bool) : DD :=
  match s with
  | true => maxD
  | false => ⟨Fl.neg maxD.a1, Fl.neg maxD.a2⟩

/-- the common part of addition, subtraction and multiplication in direction `s`: `(z1, z2)` is the
leading sum or product with its remainder, `c` the correction -/
def tailR (s : Bool) (z : Dbl × Dbl) (c : Dbl) : DD :=
  if Fl.eq z.1 (infS s) then ⟨z.1, lit 0⟩
  else
    let z := if Fl.eq z.1 (infS !s) then ((maxS !s).a1, (maxS !s).a2) else z
    finishR s z.1 (Fl.add (dir s) z.2 c)

theorem tail_bd (s : Bool) {z : Dbl × Dbl} {c : Dbl} {e : ℚ} {w : ℝ} (h1 : z.1 = Fl.round .near e)
    (h2 : ∀ x hx, (Fl.round .near e : Dbl) = fin x hx → Bd s z.2 ((e : ℝ) - x)) (hc : Bd s c w) :
    DBd s (tailR s z c) (e + w) := by
  unfold tailR
  rw [h1]
  rcases near_cases e with ⟨h, e1⟩ | ⟨e1, h⟩ | ⟨e1, h⟩
  · rw [e1, if_neg (by cases s <;> simp [Fl.eq, infS]), if_neg (by cases s <;> simp [Fl.eq, infS])]
    simp only
    rw [h1, e1]
    exact (finish_bd s h (bd_add (h2 _ _ e1) hc)).congr (by ring)
  · rw [e1]
    have hr : (((B).maxQ + max2 : ℚ) : ℝ) ≤ e := by exact_mod_cast h
    push_cast at hr
    cases s
    · rw [if_neg (by simp [Fl.eq, infS]), if_pos (by simp [Fl.eq, infS])]
      show DBd false (finishR false maxD.a1 (Fl.add .down maxD.a2 c)) _
      rw [maxD_eq]
      have := finish_bd false maxQ_rep (bd_add (bd_exact false rep_max2) hc)
      exact DUB.mono this (by linarith)
    · exact DUB.inf _
  · rw [e1]
    have hr : (e : ℝ) ≤ ((-((B).maxQ + max2) : ℚ) : ℝ) := by exact_mod_cast h
    push_cast at hr
    cases s
    · rw [if_pos (by simp [Fl.eq, infS])]
      show DUB ⟨pinf, Fl.neg (lit 0)⟩ _
      rw [neg_lit0]; exact .inf _
    · rw [if_neg (by simp [Fl.eq, infS]), if_pos (by simp [Fl.eq, infS])]
      show DBd true (finishR true (Fl.neg maxD.a1) (Fl.add .up (Fl.neg maxD.a2) c)) _
      rw [maxD_eq]
      have := finish_bd true maxQ_rep.neg (bd_add (bd_exact true rep_max2.neg) hc)
      exact DUB.mono this (by push_cast; linarith)

/-! ## addition, subtraction, multiplication -/

/-- addition in direction `s` -/
def addR (s : Bool) (x y : DD) : DD := match s with | true => addUp x y | false => addDown x y
/-- subtraction in direction `s` -/
def subR (s : Bool) (x y : DD) : DD := match s with | true => subUp x y | false => subDown x y
/-- multiplication in direction `s` -/
def mulR (s fma : Bool) (x y : DD) : DD := match s with | true => mulUp fma x y | false => mulDown fma x y

theorem isInf_fin {a : ℚ} (ha : (B).Rep a) : isInf (fin a ha : Dbl) = false := by
  unfold isInf Fl.abs
  simp only
  split_ifs <;> rfl

section
variable {x1 x2 y1 y2 : ℚ} (hx1 : (B).Rep x1) (hx2 : (B).Rep x2) (hy1 : (B).Rep y1) (hy2 : (B).Rep y2)

theorem addR_eq (s : Bool) : addR s ⟨fin x1 hx1, fin x2 hx2⟩ ⟨fin y1 hy1, fin y2 hy2⟩ =
    tailR s (twosum (fin x1 hx1) (fin y1 hy1)) (Fl.add (dir s) (fin x2 hx2) (fin y2 hy2)) := by
  cases s <;> simp only [addR, addUp, addDown, isInf_fin, Bool.or_self, Bool.false_eq_true, if_false] <;> rfl

theorem subR_eq (s : Bool) : subR s ⟨fin x1 hx1, fin x2 hx2⟩ ⟨fin y1 hy1, fin y2 hy2⟩ =
    tailR s (twosum (fin x1 hx1) (fin (-y1) hy1.neg)) (Fl.sub (dir s) (fin x2 hx2) (fin y2 hy2)) := by
  cases s <;> simp only [subR, subUp, subDown, isInf_fin, Bool.or_self, Bool.false_eq_true, if_false] <;> rfl

theorem mulR_eq (s fma : Bool) : mulR s fma ⟨fin x1 hx1, fin x2 hx2⟩ ⟨fin y1 hy1, fin y2 hy2⟩ =
    tailR s (twoproductR (dir s) fma (fin x1 hx1) (fin y1 hy1))
      (Fl.add (dir s) (Fl.add (dir s) (Fl.mul (dir s) (fin x1 hx1) (fin y2 hy2))
        (Fl.mul (dir s) (fin x2 hx2) (fin y1 hy1))) (Fl.mul (dir s) (fin x2 hx2) (fin y2 hy2))) := by
  cases s <;> simp only [mulR, mulUp, mulDown, isInf_fin, Bool.or_self, Bool.false_eq_true, if_false] <;> rfl

theorem twosum_bd (s : Bool) {a b x : ℚ} (ha : (B).Rep a) (hb : (B).Rep b) (hx : (B).Rep x)
    (hr : (Fl.round .near (a + b) : Dbl) = fin x hx) :
    Bd s (twosum (fin a ha) (fin b hb)).2 (((a + b : ℚ) : ℝ) - x) := by
  obtain ⟨h, e⟩ := twosum_fin ha hb hx hr
  rw [e]
  exact (bd_exact s h).congr (by push_cast; ring)

theorem addR_bd (s : Bool) : DBd s (addR s ⟨fin x1 hx1, fin x2 hx2⟩ ⟨fin y1 hy1, fin y2 hy2⟩)
    ((x1 : ℝ) + x2 + (y1 + y2)) := by
  rw [addR_eq]
  refine (tail_bd s (e := x1 + y1) ?_ (fun x hx h => twosum_bd s hx1 hy1 hx h)
    (bd_add (bd_exact s hx2) (bd_exact s hy2))).congr (by push_cast; ring)
  rw [twosum_fst]; rfl

theorem subR_bd (s : Bool) : DBd s (subR s ⟨fin x1 hx1, fin x2 hx2⟩ ⟨fin y1 hy1, fin y2 hy2⟩)
    ((x1 : ℝ) + x2 - (y1 + y2)) := by
  rw [subR_eq]
  refine (tail_bd s (e := x1 + -y1) ?_ (fun x hx h => twosum_bd s hx1 hy1.neg hx h)
    (bd_sub (bd_exact s hx2) hy2)).congr (by push_cast; ring)
  rw [twosum_fst]; rfl

theorem mulR_bd (s fma : Bool) : DBd s (mulR s fma ⟨fin x1 hx1, fin x2 hx2⟩ ⟨fin y1 hy1, fin y2 hy2⟩)
    (((x1 : ℝ) + x2) * (y1 + y2)) := by
  rw [mulR_eq]
  refine (tail_bd s (e := x1 * y1) ?_ (fun x hx h => ?_)
    (bd_add (bd_add (bd_mul s hx1 hy2) (bd_mul s hx2 hy1)) (bd_mul s hx2 hy2))).congr (by push_cast; ring)
  · rw [twoproductR_fst]; rfl
  · exact (twoproductR_bd s fma hx1 hy1 hx h).congr (by push_cast; ring)
end

end DD
end Kv
