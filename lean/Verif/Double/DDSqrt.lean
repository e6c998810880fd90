import Verif.Double.DDDiv

/-!
# `rop<dd>`: square root
-/

set_option exponentiation.threshold 3000

namespace Kv
namespace DD
open Fl Format Emu

local notation "B" => binary64

/-! ## bounded intermediate results -/

theorem round_bdd (md : RMode) {q M : ℚ} (hM : (B).Rep M) (h : |q| ≤ M) :
    ∃ r, ∃ hr : (B).Rep r, (Fl.round md q : Dbl) = fin r hr ∧ |r| ≤ M := by
  have h' := abs_le.1 h
  have hb : |(B).roundQ md q| ≤ M :=
    abs_le.2 ⟨le_roundQ_of_le md hM.repU.neg h'.1, roundQ_le_of_le md hM.repU h'.2⟩
  have hm : |(B).roundQ md q| ≤ (B).maxQ := hb.trans ((le_abs_self M).trans hM.abs_le)
  refine ⟨_, rep_of_repU (roundQ_repU _ _) hm, ?_, hb⟩
  unfold Fl.round pack; rw [dif_pos hm]

theorem add_bdd (md : RMode) {a b A C M : ℚ} (ha : (B).Rep a) (hb : (B).Rep b) (h1 : |a| ≤ A) (h2 : |b| ≤ C)
    (hM : (B).Rep M) (h : A + C ≤ M) :
    ∃ r, ∃ hr : (B).Rep r, Fl.add md (fin a ha) (fin b hb) = fin r hr ∧ |r| ≤ M :=
  round_bdd md hM ((abs_add_le _ _).trans (by linarith))

theorem mul_bdd (md : RMode) {a b A C M : ℚ} (ha : (B).Rep a) (hb : (B).Rep b) (h1 : |a| ≤ A) (h2 : |b| ≤ C)
    (hM : (B).Rep M) (h : A * C ≤ M) :
    ∃ r, ∃ hr : (B).Rep r, Fl.mul md (fin a ha) (fin b hb) = fin r hr ∧ |r| ≤ M := by
  refine round_bdd md hM ?_
  rw [abs_mul]
  exact (mul_le_mul h1 h2 (abs_nonneg _) ((abs_nonneg _).trans h1)).trans h

theorem two_step (k : ℤ) : (2 : ℚ) ^ k + 2 ^ k = 2 ^ (k + 1) := by
  rw [zpow_add₀ (by norm_num), zpow_one]; ring

theorem tiny_rem (md : RMode) (fma : Bool) {a b x : ℚ} (ha : (B).Rep a) (hb : (B).Rep b)
    (hla : |a| ≤ 2 ^ (-480 : ℤ)) (hlb : |b| ≤ 2 ^ (-480 : ℤ)) (ha0 : a ≠ 0) (hb0 : b ≠ 0) (hx : (B).Rep x)
    (hr : (Fl.round .near (a * b) : Dbl) = fin x hx) :
    ∃ r, ∃ h : (B).Rep r, (twoproductR md fma (fin a ha) (fin b hb)).2 = fin r h ∧ |r| ≤ 2 ^ (-890 : ℤ) := by
  have R : ∀ k : ℤ, -1074 ≤ k → k ≤ 1023 → (B).Rep (2 ^ k) := fun k h1 h2 => rep_pow h1 h2
  have hab : |a * b| ≤ 2 ^ (-900 : ℤ) := by
    rw [abs_mul]
    refine (mul_le_mul hla hlb (abs_nonneg _) (two_zpow_pos _).le).trans ?_
    rw [← zpow_add₀ (by norm_num)]; exact pw_le (by norm_num)
  have hxv := round_fin_val hr
  have hxb : |x| ≤ 2 ^ (-900 : ℤ) := by rw [hxv]; exact abs_near_le (R (-900) (by norm_num) (by norm_num)).repU hab
  unfold twoproductR
  simp only [ti_fin ha hb, hr]
  cases fma
  · rw [if_neg (by simp), le_two_fin (by norm_num) (by norm_num), le_two_fin (by norm_num) (by norm_num),
      if_neg (by simpa using hla.trans (pw_le (k := 996) (by norm_num))),
      if_neg (by simpa using hlb.trans (pw_le (k := 996) (by norm_num)))]
    simp only
    obtain ⟨a1, ha1, ha2, ea, ra⟩ := split_fin ha (hla.trans (pw_le (by norm_num)))
    obtain ⟨b1, hb1, hb2, eb, rb⟩ := split_fin hb (hlb.trans (pw_le (by norm_num)))
    have key : ∀ {t t1 : ℚ}, t ≠ 0 → |t| ≤ 2 ^ (-480 : ℤ) → SplitRes t t1 →
        |t1| ≤ 2 ^ (-460 : ℤ) ∧ |t - t1| ≤ 2 ^ (-460 : ℤ) := by
      intro t t1 h0 hl hs
      have h1 := (hs.spec h0).err
      obtain ⟨l1, -⟩ := log_bounds h0
      have h2 : |t - t1| ≤ 2 ^ (-480 : ℤ) :=
        h1.trans ((pw_le (by omega)).trans (l1.trans hl))
      have h3 : |t1| ≤ |t - t1| + |t| := by
        rw [show t1 = -(t - t1) + t by ring]
        refine (abs_add_le _ _).trans ?_
        rw [abs_neg]; simp
      have h4 := two_step (-480)
      have h5 : (2 : ℚ) ^ (-480 + 1 : ℤ) ≤ 2 ^ (-460 : ℤ) := pw_le (by norm_num)
      exact ⟨by linarith, h2.trans (pw_le (by norm_num))⟩
    obtain ⟨k1, k2⟩ := key ha0 hla ra
    obtain ⟨k3, k4⟩ := key hb0 hlb rb
    have pm : (2 : ℚ) ^ (-460 : ℤ) * 2 ^ (-460 : ℤ) ≤ 2 ^ (-900 : ℤ) := by
      rw [← zpow_add₀ (by norm_num)]; exact pw_le (by norm_num)
    unfold dekkerR
    rw [ea, eb, le_two_fin (by norm_num) (by norm_num)]
    simp only
    rw [if_neg (by simpa using hxb.trans (pw_le (k := 1023) (by norm_num)))]
    obtain ⟨p11, h11, e11, m11⟩ := mul_bdd md ha1 hb1 k1 k3 (R (-900) (by norm_num) (by norm_num)) pm
    obtain ⟨p21, h21, e21, m21⟩ := mul_bdd md ha2 hb1 k2 k3 (R (-900) (by norm_num) (by norm_num)) pm
    obtain ⟨p12, h12, e12, m12⟩ := mul_bdd md ha1 hb2 k1 k4 (R (-900) (by norm_num) (by norm_num)) pm
    obtain ⟨p22, h22, e22, m22⟩ := mul_bdd md ha2 hb2 k2 k4 (R (-900) (by norm_num) (by norm_num)) pm
    rw [e11, e21, e12, e22]
    obtain ⟨s1, g1, f1, n1⟩ := add_bdd md h11 hx.neg m11 (by rw [abs_neg]; exact hxb) (R (-899) (by norm_num) (by norm_num))
      (two_step (-900)).le
    have f1' : Fl.sub md (fin p11 h11) (fin x hx) = fin s1 g1 := f1
    rw [f1']
    have w : (2 : ℚ) ^ (-900 : ℤ) ≤ 2 ^ (-899 : ℤ) := pw_le (by norm_num)
    have w' : (2 : ℚ) ^ (-899 : ℤ) ≤ 2 ^ (-898 : ℤ) := pw_le (by norm_num)
    have w'' : (2 : ℚ) ^ (-898 : ℤ) ≤ 2 ^ (-897 : ℤ) := pw_le (by norm_num)
    obtain ⟨s2, g2, f2, n2⟩ := add_bdd md g1 h21 n1 (m21.trans w) (R (-898) (by norm_num) (by norm_num)) (two_step (-899)).le
    rw [f2]
    obtain ⟨s3, g3, f3, n3⟩ := add_bdd md g2 h12 n2 ((m12.trans w).trans w') (R (-897) (by norm_num) (by norm_num)) (two_step (-898)).le
    rw [f3]
    obtain ⟨s4, g4, f4, n4⟩ := add_bdd md g3 h22 n3 (((m22.trans w).trans w').trans w'') (R (-896) (by norm_num) (by norm_num)) (two_step (-897)).le
    exact ⟨s4, g4, f4, n4.trans (pw_le (by norm_num))⟩
  · rw [if_pos rfl]
    show ∃ r, ∃ h : (B).Rep r, Fl.round md (a * b + -x) = fin r h ∧ _
    refine round_bdd md (R (-890) (by norm_num) (by norm_num)) ?_
    refine (abs_add_le _ _).trans ?_
    rw [abs_neg]
    have := two_step (-900)
    have w : (2 : ℚ) ^ (-900 + 1 : ℤ) ≤ 2 ^ (-890 : ℤ) := pw_le (by norm_num)
    linarith

/-! ## the leading part of the square root -/

/-- largest double below `2^512` -/
theorem rep_top : (B).Rep (2 ^ (512 : ℤ) - 2 ^ (459 : ℤ)) := by
  refine ⟨2 ^ 53 - 1, 459, by decide, by decide, by decide, ?_⟩
  rw [two_zpow_add 459 512 53 (by norm_num)]; push_cast; ring

theorem sqrt_le_top {q : ℚ} (h : (B).Rep q) (hq : 0 ≤ q) : sqrtQ B .near q ≤ 2 ^ (512 : ℤ) - 2 ^ (459 : ℤ) := by
  have h1 := (abs_le.1 h.abs_le).2
  rcases eq_or_lt_of_le h1 with e | hlt
  · rw [e]; decide +kernel
  · rw [sqrtQ_near]
    refine le_RepU_of_sqrt hq rep_top.repU ?_ (sqrtN_le q) (sqrtN_sq hq)
    have hq2 : q ≤ (2 ^ 53 - 2) * 2 ^ (971 : ℤ) := by
      by_contra hc
      rw [not_le] at hc
      have hb : (2 : ℚ) ^ (1023 : ℤ) ≤ |q| := by
        rw [abs_of_nonneg hq, two_zpow_add 971 1023 52 (by norm_num)]
        have := two_zpow_pos 971
        nlinarith
      obtain ⟨n, hn⟩ := onGrid_of_large p64 h.repU hb
      rw [hn, maxQ64] at hlt
      rw [hn] at hc
      norm_num only at hlt hc
      have hp := two_zpow_pos 971
      have g1 : ((2 ^ 53 - 2 : ℚ)) < n := lt_of_mul_lt_mul_right (by norm_num only; exact hc) hp.le
      have g2 : (n : ℚ) < 2 ^ 53 - 1 := lt_of_mul_lt_mul_right (by norm_num only; exact hlt) hp.le
      have g3 : ((2 ^ 53 - 2 : ℤ)) < n := by exact_mod_cast g1
      have g4 : n < 2 ^ 53 - 1 := by exact_mod_cast g2
      omega
    apply Real.sqrt_le_iff.2
    have hp := two_zpow_pos 459
    have e1 : (2 : ℚ) ^ (512 : ℤ) - 2 ^ (459 : ℤ) = (2 ^ 53 - 1) * 2 ^ (459 : ℤ) := by
      rw [two_zpow_add 459 512 53 (by norm_num)]; ring
    have e2 : (2 : ℚ) ^ (971 : ℤ) = 2 ^ 53 * (2 ^ (459 : ℤ) * 2 ^ (459 : ℤ)) := by
      rw [← zpow_add₀ (by norm_num), two_zpow_add 918 971 53 (by norm_num)]; norm_num
    constructor
    · have : (0 : ℚ) ≤ 2 ^ (512 : ℤ) - 2 ^ (459 : ℤ) := by rw [e1]; exact mul_nonneg (by norm_num) hp.le
      exact_mod_cast this
    · have : q ≤ (2 ^ (512 : ℤ) - 2 ^ (459 : ℤ)) ^ 2 := by
        rw [e1]
        refine hq2.trans ?_
        rw [e2, sq]
        have := mul_pos hp hp
        nlinarith
      exact_mod_cast this

theorem top_sq : (2 ^ (512 : ℤ) - 2 ^ (459 : ℤ) : ℚ) * (2 ^ (512 : ℤ) - 2 ^ (459 : ℤ)) ≤ (B).maxQ := by
  have hp := two_zpow_pos 459
  have e1 : (2 : ℚ) ^ (512 : ℤ) - 2 ^ (459 : ℤ) = (2 ^ 53 - 1) * 2 ^ (459 : ℤ) := by
    rw [two_zpow_add 459 512 53 (by norm_num)]; ring
  have e2 : (2 : ℚ) ^ (971 : ℤ) = 2 ^ 53 * (2 ^ (459 : ℤ) * 2 ^ (459 : ℤ)) := by
    rw [← zpow_add₀ (by norm_num), two_zpow_add 918 971 53 (by norm_num)]; norm_num
  rw [e1, maxQ64, e2]
  have := mul_pos hp hp
  nlinarith

/-- the leading part lies between the same powers of two as the square root -/
theorem sqrt_pow {q : ℚ} (hq : 0 < q) {j : ℤ} (hj : -537 ≤ j) (h1 : 4 ^ j ≤ q) (h2 : q < 4 ^ (j + 1)) :
    2 ^ j ≤ sqrtQ B .near q ∧ sqrtQ B .near q ≤ 2 ^ (j + 1) := by
  have hf := sqrtQ_near_faithful hq.le
  have e : ∀ k : ℤ, (4 : ℚ) ^ k = 2 ^ k * 2 ^ k := by
    intro k; rw [← mul_zpow]; norm_num
  have r1 : (((2 : ℚ) ^ j : ℚ) : ℝ) ≤ Real.sqrt q := by
    refine Real.le_sqrt_of_sq_le ?_
    rw [e] at h1
    rw [sq]; exact_mod_cast h1
  have r2 : Real.sqrt q ≤ (((2 : ℚ) ^ (j + 1) : ℚ) : ℝ) := by
    refine Real.sqrt_le_iff.2 ⟨by exact_mod_cast (two_zpow_pos _).le, ?_⟩
    rw [e] at h2
    rw [sq]; exact_mod_cast h2.le
  have p1 : (B).RepU (2 ^ j) := repU_pow (by rw [emin64]; omega)
  have p2 : (B).RepU (2 ^ (j + 1)) := repU_pow (by rw [emin64]; omega)
  constructor
  · by_contra hc
    have hc' : ((sqrtQ B .near q : ℚ) : ℝ) < ((2 ^ j : ℚ) : ℝ) := by exact_mod_cast not_le.1 hc
    exact hc (hf.lo (hc'.trans_le r1) _ p1 r1)
  · by_contra hc
    have hc' : (((2 : ℚ) ^ (j + 1) : ℚ) : ℝ) < ((sqrtQ B .near q : ℚ) : ℝ) := by exact_mod_cast not_le.1 hc
    exact hc (hf.hi (r2.trans_lt hc') _ p2 r2)

/-! ## the residual is finite and small compared with the leading part -/

theorem resid_bdd (md : RMode) (fma : Bool) {x1 x2 : ℚ} (hx1 : (B).Rep x1) (hx2 : (B).Rep x2) (hpos : 0 < x1)
    (n : x1 = (B).roundQ .near (x1 + x2)) {z : ℚ} (hz : (B).Rep z) (ez : z = sqrtQ B .near x1) :
    ∃ z3, ∃ h3 : (B).Rep z3, (Fl.round .near (-z * z) : Dbl) = fin z3 h3 ∧
    ∃ v, ∃ hv : (B).Rep v, Fl.add md (Fl.add md (Fl.add md (fin z3 h3) (fin x1 hx1)) (fin x2 hx2))
      (twoproductR md fma (fin (-z) hz.neg) (fin z hz)).2 = fin v hv ∧ |v| ≤ 2 ^ (600 : ℤ) * z := by
  have ztop : z ≤ 2 ^ (512 : ℤ) - 2 ^ (459 : ℤ) := ez ▸ sqrt_le_top hx1 hpos.le
  set j := Int.log 4 x1 with hj
  have j1 : (4 : ℚ) ^ j ≤ x1 := by
    have := Int.zpow_log_le_self (b := 4) (by norm_num) hpos; push_cast at this; exact this
  have j2 : x1 < (4 : ℚ) ^ (j + 1) := by
    have := Int.lt_zpow_succ_log_self (b := 4) (by norm_num) x1; push_cast at this; exact this
  have e4 : ∀ k : ℤ, (4 : ℚ) ^ k = 2 ^ (2 * k) := by
    intro k; rw [zpow_mul]; norm_num
  rw [e4] at j2
  have hjlo : -537 ≤ j := by
    by_contra hc
    have h1 : (2 : ℚ) ^ (-1074 : ℤ) ≤ |x1| := tiny_le hx1 hpos.ne'
    rw [abs_of_pos hpos] at h1
    exact absurd (h1.trans_lt (j2.trans_le (pw_le (by omega)))) (lt_irrefl _)
  obtain ⟨z1, z2⟩ := sqrt_pow hpos hjlo j1 (by rw [e4]; exact j2)
  rw [← ez] at z1 z2
  rw [e4] at j1
  have z0 : 0 < z := (two_zpow_pos _).trans_le z1
  have zz1 : (2 : ℚ) ^ (2 * j) ≤ z * z := by
    rw [show 2 * j = j + j by ring, zpow_add₀ (by norm_num)]
    exact mul_le_mul z1 z1 (two_zpow_pos _).le z0.le
  have zz2 : z * z ≤ (2 : ℚ) ^ (2 * j + 2) := by
    rw [show 2 * j + 2 = (j + 1) + (j + 1) by ring, zpow_add₀ (by norm_num)]
    exact mul_le_mul z2 z2 z0.le (two_zpow_pos _).le
  have zzm : z * z ≤ (B).maxQ := (mul_le_mul ztop ztop z0.le (z0.le.trans ztop)).trans top_sq
  have hab : |-z * z| = z * z := by rw [neg_mul, abs_neg, abs_of_pos (mul_pos z0 z0)]
  have hfin : |(B).roundQ .near (-z * z)| ≤ (B).maxQ := abs_near_le maxQ_rep.repU (by rw [hab]; exact zzm)
  have er := round_fin_of_le hfin
  have g3 : (B).Rep ((B).roundQ .near (-z * z)) := rep_of_repU (roundQ_repU _ _) hfin
  refine ⟨_, g3, er, ?_⟩
  set z3 := (B).roundQ .near (-z * z) with hz3
  have z3a : -(2 : ℚ) ^ (2 * j + 2) ≤ z3 :=
    le_roundQ_of_le .near (repU_pow (by rw [emin64]; omega)).neg (by rw [neg_mul]; linarith)
  have z3b : z3 ≤ -(2 : ℚ) ^ (2 * j) :=
    roundQ_le_of_le .near (repU_pow (by rw [emin64]; omega)).neg (by rw [neg_mul]; linarith)
  have z0' : -z ≠ 0 := neg_ne_zero.2 z0.ne'
  have zz0 : -z * z ≠ 0 := mul_ne_zero z0' z0.ne'
  have x2lt : |x2| < x1 := by
    have := norm_lt hx1 hx2 n hpos.ne'; rwa [abs_of_pos hpos] at this
  have R : ∀ k : ℤ, -1074 ≤ k → k ≤ 1023 → (B).Rep (2 ^ k) := fun k h1 h2 => rep_pow h1 h2
  have zabs : |z| = z := abs_of_pos z0
  have zle : z ≤ 2 ^ (512 : ℤ) := ztop.trans (by linarith [two_zpow_pos 459])
  have rem : 2 ^ (-969 : ℤ) ≤ |z3| → ∃ h : (B).Rep (-z * z - z3),
      (twoproductR md fma (fin (-z) hz.neg) (fin z hz)).2 = fin (-z * z - z3) h := by
    intro hbig
    obtain ⟨h, e⟩ := twoproductR_fin md fma hz.neg hz (by rw [abs_neg, zabs]; exact zle.trans (pw_le (by norm_num)))
      (by rw [zabs]; exact zle.trans (pw_le (by norm_num))) g3 er zz0 (gridOk_of_le hz.neg hz hbig)
    exact ⟨h, by rw [e]⟩
  by_cases hlarge : 510 ≤ j
  · -- very large arguments
    have hbig : 2 ^ (-969 : ℤ) ≤ |z3| := by
      have h1 : (2 : ℚ) ^ (-969 : ℤ) ≤ 2 ^ (2 * j) := pw_le (by omega)
      exact (h1.trans (by linarith)).trans (neg_le_abs z3)
    obtain ⟨h4, e4⟩ := rem hbig
    rw [e4]
    have xmax : x1 < 2 ^ (1024 : ℤ) := ((le_abs_self _).trans hx1.abs_le).trans_lt maxQ64_lt
    have zmax : -(2 : ℚ) ^ (1024 : ℤ) ≤ z3 := by
      have := (abs_le.1 hfin).1; linarith [maxQ64_lt]
    have p1024 : (2 : ℚ) ^ (1024 : ℤ) = 2 ^ 4 * 2 ^ (1020 : ℤ) := two_zpow_add _ _ 4 (by norm_num)
    have p1020 : (2 : ℚ) ^ (1020 : ℤ) = 2 ^ 40 * 2 ^ (980 : ℤ) := two_zpow_add _ _ 40 (by norm_num)
    have pp := two_zpow_pos 980
    have b1 : |z3 + x1| ≤ 15 * 2 ^ (1020 : ℤ) := by
      have h20 : (2 : ℚ) ^ (1020 : ℤ) ≤ 2 ^ (2 * j) := pw_le (by omega)
      rw [abs_le]
      constructor <;> linarith
    have RM : ∀ k : ℤ, 0 ≤ k → k ≤ 2 → (B).Rep (15 * 2 ^ (1020 : ℤ) + k * 2 ^ (980 : ℤ)) := by
      intro k k0 k2
      have hk0 : (0 : ℚ) ≤ k := by exact_mod_cast k0
      have hk2 : (k : ℚ) ≤ 2 := by exact_mod_cast k2
      refine rep_of_repU ?_ ?_
      · have := repU_of_le (F := B) (m := 15 * 2 ^ 40 + k) (e := 980) (by
          rw [p64, abs_of_nonneg (by omega)]; omega) (by rw [emin64]; norm_num)
        convert this using 1
        rw [p1020]
        generalize (2 : ℚ) ^ (980 : ℤ) = g
        push_cast; ring
      · rw [abs_of_nonneg (by nlinarith), maxQ64, p1020]
        have p980 : (2 : ℚ) ^ (980 : ℤ) = 2 ^ 9 * 2 ^ (971 : ℤ) := two_zpow_add _ _ 9 (by norm_num)
        have := two_zpow_pos 971
        rw [p980]
        nlinarith
    have err : ∀ q : ℚ, |q| ≤ 2 ^ (1025 : ℤ) → |(B).roundQ .near q - q| ≤ 2 ^ (980 : ℤ) := by
      intro q hq
      exact (near_err_le (F := B) (k := 972) (by rw [emin64]; norm_num) (by rw [p64]; exact hq)).trans (pw_le (by norm_num))
    have b2 : |x2| ≤ 2 ^ (980 : ℤ) := by
      have h1 := err (x1 + x2) (by
        refine (abs_add_le _ _).trans ?_
        rw [abs_of_pos hpos]
        have := two_step 1024
        norm_num only at this ⊢
        linarith)
      rw [← n, show x1 - (x1 + x2) = -x2 by ring, abs_neg] at h1
      exact h1
    have b3 : |-z * z - z3| ≤ 2 ^ (980 : ℤ) := by
      rw [abs_sub_comm]
      refine err _ ?_
      rw [hab]
      exact (zzm.trans maxQ64_lt.le).trans (pw_le (by norm_num))
    obtain ⟨s1, k1, e1, m1⟩ := round_bdd md (RM 0 (by norm_num) (by norm_num)) (b1.trans (by simp))
    have e1' : Fl.add md (fin z3 g3) (fin x1 hx1) = fin s1 k1 := e1
    obtain ⟨s2, k2, e2, m2⟩ := add_bdd md k1 hx2 m1 b2 (RM 1 (by norm_num) (by norm_num)) (by push_cast; linarith)
    obtain ⟨s3, k3, e3, m3⟩ := add_bdd md k2 h4 m2 b3 (RM 2 (by norm_num) (by norm_num)) (by push_cast; linarith)
    rw [e1', e2]
    refine ⟨s3, k3, e3, m3.trans ?_⟩
    calc (15 * 2 ^ (1020 : ℤ) + (2 : ℤ) * 2 ^ (980 : ℤ) : ℚ) ≤ 2 ^ (1024 : ℤ) := by
          rw [p1024, p1020]; push_cast; nlinarith
      _ ≤ 2 ^ (600 + j) := pw_le (by omega)
      _ = 2 ^ (600 : ℤ) * 2 ^ j := zpow_add₀ (by norm_num) _ _
      _ ≤ _ := mul_le_mul_of_nonneg_left z1 (two_zpow_pos _).le
  · have hj' : j ≤ 509 := by omega
    have b1 : |z3 + x1| ≤ 2 ^ (2 * j + 2) := by
      rw [abs_le]
      have h0 := two_zpow_pos (2 * j)
      have : 2 * (j + 1) = 2 * j + 2 := by ring
      rw [this] at j2
      constructor <;> linarith
    have b2 : |x2| ≤ 2 ^ (2 * j + 2) := by
      have : 2 * (j + 1) = 2 * j + 2 := by ring
      rw [this] at j2
      linarith
    obtain ⟨s1, k1, e1, m1⟩ := round_bdd md (R (2 * j + 2) (by omega) (by omega)) b1
    have e1' : Fl.add md (fin z3 g3) (fin x1 hx1) = fin s1 k1 := e1
    obtain ⟨s2, k2, e2, m2⟩ := add_bdd md k1 hx2 m1 b2 (R (2 * j + 2 + 1) (by omega) (by omega)) (two_step _).le
    rw [e1', e2]
    by_cases hbig : 2 ^ (-969 : ℤ) ≤ |z3|
    · obtain ⟨h4, e4⟩ := rem hbig
      rw [e4]
      have b3 : |-z * z - z3| ≤ 2 ^ (2 * j + 2 + 1) := by
        have h0 := two_zpow_pos (2 * j)
        have h1 := two_step (2 * j + 2)
        rw [abs_le, neg_mul]
        constructor <;> linarith
      obtain ⟨s3, k3, e3, m3⟩ := add_bdd md k2 h4 m2 b3 (R (2 * j + 2 + 1 + 1) (by omega) (by omega)) (two_step _).le
      refine ⟨s3, k3, e3, m3.trans ?_⟩
      calc (2 : ℚ) ^ (2 * j + 2 + 1 + 1) ≤ 2 ^ (600 + j) := pw_le (by omega)
        _ = 2 ^ (600 : ℤ) * 2 ^ j := zpow_add₀ (by norm_num) _ _
        _ ≤ _ := mul_le_mul_of_nonneg_left z1 (two_zpow_pos _).le
    · rw [not_le] at hbig
      have hjs : 2 * j < -969 := by
        by_contra hc
        have h1 : (2 : ℚ) ^ (-969 : ℤ) ≤ 2 ^ (2 * j) := pw_le (by omega)
        have := neg_le_abs z3
        linarith
      have zs : z ≤ 2 ^ (-480 : ℤ) := z2.trans (pw_le (by omega))
      obtain ⟨r, hr, e3, m3⟩ := tiny_rem md fma hz.neg hz (by rw [abs_neg, zabs]; exact zs) (by rw [zabs]; exact zs)
        z0' z0.ne' g3 er
      rw [e3]
      have m2' : |s2| ≤ 2 ^ (-890 : ℤ) := m2.trans (pw_le (by omega))
      obtain ⟨s3, k3, e4, m4⟩ := add_bdd md k2 hr m2' m3 (R (-890 + 1) (by norm_num) (by norm_num)) (two_step _).le
      refine ⟨s3, k3, e4, m4.trans ?_⟩
      calc (2 : ℚ) ^ (-890 + 1 : ℤ) ≤ 2 ^ (600 + j) := pw_le (by omega)
        _ = 2 ^ (600 : ℤ) * 2 ^ j := zpow_add₀ (by norm_num) _ _
        _ ≤ _ := mul_le_mul_of_nonneg_left z1 (two_zpow_pos _).le

/-! ## the denominator -/

/-- the sum `sqrt(x) + z` rounded up (`true`) or down -/
def sqrtTmp (up : Bool) (x1 x2 z : Dbl) : Dbl :=
  match up with
  | true =>
    if Fl.eq x1 maxF then
      Fl.add .up (Fl.mul .up (Fl.sqrt .up (Fl.add .up (Fl.mul .up x1 (lit (1 / 4))) (Fl.mul .up x2 (lit (1 / 4)))))
        (lit 2)) z
    else Fl.add .up (Fl.sqrt .up (Fl.add .up x1 x2)) z
  | false => Fl.add .down (Fl.sqrt .down (Fl.add .down x1 x2)) z

theorem ub_sqrt {a : Dbl} {u : ℝ} (h : UB a u) (hu : 0 ≤ u) : UB (Fl.sqrt .up a) (Real.sqrt u) := by
  cases h with
  | inf => exact .inf _
  | fin hq hv =>
    rename_i q
    have hq0 : 0 ≤ q := by exact_mod_cast hu.trans hv
    exact (ub_of_isUp (sqrt_up_isUp hq hq0)).mono (Real.sqrt_le_sqrt hv)

theorem rep_quarter : (B).Rep (1 / 4) := by
  have := rep_pow (k := -2) (by norm_num) (by norm_num)
  norm_num at this ⊢; exact this

theorem sqrtTmp_up {x1 x2 z : ℚ} (hx1 : (B).Rep x1) (hx2 : (B).Rep x2) (hz : (B).Rep z) (h0 : 0 ≤ x1 + x2) :
    UB (sqrtTmp true (fin x1 hx1) (fin x2 hx2) (fin z hz)) (Real.sqrt ((x1 : ℝ) + x2) + z) := by
  have h0' : (0 : ℝ) ≤ (x1 : ℝ) + x2 := by exact_mod_cast h0
  have hz' : UB (fin z hz) z := bd_exact true hz
  unfold sqrtTmp
  simp only
  split_ifs
  · rw [lit_eq rep_quarter, lit_eq rep_two]
    have h1 := ub_add (ub_mul hx1 rep_quarter) (ub_mul hx2 rep_quarter)
    have e : (x1 : ℝ) * ((1 / 4 : ℚ) : ℝ) + x2 * ((1 / 4 : ℚ) : ℝ) = ((x1 : ℝ) + x2) / 2 ^ 2 := by
      push_cast; ring
    rw [e] at h1
    have h2 := ub_sqrt h1 (by positivity)
    rw [Real.sqrt_div h0', Real.sqrt_sq (by norm_num)] at h2
    have h3 := ub_mul_pos rep_two (by norm_num) h2
    exact ub_add (h3.mono (by push_cast; linarith)) hz'
  · exact ub_add (ub_sqrt (ub_of_add_up hx1 hx2) h0') hz'

theorem sqrtTmp_down {x1 x2 z : ℚ} (hx1 : (B).Rep x1) (hx2 : (B).Rep x2) (hz : (B).Rep z) (h0 : 0 < x1 + x2)
    (hz0 : 0 < z) :
    ∃ t, ∃ h : (B).Rep t, sqrtTmp false (fin x1 hx1) (fin x2 hx2) (fin z hz) = fin t h ∧ z ≤ t ∧
      (t : ℝ) ≤ Real.sqrt ((x1 : ℝ) + x2) + z := by
  obtain ⟨d, hd, ed, d0, dle⟩ := plb_of_add_down hx1 hx2 h0
  unfold sqrtTmp
  simp only [ed]
  have hs := sqrt_down_isDown hd d0.le
  have hr : ∃ r, ∃ h : (B).Rep r, Fl.sqrt .down (fin d hd) = fin r h ∧ 0 ≤ r ∧ (r : ℝ) ≤ Real.sqrt d := by
    have h0 := hs.2.2 (fin 0 rep_zero) (by simp) (by
      rw [toE_fin]; simp)
    have h1 := hs.2.1
    have h2 := hs.1
    cases e : Fl.sqrt .down (fin d hd) with
    | nan => exact absurd e h2
    | pinf => rw [e, toE_pinf, top_le_iff] at h1; exact absurd h1 (EReal.coe_ne_top _)
    | ninf => rw [e] at h0; simp at h0
    | fin r hr =>
      rw [e, toE_fin, toE_fin, coeQ_le] at h0
      rw [e, toE_fin, EReal.coe_le_coe_iff] at h1
      exact ⟨r, hr, rfl, h0, h1⟩
  obtain ⟨r, hr, er, r0, rle⟩ := hr
  rw [er]
  obtain ⟨t, ht, et, t0, tle⟩ := plb_of_add_down hr hz (by linarith)
  refine ⟨t, ht, et, ?_, ?_⟩
  · have h := round_down_isDown (F := B) (r + z)
    have e' : Fl.round .down (r + z) = fin t ht := et
    rw [e'] at h
    have := h.2.2 (fin z hz) (by simp) (coeQ_le.2 (by linarith))
    rw [toE_fin, toE_fin, coeQ_le] at this
    exact this
  · have := Real.sqrt_le_sqrt dle
    linarith

/-- square root in direction `s` -/
def sqrtR (s fma : Bool) (x : DD) : DD := match s with | true => sqrtUp fma x | false => sqrtDown fma x

theorem sqrtR_eq (s fma : Bool) {x1 x2 : ℚ} (hx1 : (B).Rep x1) (hx2 : (B).Rep x2) (h0 : 0 < x1) :
    sqrtR s fma ⟨fin x1 hx1, fin x2 hx2⟩ =
      (let z1 := Fl.sqrt .near (fin x1 hx1)
      let p := twoproductR (dir s) fma (Fl.neg z1) z1
      let v2 := Fl.add (dir s) (Fl.add (dir s) (Fl.add (dir s) p.1 (fin x1 hx1)) (fin x2 hx2)) p.2
      let tmp := if Fl.lt (lit 0) v2 then sqrtTmp (!s) (fin x1 hx1) (fin x2 hx2) z1
        else sqrtTmp s (fin x1 hx1) (fin x2 hx2) z1
      let q := twosum z1 (Fl.div (dir s) v2 tmp)
      ⟨q.1, q.2⟩) := by
  have e : Fl.eq (fin x1 hx1) (lit 0) = false := by
    rw [lit0]; simp [Fl.eq, h0.ne']
  have e2 : Fl.eq (fin x1 hx1) pinf = false := rfl
  cases s <;> simp only [sqrtR, sqrtUp, sqrtDown, e, e2, Bool.false_and, Bool.false_eq_true, if_false] <;> rfl

theorem sqrtR_bd (s fma : Bool) {x1 x2 : ℚ} (hx1 : (B).Rep x1) (hx2 : (B).Rep x2) (hpos : 0 < x1)
    (n : x1 = (B).roundQ .near (x1 + x2)) :
    DBd s (sqrtR s fma ⟨fin x1 hx1, fin x2 hx2⟩) (Real.sqrt ((x1 : ℝ) + x2)) := by
  rw [sqrtR_eq s fma hx1 hx2 hpos, sqrt_near_fin hx1 hpos.le]
  set z := sqrtQ B .near x1 with hzdef
  have hz : (B).Rep z := sqrtQ_near_rep hx1 hpos.le
  obtain ⟨z3, h3, e3, v, hv, ev, hvb⟩ := resid_bdd (dir s) fma hx1 hx2 hpos n hz hzdef
  have z0 : 0 < z := by
    rcases eq_or_lt_of_le (sqrtQ_near_nonneg x1) with h | h
    · exfalso
      have h1 : Real.sqrt x1 > 0 := Real.sqrt_pos.2 (by exact_mod_cast hpos)
      have ht : (B).Rep (2 ^ (-1074 : ℤ)) := rep_pow (by norm_num) (by norm_num)
      have h2 := (sqrtQ_near_faithful hpos.le).lo (by rw [← h]; simpa using h1) _ ht.repU (by
        refine Real.le_sqrt_of_sq_le ?_
        have h3 : (2 : ℚ) ^ (-1074 : ℤ) ≤ x1 := by
          have := tiny_le hx1 hpos.ne'; rwa [abs_of_pos hpos] at this
        have h4 : ((2 : ℚ) ^ (-1074 : ℤ)) ^ 2 ≤ x1 := by
          refine le_trans ?_ h3
          rw [sq]
          exact mul_le_of_le_one_right (two_zpow_pos _).le ((pw_le (by norm_num)).trans_eq (zpow_zero 2))
        exact_mod_cast h4)
      rw [← h] at h2
      exact absurd h2 (not_le.2 (two_zpow_pos _))
    · exact h
  have hX : 0 < x1 + x2 := by
    have := norm_lt hx1 hx2 n hpos.ne'
    rw [abs_of_pos hpos] at this
    linarith [(abs_lt.1 this).1]
  have eneg : Fl.neg (fin z hz) = fin (-z) hz.neg := rfl
  simp only [twoproductR_fst]
  have etp : ti (Fl.neg (fin z hz)) (fin z hz) = fin z3 h3 := e3
  rw [etp, eneg, ev]
  -- the residual is a bound
  have hbd : Bd s (fin v hv) (((x1 : ℝ) + x2) - z * z) := by
    rw [← ev]
    have hb := twoproductR_bd s fma hz.neg hz h3 e3
    exact (bd_add (bd_add (bd_add (bd_exact s h3) (bd_exact s hx1)) (bd_exact s hx2)) hb).congr
      (by push_cast; ring)
  have hXr : (0 : ℝ) < (x1 : ℝ) + x2 := by exact_mod_cast hX
  have hz0r : (0 : ℝ) < z := by exact_mod_cast z0
  have hsq := Real.sqrt_pos.2 hXr
  set r := Real.sqrt ((x1 : ℝ) + x2) with hr
  have hY : 0 < r + z := by linarith
  have hU := sqrtTmp_up hx1 hx2 hz hX.le
  obtain ⟨t, ht, et, hzt, htY⟩ := sqrtTmp_down hx1 hx2 hz hX z0
  have hL : PLB (sqrtTmp false (fin x1 hx1) (fin x2 hx2) (fin z hz)) (r + z) :=
    ⟨t, ht, et, z0.trans_le hzt, htY⟩
  have hq : Bd s (Fl.div (dir s) (fin v hv) (if Fl.lt (lit 0) (fin v hv) then sqrtTmp (!s) (fin x1 hx1) (fin x2 hx2) (fin z hz)
      else sqrtTmp s (fin x1 hx1) (fin x2 hx2) (fin z hz))) (r - z) := by
    have excl : Fl.lt (fin v hv) (lit 0) = true → Fl.lt (lit 0) (fin v hv) = false := by
      rw [lit0]; simp [Fl.lt]; exact fun h => h.le
    have ev2 : (((x1 : ℝ) + x2) - z * z) / (r + z) = r - z := by
      rw [div_eq_iff hY.ne', show (r - z) * (r + z) = r * r - z * z by ring, hr, Real.mul_self_sqrt hXr.le]
    cases s
    · show UB (Fl.neg (Fl.div .down _ _)) _
      rw [neg_div_dn, ← ev2, ← neg_div]
      refine ub_div hY hbd ?_ ?_ ?_
      · intro h
        rw [lt_zero_neg] at h
        rw [excl h]; exact hL
      · intro h
        rw [neg_lt_zero'] at h
        rw [h]; exact hU
      · cases Fl.lt (lit 0) (fin v hv)
        · exact Or.inl hL
        · exact Or.inr hU
    · show UB (Fl.div .up _ _) _
      rw [← ev2]
      refine ub_div hY hbd ?_ ?_ ?_
      · intro h
        rw [h]; exact hL
      · intro h
        rw [excl h]; exact hU
      · cases Fl.lt (lit 0) (fin v hv)
        · exact Or.inr hU
        · exact Or.inl hL
  -- the quotient is finite
  have small : ∀ tm : Dbl, (tm = pinf ∨ ∃ q, ∃ h : (B).Rep q, tm = fin q h ∧ z ≤ q) →
      ∃ w, ∃ hw : (B).Rep w, Fl.div (dir s) (fin v hv) tm = fin w hw ∧ |w| ≤ 2 ^ (600 : ℤ) := by
    rintro tm (rfl | ⟨q, h, rfl, hq⟩)
    · exact ⟨0, rep_zero, rfl, by rw [abs_zero]; exact (two_zpow_pos _).le⟩
    · have q0 : 0 < q := z0.trans_le hq
      rw [div_fin _ _ _ q0.ne']
      refine round_bdd _ (rep_pow (by norm_num) (by norm_num)) ?_
      rw [abs_div, abs_of_pos q0, div_le_iff₀ q0]
      exact hvb.trans (mul_le_mul_of_nonneg_left hq (two_zpow_pos _).le)
  have hU' : sqrtTmp true (fin x1 hx1) (fin x2 hx2) (fin z hz) = pinf ∨ ∃ q, ∃ h : (B).Rep q,
      sqrtTmp true (fin x1 hx1) (fin x2 hx2) (fin z hz) = fin q h ∧ z ≤ q := by
    generalize sqrtTmp true (fin x1 hx1) (fin x2 hx2) (fin z hz) = tm at hU
    cases hU with
    | inf => exact Or.inl rfl
    | fin h hv' =>
      rename_i q
      refine Or.inr ⟨q, h, rfl, ?_⟩
      have : (z : ℝ) ≤ q := by linarith
      exact_mod_cast this
  obtain ⟨w, hw, ew, hwb⟩ := small (if Fl.lt (lit 0) (fin v hv) then sqrtTmp (!s) (fin x1 hx1) (fin x2 hx2) (fin z hz)
      else sqrtTmp s (fin x1 hx1) (fin x2 hx2) (fin z hz)) (by
    cases s <;> cases Fl.lt (lit 0) (fin v hv)
    · exact Or.inr ⟨t, ht, et, hzt⟩
    · exact hU'
    · exact hU'
    · exact Or.inr ⟨t, ht, et, hzt⟩)
  rw [ew] at hq ⊢
  have zle : |z| ≤ 2 ^ (600 : ℤ) := by
    rw [abs_of_pos z0]
    exact (sqrtQ_near_le hx1 hpos.le).trans (pw_le (by norm_num))
  obtain ⟨y, hy, ey, -⟩ := add_bdd .near hz hw zle hwb (rep_pow (k := 600 + 1) (by norm_num) (by norm_num)) (two_step 600).le
  obtain ⟨hl, el⟩ := twosum_fin hz hw hy ey
  rw [el]
  have yn : y = (B).roundQ .near (y + (z + w - y)) := by
    rw [show y + (z + w - y) = z + w by ring]; exact round_fin_val ey
  rw [bd_fin_iff] at hq
  cases s
  · show DUB ⟨fin (-y) hy.neg, fin (-(z + w - y)) hl.neg⟩ _
    refine .fin _ _ ?_ ?_
    · rw [← neg_add, roundQ_neg_near, ← yn]
    · simp at hq; push_cast; linarith
  · show DUB ⟨fin y hy, fin (z + w - y) hl⟩ _
    refine .fin _ _ yn ?_
    simp at hq; push_cast; linarith

end DD
end Kv
