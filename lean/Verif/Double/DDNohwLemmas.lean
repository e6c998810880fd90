import Verif.Double.DDNohw
import Verif.Double.DDSqrt

/-!
# `rop<dd>` without hardware rounding agrees with `rop<dd>` with hardware rounding
-/

set_option exponentiation.threshold 3000

namespace Kv
namespace DDN
open Fl Format Emu DD

local notation "B" => binary64

/-- `dekkerUp`/`dekkerDown` with directed operations in place of the emulated ones -/
def dekkerN (md : RMode) (x na nb : Dbl) : Dbl :=
  let (a1, a2) := split na
  let (b1, b2) := split nb
  if Fl.lt (two 1023) (Fl.abs x) then
    Fl.add md (Fl.add md (Fl.add md
      (ti (Fl.sub md (Fl.mul md (ti a1 (lit (1 / 2))) b1) (ti x (lit (1 / 2)))) (lit 2))
      (Fl.mul md a2 b1)) (Fl.mul md a1 b2)) (Fl.mul md a2 b2)
  else
    Fl.add md (Fl.add md (Fl.add md (Fl.sub md (Fl.mul md a1 b1) x) (Fl.mul md a2 b1)) (Fl.mul md a1 b2))
      (Fl.mul md a2 b2)

/-- `twoproductUp`/`twoproductDown` likewise -/
def twoproductN (md : RMode) (a b : Dbl) : Dbl × Dbl :=
  let x := ti a b
  if Fl.lt (two 996) (Fl.abs a) then (x, dekkerN md x (ti a (two (-28))) (ti b (two 28)))
  else if Fl.lt (two 996) (Fl.abs b) then (x, dekkerN md x (ti a (two 28)) (ti b (two (-28))))
  else (x, dekkerN md x a b)

theorem twoproductUp_eq (fma : Bool) (a b : Dbl) : twoproductUp fma a b = twoproductN .up a b := by
  simp only [twoproductUp, twoproductN, dekkerUp, dekkerN, addUp_eq, subUp_eq, mulUp_eq]

theorem twoproductDown_eq (fma : Bool) (a b : Dbl) : twoproductDown fma a b = twoproductN .down a b := by
  simp only [twoproductDown, twoproductN, dekkerDown, dekkerN, addDown_eq, subDown_eq, mulDown_eq]

theorem twoproductN_fst (md : RMode) (a b : Dbl) : (twoproductN md a b).1 = ti a b := by
  unfold twoproductN
  simp only
  split_ifs <;> rfl

theorem dekkerN_fin (md : RMode) {a b x : ℚ} (ha : (B).Rep a) (hb : (B).Rep b) (hla : |a| ≤ 2 ^ (996 : ℤ))
    (hlb : |b| ≤ 2 ^ (996 : ℤ)) (hx : (B).Rep x) (hr : x = (B).roundQ .near (a * b))
    (h0 : a * b ≠ 0) (hg : GridOk a b) :
    ∃ h : (B).Rep (a * b - x), dekkerN md (fin x hx) (fin a ha) (fin b hb) = fin (a * b - x) h := by
  have ⟨a0, b0⟩ := mul_ne_zero_iff.1 h0
  obtain ⟨ga, gb, hga, hgb, hgg, gra, grb⟩ := hg
  obtain ⟨a1, ha1, ha2, ea, ra⟩ := split_fin ha hla
  obtain ⟨b1, hb1, hb2, eb, rb⟩ := split_fin hb hlb
  obtain ⟨la1, la2⟩ := log_bounds a0
  obtain ⟨lb1, lb2⟩ := log_bounds b0
  have D := Format.dekker (F := B) p64 la1 la2 lb1 lb2 (ra.spec a0) (rb.spec b0)
    (onGrid_of_large p64 ha.repU la1) (onGrid_of_large p64 hb.repU lb1) gra (ra.grid ga hga gra) grb
    (rb.grid gb hgb grb) hgg
  rw [← hr] at D
  set ja := Int.log 2 |a| with hja
  set jb := Int.log 2 |b| with hjb
  obtain ⟨S, err, W, gx⟩ := D
  have hsum : ja + jb ≤ 1023 := by
    by_contra hc
    have h1 : (2 : ℚ) ^ (1024 : ℤ) ≤ |a * b| := by
      refine (pw_le (show (1024 : ℤ) ≤ ja + jb by omega)).trans ?_
      rw [zpow_add₀ (by norm_num), abs_mul]
      exact mul_le_mul la1 lb1 (two_zpow_pos _).le (abs_nonneg _)
    have h2 : (2 : ℚ) ^ (1024 : ℤ) ≤ |x| := by
      rw [hr]
      rcases abs_choice (a * b) with h | h
      · rw [h] at h1
        exact (le_roundQ_of_le .near (repU_pow (by rw [emin64]; norm_num)) h1).trans (le_abs_self _)
      · rw [h] at h1
        have := roundQ_le_of_le (F := B) .near (repU_pow (k := 1024) (by rw [emin64]; norm_num)).neg (q := a * b) (by linarith)
        have h3 := neg_abs_le ((B).roundQ .near (a * b))
        linarith
    exact absurd (h2.trans hx.abs_le) (not_le.2 maxQ64_lt)
  have wle : (2 : ℚ) ^ (ja + jb - 20) ≤ 2 ^ (1003 : ℤ) := pw_le (by omega)
  have wle' : (2 : ℚ) ^ (1003 : ℤ) ≤ 2 ^ (1023 : ℤ) := pw_le (by norm_num)
  have R : ∀ {t : ℚ}, (B).RepU t → |t| ≤ 2 ^ (ja + jb - 20) → (B).Rep t :=
    fun h1 h2 => rep64 h1 (h2.trans (wle.trans wle'))
  have t1 := R (t := a1 * b1 - x) (by rw [hr]; exact S.t1) (by rw [hr]; exact W.t1)
  have t2 := R (t := a * b1 - x) (by rw [hr]; exact S.t2) (by rw [hr]; exact W.t2)
  have t3 := R (t := a * b - (a - a1) * (b - b1) - x) (by rw [hr]; exact S.t3) (by rw [hr]; exact W.t3)
  have t4 := R (t := a * b - x) (by rw [hr]; exact S.t4) (by rw [hr]; exact W.t4)
  have p21 := R S.p21 W.p21
  have p12 := R S.p12 W.p12
  have p22 := R S.p22 W.p22
  refine ⟨t4, ?_⟩
  have tail : ∀ z, z = (fin (a1 * b1 - x) t1 : Dbl) →
      Fl.add md (Fl.add md (Fl.add md z (Fl.mul md (fin (a - a1) ha2) (fin b1 hb1)))
        (Fl.mul md (fin a1 ha1) (fin (b - b1) hb2))) (Fl.mul md (fin (a - a1) ha2) (fin (b - b1) hb2)) = fin (a * b - x) t4 := by
    rintro z rfl
    rw [mul_exact md ha2 hb1 p21 rfl, mul_exact md ha1 hb2 p12 rfl, mul_exact md ha2 hb2 p22 rfl,
      add_exact md _ _ t2 (by ring), add_exact md _ _ t3 (by ring), add_exact md _ _ t4 (by ring)]
  have ht1 : |a1 * b1 - x| ≤ 2 ^ (1003 : ℤ) := by rw [hr]; exact W.t1.trans wle
  have h11 : |a1 * b1| ≤ |x| + 2 ^ (1003 : ℤ) := by
    rw [show a1 * b1 = x + (a1 * b1 - x) by ring]
    refine (abs_add_le _ _).trans ?_
    linarith
  unfold dekkerN
  rw [ea, eb, le_two_fin (by norm_num) (by norm_num)]
  simp only
  by_cases hbig : 2 ^ (1023 : ℤ) < |x|
  · rw [if_pos (decide_eq_true hbig)]
    apply tail
    -- everything is far from the smallest exponents
    have hs2 : 1021 ≤ ja + jb := by
      by_contra hc
      have h1 : |a * b| ≤ 2 ^ (1022 : ℤ) := by
        refine le_trans ?_ (pw_le (show ja + 1 + (jb + 1) ≤ 1022 by omega))
        rw [zpow_add₀ (by norm_num), abs_mul]
        exact mul_le_mul la2.le lb2.le (abs_nonneg _) (two_zpow_pos _).le
      have h2 := abs_near_le (F := B) (repU_pow (k := 1022) (by rw [emin64]; norm_num)) h1
      rw [← hr] at h2
      exact absurd (hbig.trans_le h2) (not_lt.2 (pw_le (by norm_num)))
    have hja : ja ≤ 996 := by
      by_contra hc
      have := (pw_lt (show (996 : ℤ) < ja by omega)).trans_le (la1.trans hla)
      exact lt_irrefl _ this
    have hjb : jb ≤ 996 := by
      by_contra hc
      have := (pw_lt (show (996 : ℤ) < jb by omega)).trans_le (lb1.trans hlb)
      exact lt_irrefl _ this
    have sa := (ra.spec a0).grid
    have sb := (rb.spec b0).grid
    have half : ∀ {t : ℚ} {g : ℤ}, (B).RepU t → OnGrid g t → -1073 ≤ g → (B).RepU (t * (1 / 2)) :=
      fun h hg' hle => RepU.half h (hg'.mono (by rw [emin64]; omega))
    have q1 : (B).Rep (a1 * (1 / 2)) := by
      refine rep_of_repU (half ha1.repU sa (by omega)) ?_
      refine le_trans ?_ ha1.abs_le
      rw [abs_mul, abs_of_pos (by norm_num : (0 : ℚ) < 1 / 2)]
      have := abs_nonneg a1; linarith
    have hxm : |x| < 2 ^ (1024 : ℤ) := hx.abs_le.trans_lt maxQ64_lt
    have q2 : (B).Rep (x * (1 / 2)) := by
      refine rep_of_repU (half hx.repU gx (by omega)) ?_
      refine le_trans ?_ hx.abs_le
      rw [abs_mul, abs_of_pos (by norm_num : (0 : ℚ) < 1 / 2)]
      have := abs_nonneg x; linarith
    have q3 : (B).Rep (a1 * b1 * (1 / 2)) := by
      refine rep_of_repU (half S.p11 (sa.mul sb) (by omega)) (le_trans ?_ le_maxQ64)
      rw [abs_mul, abs_of_pos (by norm_num : (0 : ℚ) < 1 / 2)]
      have e1 : (2 : ℚ) ^ (1024 : ℤ) = 2 ^ 1 * 2 ^ (1023 : ℤ) := two_zpow_add _ _ 1 (by norm_num)
      have e2 : (2 : ℚ) ^ (1003 : ℤ) ≤ 2 ^ (1022 : ℤ) := pw_le (by norm_num)
      linarith
    have q4 : (B).Rep ((a1 * b1 - x) * (1 / 2)) := by
      refine rep_of_repU (half t1.repU ((sa.mul sb).mono (show ja + jb - 52 ≤ _ by omega) |>.sub gx) (by omega)) ?_
      refine le_trans ?_ t1.abs_le
      rw [abs_mul, abs_of_pos (by norm_num : (0 : ℚ) < 1 / 2)]
      have := abs_nonneg (a1 * b1 - x); linarith
    have two2 : (B).Rep 2 := by
      have := rep_pow (k := 1) (by norm_num) (by norm_num); rwa [zpow_one] at this
    rw [lit_eq Format.rep_half, lit_eq two2, ti_exact ha1 _ q1 rfl, ti_exact hx _ q2 rfl,
      mul_exact md q1 hb1 q3 (by ring), sub_exact md q3 q2 q4 (by ring), ti_exact q4 two2 t1 (by ring)]
  · rw [if_neg (by simpa using hbig)]
    apply tail
    have p11 : (B).Rep (a1 * b1) := by
      refine rep_of_repU S.p11 (le_trans ?_ le_maxQ64)
      have e2 : (2 : ℚ) ^ (1003 : ℤ) ≤ 2 ^ (1022 : ℤ) := pw_le (by norm_num)
      have := not_lt.1 hbig
      linarith
    rw [mul_exact md ha1 hb1 p11 rfl, sub_exact md p11 hx t1 rfl]

theorem dekkerN_eq (md : RMode) {a b x : ℚ} (ha : (B).Rep a) (hb : (B).Rep b) (hla : |a| ≤ 2 ^ (996 : ℤ))
    (hlb : |b| ≤ 2 ^ (996 : ℤ)) (hx : (B).Rep x) (hr : x = (B).roundQ .near (a * b)) :
    dekkerN md (fin x hx) (fin a ha) (fin b hb) = dekkerR md (fin x hx) (fin a ha) (fin b hb) := by
  by_cases hbig : 2 ^ (1023 : ℤ) < |x|
  · have h0 : a * b ≠ 0 := by
      intro h
      rw [hr, h, rep_zero.repU.roundQ_eq, abs_zero] at hbig
      exact absurd hbig (not_lt.2 (two_zpow_pos _).le)
    have hg : GridOk a b := gridOk_of_le ha hb (by
      rw [← hr]; exact (pw_le (by norm_num)).trans hbig.le)
    obtain ⟨h1, e1⟩ := dekkerN_fin md ha hb hla hlb hx hr h0 hg
    obtain ⟨h2, e2⟩ := dekkerR_fin md ha hb hla hlb hx hr h0 hg
    rw [e1, e2]
  · have e : Fl.lt (two 1023) (Fl.abs (fin x hx)) = false := by
      rw [le_two_fin (by norm_num) (by norm_num)]; simpa using hbig
    simp only [dekkerN, dekkerR, e, Bool.false_eq_true, if_false]

/-- the products with remainder agree unless the product overflows -/
theorem twoproductN_eq (md : RMode) {a b x : ℚ} (ha : (B).Rep a) (hb : (B).Rep b) (hx : (B).Rep x)
    (hr : (Fl.round .near (a * b) : Dbl) = fin x hx) :
    twoproductN md (fin a ha) (fin b hb) = twoproductR md false (fin a ha) (fin b hb) := by
  have hrq := round_fin_val hr
  unfold twoproductN twoproductR
  simp only [ti_fin ha hb, hr, Bool.false_eq_true, if_false]
  have c1 : (B).Rep (2 ^ (-28 : ℤ)) := rep_pow (by norm_num) (by norm_num)
  have c2 : (B).Rep (2 ^ (28 : ℤ)) := rep_pow (by norm_num) (by norm_num)
  have e : (2 : ℚ) ^ (-28 : ℤ) * 2 ^ (28 : ℤ) = 1 := by rw [← zpow_add₀ (by norm_num)]; norm_num
  rw [le_two_fin (by norm_num) (by norm_num), le_two_fin (by norm_num) (by norm_num)]
  by_cases h1 : 2 ^ (996 : ℤ) < |a|
  · rw [if_pos (decide_eq_true h1), if_pos (decide_eq_true h1)]
    obtain ⟨ka, kb, la, lb, -⟩ := scale_ok ha hb hx hrq h1
    rw [two_eq (by norm_num) (by norm_num), two_eq (by norm_num) (by norm_num), ti_exact ha c1 ka rfl,
      ti_exact hb c2 kb rfl]
    have e2 : a * 2 ^ (-28 : ℤ) * (b * 2 ^ (28 : ℤ)) = a * b := by
      rw [show a * 2 ^ (-28 : ℤ) * (b * 2 ^ (28 : ℤ)) = a * b * (2 ^ (-28 : ℤ) * 2 ^ (28 : ℤ)) by ring, e, mul_one]
    rw [dekkerN_eq md ka kb la lb hx (by rw [e2]; exact hrq)]
  · have d1 : decide ((2 : ℚ) ^ (996 : ℤ) < |a|) = false := decide_eq_false h1
    simp only [d1, Bool.false_eq_true, if_false]
    by_cases h2 : 2 ^ (996 : ℤ) < |b|
    · rw [if_pos (decide_eq_true h2), if_pos (decide_eq_true h2)]
      obtain ⟨kb, ka, lb, la, -⟩ := scale_ok hb ha hx (by rw [mul_comm]; exact hrq) h2
      rw [two_eq (by norm_num) (by norm_num), two_eq (by norm_num) (by norm_num), ti_exact ha c2 ka rfl,
        ti_exact hb c1 kb rfl]
      have e2 : a * 2 ^ (28 : ℤ) * (b * 2 ^ (-28 : ℤ)) = a * b := by
        rw [show a * 2 ^ (28 : ℤ) * (b * 2 ^ (-28 : ℤ)) = a * b * (2 ^ (-28 : ℤ) * 2 ^ (28 : ℤ)) by ring, e, mul_one]
      rw [dekkerN_eq md ka kb la lb hx (by rw [e2]; exact hrq)]
    · have d2 : decide ((2 : ℚ) ^ (996 : ℤ) < |b|) = false := decide_eq_false h2
      simp only [d2, Bool.false_eq_true, if_false]
      rw [dekkerN_eq md ha hb (not_lt.1 h1) (not_lt.1 h2) hx hrq]

/-! ## addition, subtraction, multiplication -/

theorem addUp_same (x y : DD) : addUp x y = DD.addUp x y := by
  simp only [addUp, DD.addUp, addUp_eq]

theorem addDown_same (x y : DD) : addDown x y = DD.addDown x y := by
  simp only [addDown, DD.addDown, addDown_eq]

theorem subUp_same (x y : DD) : subUp x y = DD.subUp x y := by
  simp only [subUp, DD.subUp, addUp_eq, subUp_eq]

theorem subDown_same (x y : DD) : subDown x y = DD.subDown x y := by
  simp only [subDown, DD.subDown, addDown_eq, subDown_eq]

/-- multiplication in direction `s` -/
def mulN (s fma : Bool) (x y : DD) : DD := match s with | true => mulUp fma x y | false => mulDown fma x y

theorem tailR_congr (s : Bool) {z z' : Dbl × Dbl} (c : Dbl) (h1 : z.1 = z'.1) (h2 : isInf z.1 = false → z = z') :
    tailR s z c = tailR s z' c := by
  cases h : isInf z.1
  · rw [h2 h]
  · unfold tailR
    rw [← h1]
    have : z.1 = infS s ∨ z.1 = infS !s := by
      cases e : z.1 with
      | pinf => cases s <;> simp [infS]
      | ninf => cases s <;> simp [infS]
      | nan => rw [e] at h; simp [isInf, Fl.abs, Fl.eq] at h
      | fin q hq => rw [e, isInf_fin] at h; cases h
    rcases this with e | e
    · rw [if_pos (by rw [e]; cases s <;> rfl), if_pos (by rw [e]; cases s <;> rfl)]
    · have e3 : Fl.eq z.1 (infS !s) = true := by rw [e]; cases s <;> rfl
      simp only [e3, if_true]

section
variable {x1 x2 y1 y2 : ℚ} (hx1 : (B).Rep x1) (hx2 : (B).Rep x2) (hy1 : (B).Rep y1) (hy2 : (B).Rep y2)

theorem mulN_eq (s fma : Bool) : mulN s fma ⟨fin x1 hx1, fin x2 hx2⟩ ⟨fin y1 hy1, fin y2 hy2⟩ =
    tailR s (twoproductN (dir s) (fin x1 hx1) (fin y1 hy1))
      (Fl.add (dir s) (Fl.add (dir s) (Fl.mul (dir s) (fin x1 hx1) (fin y2 hy2))
        (Fl.mul (dir s) (fin x2 hx2) (fin y1 hy1))) (Fl.mul (dir s) (fin x2 hx2) (fin y2 hy2))) := by
  cases s <;> simp only [mulN, mulUp, mulDown, isInf_fin, Bool.or_self, Bool.false_eq_true, if_false,
    twoproductUp_eq, twoproductDown_eq, addUp_eq, addDown_eq, mulUp_eq, mulDown_eq] <;> rfl

theorem mulN_same (s fma : Bool) : mulN s fma ⟨fin x1 hx1, fin x2 hx2⟩ ⟨fin y1 hy1, fin y2 hy2⟩ =
    mulR s false ⟨fin x1 hx1, fin x2 hx2⟩ ⟨fin y1 hy1, fin y2 hy2⟩ := by
  rw [mulN_eq, mulR_eq]
  refine tailR_congr s _ (by rw [twoproductN_fst, twoproductR_fst]) ?_
  rw [twoproductN_fst, ti_fin]
  intro h
  rcases near_cases (x1 * y1) with ⟨h1, e1⟩ | ⟨e1, -⟩ | ⟨e1, -⟩
  · exact twoproductN_eq _ hx1 hy1 h1 e1
  · rw [e1] at h; simp [isInf, Fl.abs, Fl.eq] at h
  · rw [e1] at h; simp [isInf, Fl.abs, Fl.eq] at h

/-! ## division -/

/-- the second component of the quotient, see `divCore` -/
def divCoreN (s m : Bool) (z x1 x2 y1 y2 : Dbl) : Dbl :=
  let p := twoproductN (dir m) (Fl.neg z) y1
  let h := lit (1 / 2)
  if isInf p.1 then
    let p := twoproductN (dir m) (Fl.neg z) (ti y1 h)
    let v2 := divNum (dir m) z p.1 p.2 (ti x1 h) (ti x2 h) (ti y2 h)
    Fl.div (dir s) v2 (if Fl.lt (lit 0) v2 then Fl.add (dir !s) (ti y1 h) (ti y2 h) else Fl.add (dir s) (ti y1 h) (ti y2 h))
  else
    let v2 := divNum (dir m) z p.1 p.2 x1 x2 y2
    Fl.div (dir s) v2 (if Fl.lt (lit 0) v2 then Fl.add (dir !s) y1 y2 else Fl.add (dir s) y1 y2)

/-- division in direction `s` -/
def divN (s fma : Bool) (x y : DD) : DD := match s with | true => divUp fma x y | false => divDown fma x y

theorem divN_eq (s fma : Bool) : divN s fma ⟨fin x1 hx1, fin x2 hx2⟩ ⟨fin y1 hy1, fin y2 hy2⟩ =
    (if Fl.eq (dv (fin x1 hx1) (fin y1 hy1)) (infS s) then ⟨dv (fin x1 hx1) (fin y1 hy1), lit 0⟩
    else
      let z := if Fl.eq (dv (fin x1 hx1) (fin y1 hy1)) (infS !s) then (maxS !s).a1
        else dv (fin x1 hx1) (fin y1 hy1)
      finishR s z (divCoreN s (if Fl.le (lit 0) (fin y1 hy1) then s else !s) z (fin x1 hx1) (fin x2 hx2)
        (fin y1 hy1) (fin y2 hy2))) := by
  cases s <;> cases h : Fl.le (lit 0) (fin y1 hy1) <;>
    simp only [divN, divUp, divDown, isInf_fin, Bool.or_self, Bool.false_eq_true, if_false, h, if_true,
      twoproductUp_eq, twoproductDown_eq, addUp_eq, addDown_eq, mulUp_eq, mulDown_eq, divUp_eq, divDown_eq,
      numUp, numDown] <;> rfl

theorem divCoreN_same (s m : Bool) {z : ℚ} (hz : (B).Rep z) (hzy : |z * y1| ≤ 2 * |x1|)
    (hh : ((B).Rep (x2 * (1 / 2)) ∧ (B).Rep (y2 * (1 / 2))) ∨ |x1| ≤ 2 ^ (1022 : ℤ)) :
    divCoreN s m (fin z hz) (fin x1 hx1) (fin x2 hx2) (fin y1 hy1) (fin y2 hy2) =
    divCore s m false (fin z hz) (fin x1 hx1) (fin x2 hx2) (fin y1 hy1) (fin y2 hy2) := by
  unfold divCoreN divCore
  simp only [twoproductR_fst, twoproductN_fst]
  have etp : ti (Fl.neg (fin z hz)) (fin y1 hy1) = Fl.round .near (-z * y1) := rfl
  have eneg : Fl.neg (fin z hz) = fin (-z) hz.neg := rfl
  by_cases hf : |(B).roundQ .near (-z * y1)| ≤ (B).maxQ
  · have er := round_fin_of_le hf
    rw [etp, er, isInf_fin]
    simp only [Bool.false_eq_true, if_false, eneg]
    rw [twoproductN_eq (dir m) hz.neg hy1 _ er]
  · have hinf : isInf (Fl.round .near (-z * y1) : Dbl) = true := by
      unfold Fl.round pack
      rw [dif_neg hf]
      cases hd : decide (0 < (B).roundQ .near (-z * y1)) <;> simp [overflow, isInf, Fl.abs, Fl.eq]
    rw [etp, hinf]
    simp only [if_true]
    have hov := ovf hf
    rw [neg_mul, abs_neg] at hov
    have hx1m := hx1.abs_le
    have p970 := two_zpow_pos 970
    have hy1' : 1 ≤ |y1| := by
      by_contra hc
      have h1 : |z * y1| ≤ |z| := by
        rw [abs_mul]; exact mul_le_of_le_one_right (abs_nonneg _) (not_le.1 hc).le
      have := hz.abs_le
      linarith
    have hyh := rep_half_large hy1 hy1'
    have hx1' : 1 ≤ |x1| := by
      have := le_maxQ64
      have h1 : (1 : ℚ) ≤ 2 ^ (1022 : ℤ) := by
        have := pw_le (show (0 : ℤ) ≤ 1022 by norm_num); rwa [zpow_zero] at this
      have e : (2 : ℚ) ^ (1023 : ℤ) = 2 * 2 ^ (1022 : ℤ) := by
        rw [show (1023 : ℤ) = 1 + 1022 by norm_num, zpow_add₀ (by norm_num)]; norm_num
      have := pow_le_maxQ64
      linarith
    have hxh := rep_half_large hx1 hx1'
    have hh' : (B).Rep (x2 * (1 / 2)) ∧ (B).Rep (y2 * (1 / 2)) := by
      rcases hh with h | h
      · exact h
      · exfalso
        have e : (2 : ℚ) ^ (1023 : ℤ) = 2 * 2 ^ (1022 : ℤ) := by
          rw [show (1023 : ℤ) = 1 + 1022 by norm_num, zpow_add₀ (by norm_num)]; norm_num
        have := pow_le_maxQ64
        linarith
    obtain ⟨hx2h, hy2h⟩ := hh'
    have etp2 : ti (Fl.neg (fin z hz)) (fin (y1 * (1 / 2)) hyh) = Fl.round .near (-z * (y1 * (1 / 2))) := rfl
    have hf2 : |(B).roundQ .near (-z * (y1 * (1 / 2)))| ≤ (B).maxQ := by
      refine abs_near_le maxQ_rep.repU ?_
      rw [show -z * (y1 * (1 / 2)) = -(z * y1) * (1 / 2) by ring, abs_mul, abs_neg,
        abs_of_pos (by norm_num : (0 : ℚ) < 1 / 2)]
      linarith
    have er := round_fin_of_le hf2
    rw [lit_eq Format.rep_half, ti_exact hy1 Format.rep_half hyh rfl, mul_exact _ hy1 _ hyh rfl,
      ti_exact hy2 Format.rep_half hy2h rfl, mul_exact _ hy2 _ hy2h rfl,
      ti_exact hx1 Format.rep_half hxh rfl, mul_exact _ hx1 _ hxh rfl,
      ti_exact hx2 Format.rep_half hx2h rfl, mul_exact _ hx2 _ hx2h rfl, eneg,
      twoproductN_eq (dir m) hz.neg hyh _ er]

theorem divN_same (s fma : Bool) (h0 : y1 ≠ 0)
    (hh : ((B).Rep (x2 * (1 / 2)) ∧ (B).Rep (y2 * (1 / 2))) ∨ |x1| ≤ 2 ^ (1022 : ℤ)) :
    divN s fma ⟨fin x1 hx1, fin x2 hx2⟩ ⟨fin y1 hy1, fin y2 hy2⟩ =
    divR s false ⟨fin x1 hx1, fin x2 hx2⟩ ⟨fin y1 hy1, fin y2 hy2⟩ := by
  have edv : dv (fin x1 hx1) (fin y1 hy1) = Fl.round .near (x1 / y1) := div_fin _ _ _ h0
  rw [divR_eq, divN_eq, edv]
  have big : ∀ {z : ℚ}, |z| = (B).maxQ → (B).maxQ ≤ |x1 / y1| → |z * y1| ≤ 2 * |x1| := by
    intro z hz h
    rw [abs_div, le_div_iff₀ (abs_pos.2 h0)] at h
    rw [abs_mul, hz]
    linarith [abs_nonneg x1]
  have fin_case : ∀ {z : ℚ} (hz : (B).Rep z), |z * y1| ≤ 2 * |x1| → ∀ m,
      finishR s (fin z hz) (divCoreN s m (fin z hz) (fin x1 hx1) (fin x2 hx2) (fin y1 hy1) (fin y2 hy2)) =
      finishR s (fin z hz) (divCore s m false (fin z hz) (fin x1 hx1) (fin x2 hx2) (fin y1 hy1) (fin y2 hy2)) := by
    intro z hz hzy m
    rw [divCoreN_same hx1 hx2 hy1 hy2 s m hz hzy hh]
  rcases near_cases (x1 / y1) with ⟨h, e1⟩ | ⟨e1, h⟩ | ⟨e1, h⟩
  · have d1 : Fl.eq (fin ((B).roundQ .near (x1 / y1)) h) (infS s) = false := by cases s <;> rfl
    have d2 : Fl.eq (fin ((B).roundQ .near (x1 / y1)) h) (infS !s) = false := by cases s <;> rfl
    rw [e1]
    simp only [d1, d2, Bool.false_eq_true, if_false]
    refine fin_case h ?_ _
    have h1 := RepU.near_le (F := B) (q := x1 / y1) rep_zero.repU
    rw [zero_sub, abs_neg] at h1
    have h2 : |(B).roundQ .near (x1 / y1)| ≤ 2 * |x1 / y1| := by
      have := abs_add_le ((B).roundQ .near (x1 / y1) - x1 / y1) (x1 / y1)
      rw [sub_add_cancel] at this
      linarith
    rw [abs_mul]
    calc |(B).roundQ .near (x1 / y1)| * |y1| ≤ 2 * |x1 / y1| * |y1| :=
          mul_le_mul_of_nonneg_right h2 (abs_nonneg _)
      _ = 2 * |x1| := by
          rw [abs_div, mul_assoc, div_mul_cancel₀ _ (abs_pos.2 h0).ne']
  · rw [e1]
    cases s
    · have d1 : Fl.eq (pinf : Dbl) (infS false) = false := rfl
      simp only [d1, Bool.false_eq_true, if_false, maxS, Bool.not_false, maxD_eq]
      refine fin_case maxQ_rep (big (abs_of_pos maxQ_pos) ?_) _
      exact (le_trans (by linarith [max2_nonneg]) h).trans (le_abs_self _)
    · rfl
  · rw [e1]
    cases s
    · rfl
    · have d1 : Fl.eq (ninf : Dbl) (infS true) = false := rfl
      simp only [d1, Bool.false_eq_true, if_false, maxS, Bool.not_true, maxD_eq]
      refine fin_case maxQ_rep.neg (big (by rw [abs_neg, abs_of_pos maxQ_pos]) ?_) _
      refine le_trans ?_ (neg_le_abs _)
      linarith [max2_nonneg]

end

/-! ## square root -/

theorem round_two_mul {q : ℚ} (hq : (B).Rep q) (h0 : 0 ≤ q) :
    (Fl.round .near (q * 2) : Dbl) = Fl.round .up (q * 2) := by
  have hu : (B).RepU (q * 2) := by rw [mul_comm]; exact RepU.two_mul hq.repU
  rw [round_eq_pack hu (RepU.roundQ_eq _ hu), round_eq_pack hu (RepU.roundQ_eq _ hu)]
  unfold pack
  by_cases h : |q * 2| ≤ (B).maxQ
  · rw [dif_pos h, dif_pos h]
  · have hp : 0 < q * 2 := by
      rcases eq_or_lt_of_le h0 with e | e
      · exfalso; apply h; rw [← e]; simpa using maxQ_pos.le
      · linarith
    rw [dif_neg h, dif_neg h, decide_eq_true hp]
    rfl

theorem sqrt_nonneg_fin {t : Dbl} {q : ℚ} {hq : (B).Rep q} (h : Fl.sqrt .up t = fin q hq) : 0 ≤ q := by
  cases t with
  | nan => cases h
  | pinf => cases h
  | ninf => cases h
  | fin r hr =>
    change (if r < 0 then nan else Fl.round .up (sqrtQ B .up r)) = fin q hq at h
    by_cases hr0 : r < 0
    · rw [if_pos hr0] at h; cases h
    · rw [if_neg hr0] at h
      have hs : 0 ≤ sqrtQ B .up r := by
        rw [sqrtQ_up]
        exact mul_nonneg (Nat.cast_nonneg _) (two_zpow_pos _).le
      generalize sqrtQ B .up r = t at h hs
      have hu := (round_up_isUp (F := B) t).2.1
      rw [h, toE_fin, coeQ_le] at hu
      exact hs.trans hu

theorem sqrt_two (t : Dbl) : ti (Fl.sqrt .up t) (lit 2) = Fl.mul .up (Fl.sqrt .up t) (lit 2) := by
  rw [lit_eq rep_two]
  cases e : Fl.sqrt .up t with
  | nan => rfl
  | pinf => rfl
  | ninf => rfl
  | fin q hq => exact round_two_mul hq (sqrt_nonneg_fin e)

/-- square root in direction `s` -/
def sqrtN (s fma : Bool) (x : DD) : DD := match s with | true => sqrtUp fma x | false => sqrtDown fma x

theorem ti_quarter_max : ti (maxF : Dbl) (lit (1 / 4)) = Fl.mul .up maxF (lit (1 / 4)) := by
  decide +kernel

theorem sqrtN_same (s fma : Bool) {x1 x2 : ℚ} (hx1 : (B).Rep x1) (hx2 : (B).Rep x2) (h0 : 0 < x1)
    (n : x1 = (B).roundQ .near (x1 + x2)) :
    sqrtN s fma ⟨fin x1 hx1, fin x2 hx2⟩ = sqrtR s false ⟨fin x1 hx1, fin x2 hx2⟩ := by
  have hz : (B).Rep (sqrtQ B .near x1) := sqrtQ_near_rep hx1 h0.le
  obtain ⟨z3, h3, e3, -⟩ := resid_bdd (dir s) false hx1 hx2 h0 n hz rfl
  have etp := twoproductN_eq (dir s) hz.neg hz h3 e3
  have e : Fl.eq (fin x1 hx1) (lit 0) = false := by
    rw [lit0]; exact decide_eq_false h0.ne'
  have e2 : Fl.eq (fin x1 hx1) pinf = false := rfl
  have eq4 : Fl.eq (fin x1 hx1) maxF = true → ti (fin x1 hx1) (lit (1 / 4)) = Fl.mul .up (fin x1 hx1) (lit (1 / 4)) := by
    intro h
    have : x1 = (B).maxQ := of_decide_eq_true h
    subst this
    exact ti_quarter_max
  have en : Fl.neg (fin (sqrtQ B .near x1) hz) = fin (-sqrtQ B .near x1) hz.neg := rfl
  rw [sqrtR_eq s false hx1 hx2 h0, sqrt_near_fin hx1 h0.le]
  simp only [en]
  rw [← etp, ← en]
  cases s <;> simp only [sqrtN, sqrtUp, sqrtDown, e, e2, Bool.false_and, Bool.false_eq_true, if_false,
    twoproductUp_eq, twoproductDown_eq, addUp_eq, addDown_eq, mulUp_eq, divUp_eq, divDown_eq,
    sqrtUp_eq, sqrtDown_eq, sqrt_two, sqrt_near_fin hx1 h0.le]
  all_goals
    cases h : Fl.eq (fin x1 hx1) maxF
    · simp only [sqrtTmp, h, Bool.not_true, Bool.not_false, Bool.false_eq_true, if_false]; rfl
    · rw [eq4 h]
      simp only [sqrtTmp, h, Bool.not_true, Bool.not_false, if_true]; rfl

end DDN
end Kv
