import Verif.Affine.Lemmas

/-! # Affine arithmetic: linear operations -/

namespace Kv
open RopSem Kv.Interval
open Rop (lit addUp addDown subUp subDown mulUp mulDown divUp divDown)

namespace Affine
variable {ε : ℕ → ℝ} {x y : Form} {u v : ℝ}

/-- upper and lower result of an operation and their difference -/
theorem pair {d e : D} {s : ℝ} (h : FinD (subUp e d)) (h1 : FinD d → dbl d ≤ s) (h2 : FinD e → s ≤ dbl e) :
    dbl d ≤ s ∧ s - dbl d ≤ dbl (subUp e d) := by
  obtain ⟨he, hd⟩ := subUp_fin h
  have := subUp_ge h
  have := h2 he
  exact ⟨h1 hd, by linarith⟩

theorem add_pair {a b : D} (h : FinD (subUp (addUp a b) (addDown a b))) :
    dbl (addDown a b) ≤ dbl a + dbl b ∧ dbl a + dbl b - dbl (addDown a b) ≤ dbl (subUp (addUp a b) (addDown a b)) :=
  pair h addDown_le addUp_ge
theorem sub_pair {a b : D} (h : FinD (subUp (subUp a b) (subDown a b))) :
    dbl (subDown a b) ≤ dbl a - dbl b ∧ dbl a - dbl b - dbl (subDown a b) ≤ dbl (subUp (subUp a b) (subDown a b)) :=
  pair h subDown_le subUp_ge
theorem mul_pair {a b : D} (h : FinD (subUp (mulUp a b) (mulDown a b))) :
    dbl (mulDown a b) ≤ dbl a * dbl b ∧ dbl a * dbl b - dbl (mulDown a b) ≤ dbl (subUp (mulUp a b) (mulDown a b)) :=
  pair h mulDown_le mulUp_ge

theorem combine (hε : Noise ε) {n k : ℕ} (hk : k ≤ n) {s r g : ℕ → ℝ} (h : ∀ i < k, r i ≤ s i ∧ s i - r i ≤ g i)
    (h' : ∀ i, k ≤ i → i < n → r i = s i) :
    |∑ i ∈ Finset.range n, s i * ε i - ∑ i ∈ Finset.range n, r i * ε i| ≤ ∑ i ∈ Finset.range k, g i := by
  rw [← Finset.sum_sub_distrib]
  have : ∑ i ∈ Finset.range n, (s i * ε i - r i * ε i) = ∑ i ∈ Finset.range k, (s i - r i) * ε i := by
    symm
    rw [← Finset.sum_subset (Finset.range_subset_range.2 hk)]
    · exact Finset.sum_congr rfl fun i _ => by ring
    · intro i hi hi'
      rw [Finset.mem_range] at hi
      rw [Finset.mem_range, not_lt] at hi'
      rw [h' i hi' hi]; ring
  rw [this]
  exact sum_err hε h

/-- sum or difference of two represented numbers -/
theorem rep_two {r : Form} {t sg : ℝ} (hsg : |sg| = 1) (hx : x.Rep ε u) (hy : y.Rep ε v) (ht : t = u + sg * v)
    (h : r.Fin → x.Fin ∧ y.Fin ∧ ∃ g : ℝ, |x.lin ε + sg * y.lin ε - r.lin ε| ≤ g ∧ dbl x.er + dbl y.er + g ≤ dbl r.er) :
    r.Rep ε t := by
  intro hf
  obtain ⟨fx, fy, g, h1, h2⟩ := h hf
  have a1 := hx fx
  have a2 := hy fy
  have a3 : |sg * (v - y.lin ε)| ≤ dbl y.er := by rw [abs_mul, hsg, one_mul]; exact a2
  have e : t - r.lin ε = (u - x.lin ε) + sg * (v - y.lin ε) + (x.lin ε + sg * y.lin ε - r.lin ε) := by rw [ht]; ring
  rw [e]
  have := abs_add_le ((u - x.lin ε) + sg * (v - y.lin ε)) (x.lin ε + sg * y.lin ε - r.lin ε)
  have := abs_add_le (u - x.lin ε) (sg * (v - y.lin ε))
  linarith

/-- the scheme of `+` and `-` -/
theorem rep_vec (hε : Noise ε) (hx : x.Rep ε u) (hy : y.Rep ε v) {n k : ℕ} (hk : k ≤ n) {f g : ℕ → D} {t sg : ℝ} (hsg : |sg| = 1)
    (ht : t = u + sg * v) (nx : size x ≤ n) (ny : size y ≤ n)
    (hc : ∀ i < k, FinD (g i) → FinD (c x i) ∧ FinD (c y i) ∧ dbl (f i) ≤ dbl (c x i) + sg * dbl (c y i) ∧
      dbl (c x i) + sg * dbl (c y i) - dbl (f i) ≤ dbl (g i))
    (ht' : ∀ i, k ≤ i → i < n → FinD (f i) → FinD (c x i) ∧ FinD (c y i) ∧ dbl (f i) = dbl (c x i) + sg * dbl (c y i)) :
    Form.Rep ε ⟨vec n f, addUp (addUp x.er y.er) (sumUp k (lit 0) g)⟩ t := by
  apply rep_two hsg hx hy ht
  intro hf
  obtain ⟨f1, f2⟩ := fin_vec.1 hf
  obtain ⟨f3, f4⟩ := addUp_fin f2
  obtain ⟨f5, f6⟩ := addUp_fin f3
  obtain ⟨-, f7, f8⟩ := sumUp_ge f4
  have b1 := addUp_ge f2
  have b2 := addUp_ge f3
  rw [dbl_zero, zero_add] at f8
  have fc : ∀ i < n, FinD (c x i) ∧ FinD (c y i) := fun i hi => by
    by_cases h : i < k
    · obtain ⟨h1, h2, -⟩ := hc i h (f7 i h); exact ⟨h1, h2⟩
    · obtain ⟨h1, h2, -⟩ := ht' i (not_lt.1 h) hi (f1 i hi); exact ⟨h1, h2⟩
  refine ⟨fin_iff.2 ⟨fun i hi => (fc i (hi.trans_le nx)).1, f5⟩, fin_iff.2 ⟨fun i hi => (fc i (hi.trans_le ny)).2, f6⟩,
    dbl (sumUp k (lit 0) g), ?_, by dsimp only; linarith⟩
  have := combine hε (s := fun i => dbl (c x i) + sg * dbl (c y i)) (r := fun i => dbl (f i)) (g := fun i => dbl (g i)) hk
    (fun i hi => (hc i hi (f7 i hi)).2.2) (fun i h1 h2 => (ht' i h1 h2 (f1 i h2)).2.2)
  rw [lin_le nx, lin_le ny, lin_vec, Finset.mul_sum, ← Finset.sum_add_distrib]
  refine le_trans (le_of_eq ?_) (this.trans f8)
  congr 2
  exact Finset.sum_congr rfl fun i _ => by ring

theorem add_rep (hε : Noise ε) (hx : x.Rep ε u) (hy : y.Rep ε v) : (add x y).Rep ε (u + v) := by
  unfold add
  dsimp only
  have hc : ∀ i, FinD (subUp (addUp (c x i) (c y i)) (addDown (c x i) (c y i))) → FinD (c x i) ∧ FinD (c y i) ∧
      dbl (addDown (c x i) (c y i)) ≤ dbl (c x i) + 1 * dbl (c y i) ∧
      dbl (c x i) + 1 * dbl (c y i) - dbl (addDown (c x i) (c y i)) ≤ dbl (subUp (addUp (c x i) (c y i)) (addDown (c x i) (c y i))) := by
    intro i h
    obtain ⟨h1, h2⟩ := addUp_fin (subUp_fin h).1
    obtain ⟨h3, h4⟩ := add_pair h
    exact ⟨h1, h2, by linarith, by linarith⟩
  split_ifs with hs
  · refine rep_vec hε hx hy hs.le (sg := 1) (by simp) (by ring) le_rfl hs.le (fun i hi h => ?_) (fun i h1 h2 h => ?_)
    · rw [if_pos hi]; exact hc i h
    · rw [if_neg (by omega)] at h ⊢
      rw [c_ge h1, dbl_zero]
      exact ⟨h, fin_zero, by ring⟩
  · refine rep_vec hε hx hy (not_lt.1 hs) (sg := 1) (by simp) (by ring) (not_lt.1 hs) le_rfl (fun i hi h => ?_) (fun i h1 h2 h => ?_)
    · rw [if_pos hi]; exact hc i h
    · rw [if_neg (by omega)] at h ⊢
      rw [c_ge h1, dbl_zero]
      exact ⟨fin_zero, h, by ring⟩

theorem sub_rep (hε : Noise ε) (hx : x.Rep ε u) (hy : y.Rep ε v) : (sub x y).Rep ε (u - v) := by
  unfold sub
  dsimp only
  have hc : ∀ i, FinD (subUp (subUp (c x i) (c y i)) (subDown (c x i) (c y i))) → FinD (c x i) ∧ FinD (c y i) ∧
      dbl (subDown (c x i) (c y i)) ≤ dbl (c x i) + -1 * dbl (c y i) ∧
      dbl (c x i) + -1 * dbl (c y i) - dbl (subDown (c x i) (c y i)) ≤ dbl (subUp (subUp (c x i) (c y i)) (subDown (c x i) (c y i))) := by
    intro i h
    obtain ⟨h1, h2⟩ := subUp_fin (subUp_fin h).1
    obtain ⟨h3, h4⟩ := sub_pair h
    exact ⟨h1, h2, by linarith, by linarith⟩
  split_ifs with hs
  · refine rep_vec hε hx hy hs.le (sg := -1) (by simp) (by ring) le_rfl hs.le (fun i hi h => ?_) (fun i h1 h2 h => ?_)
    · rw [if_pos hi]; exact hc i h
    · rw [if_neg (by omega)] at h ⊢
      rw [c_ge h1, dbl_zero]
      exact ⟨h, fin_zero, by ring⟩
  · refine rep_vec hε hx hy (not_lt.1 hs) (sg := -1) (by simp) (by ring) (not_lt.1 hs) le_rfl (fun i hi h => ?_) (fun i h1 h2 h => ?_)
    · rw [if_pos hi]; exact hc i h
    · rw [if_neg (by omega)] at h ⊢
      have := neg_finD.1 h
      rw [c_ge h1, dbl_zero, dbl_neg this]
      exact ⟨fin_zero, this, by ring⟩

theorem size_add : size (add x y) = Max.max (size x) (size y) := by
  unfold add; dsimp only
  split_ifs with h <;> rw [size_vec] <;> omega
theorem size_sub : size (sub x y) = Max.max (size x) (size y) := by
  unfold sub; dsimp only
  split_ifs with h <;> rw [size_vec] <;> omega

/-! ## a number and a form -/

theorem rep_ofScalar {k : D} (hε : Noise ε) : (ofScalar k).Rep ε (dbl k) := by
  intro _
  simp [Form.lin, ofScalar, hε.zero, dbl_zero]

/-- the scheme of `x + k`, `k - x`, ... -/
theorem rep_shift (hε : Noise ε) (hx : x.Rep ε u) (hs : size x ≠ 0) {f : ℕ → D} {err : D} {t sg k s : ℝ} (hsg : |sg| = 1)
    (ht : t = k + sg * u) (hks : s = k + sg * dbl (c x 0))
    (h0 : FinD err → FinD (c x 0) ∧ dbl (f 0) ≤ s ∧ s - dbl (f 0) ≤ dbl err)
    (hi : ∀ i, i ≠ 0 → FinD (f i) → FinD (c x i) ∧ dbl (f i) = sg * dbl (c x i)) :
    Form.Rep ε ⟨vec (size x) f, addUp x.er err⟩ t := by
  intro hf
  obtain ⟨f1, f2⟩ := fin_vec.1 hf
  obtain ⟨f3, f4⟩ := addUp_fin f2
  obtain ⟨g1, g2, g3⟩ := h0 f4
  have fx : x.Fin := fin_iff.2 ⟨fun i hi' => by
    by_cases h : i = 0
    · rw [h]; exact g1
    · exact (hi i h (f1 i hi')).1, f3⟩
  have a1 := hx fx
  have b := addUp_ge f2
  obtain ⟨n, hn⟩ := Nat.exists_eq_succ_of_ne_zero hs
  have e1 : x.lin ε = dbl (c x 0) + ∑ i ∈ Finset.range n, dbl (c x (i + 1)) * ε (i + 1) := by
    rw [lin_def, hn, Finset.sum_range_succ', hε.zero]; ring
  have e2 : Form.lin ε ⟨vec (size x) f, addUp x.er err⟩ = dbl (f 0) + sg * ∑ i ∈ Finset.range n, dbl (c x (i + 1)) * ε (i + 1) := by
    rw [lin_vec, hn, Finset.sum_range_succ', hε.zero, Finset.mul_sum, mul_one, add_comm]
    congr 1
    refine Finset.sum_congr rfl fun i hi' => ?_
    rw [(hi (i + 1) (by omega) (f1 _ (by rw [Finset.mem_range] at hi'; omega))).2]; ring
  have a2 : |sg * (u - x.lin ε)| ≤ dbl x.er := by rw [abs_mul, hsg, one_mul]; exact a1
  have e : t - Form.lin ε ⟨vec (size x) f, addUp x.er err⟩ = sg * (u - x.lin ε) + (s - dbl (f 0)) := by
    rw [e2, e1, ht, hks]; ring
  rw [e]
  have h3 : |s - dbl (f 0)| = s - dbl (f 0) := abs_of_nonneg (by linarith)
  have := abs_add_le (sg * (u - x.lin ε)) (s - dbl (f 0))
  dsimp only
  linarith

theorem addC_rep (hε : Noise ε) (hx : x.Rep ε u) {k : D} {r : Form} (h : addC x k = .ok r) :
    r.Rep ε (u + dbl k) ∧ size r = size x := by
  unfold addC at h
  split_ifs at h with hs
  cases h
  refine ⟨rep_shift hε hx hs (sg := 1) (k := dbl k) (s := dbl (c x 0) + dbl k) (by simp) (by ring) (by ring) (fun h => ?_)
    (fun i hi h => ?_), size_vec⟩
  · have := add_pair h
    exact ⟨(addUp_fin (subUp_fin h).1).1, this⟩
  · rw [if_neg hi] at h ⊢; exact ⟨h, by ring⟩

theorem cAdd_rep (hε : Noise ε) (hx : x.Rep ε u) {k : D} {r : Form} (h : cAdd k x = .ok r) :
    r.Rep ε (dbl k + u) ∧ size r = size x := by
  unfold cAdd at h
  split_ifs at h with hs
  cases h
  refine ⟨rep_shift hε hx hs (sg := 1) (k := dbl k) (s := dbl k + dbl (c x 0)) (by simp) (by ring) (by ring) (fun h => ?_)
    (fun i hi h => ?_), size_vec⟩
  · have := add_pair h
    exact ⟨(addUp_fin (subUp_fin h).1).2, this⟩
  · rw [if_neg hi] at h ⊢; exact ⟨h, by ring⟩

theorem subC_rep (hε : Noise ε) (hx : x.Rep ε u) {k : D} {r : Form} (h : subC x k = .ok r) :
    r.Rep ε (u - dbl k) ∧ size r = size x := by
  unfold subC at h
  split_ifs at h with hs
  cases h
  refine ⟨rep_shift hε hx hs (sg := 1) (k := -dbl k) (s := dbl (c x 0) - dbl k) (by simp) (by ring) (by ring) (fun h => ?_)
    (fun i hi h => ?_), size_vec⟩
  · have := sub_pair h
    exact ⟨(subUp_fin (subUp_fin h).1).1, this⟩
  · rw [if_neg hi] at h ⊢; exact ⟨h, by ring⟩

theorem cSub_rep (hε : Noise ε) (hx : x.Rep ε u) {k : D} {r : Form} (h : cSub k x = .ok r) :
    r.Rep ε (dbl k - u) ∧ size r = size x := by
  unfold cSub at h
  split_ifs at h with hs
  cases h
  refine ⟨rep_shift hε hx hs (sg := -1) (k := dbl k) (s := dbl k - dbl (c x 0)) (by simp) (by ring) (by ring) (fun h => ?_)
    (fun i hi h => ?_), size_vec⟩
  · have := sub_pair h
    exact ⟨(subUp_fin (subUp_fin h).1).2, this⟩
  · rw [if_neg hi] at h ⊢
    have := neg_finD.1 h
    exact ⟨this, by rw [dbl_neg this]; ring⟩

theorem size_neg : size (neg x) = size x := by simp [neg, size]

theorem c_neg {i : ℕ} (hi : i < size x) : c (neg x) i = Rop.neg (c x i) := by
  unfold c neg; unfold size at hi
  rw [List.getD_eq_getElem _ _ (by simpa using hi), List.getD_eq_getElem _ _ hi, List.getElem_map]

theorem neg_rep (hx : x.Rep ε u) : (neg x).Rep ε (-u) := by
  intro hf
  obtain ⟨f1, f2⟩ := fin_iff.1 hf
  rw [size_neg] at f1
  have fx : ∀ i < size x, FinD (c x i) := fun i hi => by have := f1 i hi; rw [c_neg hi] at this; exact neg_finD.1 this
  have := hx (fin_iff.2 ⟨fx, f2⟩)
  have e : (neg x).lin ε = -x.lin ε := by
    rw [lin_def, lin_def, size_neg, ← Finset.sum_neg_distrib]
    refine Finset.sum_congr rfl fun i hi => ?_
    rw [Finset.mem_range] at hi
    rw [c_neg hi, dbl_neg (fx i hi)]; ring
  rw [e, ← abs_neg]
  refine le_trans (le_of_eq ?_) this
  congr 1; ring

/-- the scheme of `x * k`, `k * x`, `x / k` -/
theorem rep_scale (hε : Noise ε) (hx : x.Rep ε u) {f g : ℕ → D} {e : D} {t k : ℝ} (ht : t = k * u)
    (he : FinD e → FinD x.er ∧ ∃ s, (∀ i < size x, FinD (g i)) ∧ |k| * dbl x.er + s ≤ dbl e ∧
      ∑ i ∈ Finset.range (size x), dbl (g i) ≤ s)
    (hc : ∀ i, FinD (g i) → FinD (c x i) ∧ dbl (f i) ≤ k * dbl (c x i) ∧ k * dbl (c x i) - dbl (f i) ≤ dbl (g i)) :
    Form.Rep ε ⟨vec (size x) f, e⟩ t := by
  intro hf
  obtain ⟨f1, f2⟩ := fin_vec.1 hf
  obtain ⟨f3, s, f4, f5, f6⟩ := he f2
  have a1 := hx (fin_iff.2 ⟨fun i hi => (hc i (f4 i hi)).1, f3⟩)
  have := combine hε (s := fun i => k * dbl (c x i)) (r := fun i => dbl (f i)) (g := fun i => dbl (g i)) le_rfl
    (fun i hi => (hc i (f4 i hi)).2) (fun i h1 h2 => by omega)
  have e1 : ∑ i ∈ Finset.range (size x), k * dbl (c x i) * ε i = k * x.lin ε := by
    rw [lin_def, Finset.mul_sum]; exact Finset.sum_congr rfl fun i _ => by ring
  rw [e1] at this
  rw [lin_vec]
  have e2 : t - ∑ i ∈ Finset.range (size x), dbl (f i) * ε i = k * (u - x.lin ε) +
      (k * x.lin ε - ∑ i ∈ Finset.range (size x), dbl (f i) * ε i) := by rw [ht]; ring
  rw [e2]
  have h1 := abs_add_le (k * (u - x.lin ε)) (k * x.lin ε - ∑ i ∈ Finset.range (size x), dbl (f i) * ε i)
  have h2 : |k * (u - x.lin ε)| ≤ |k| * dbl x.er := by rw [abs_mul]; exact mul_le_mul_of_nonneg_left a1 (abs_nonneg k)
  dsimp only
  linarith

theorem mulC_rep (hε : Noise ε) (hx : x.Rep ε u) {k : D} : (mulC x k).Rep ε (u * dbl k) := by
  unfold mulC
  refine rep_scale hε hx (k := dbl k) (g := fun i => subUp (mulUp (c x i) k) (mulDown (c x i) k)) (by ring) (fun he => ?_) (fun i h => ?_)
  · obtain ⟨h1, h2⟩ := addUp_fin he
    obtain ⟨h3, h4⟩ := mulUp_fin h1
    obtain ⟨-, h5, h6⟩ := sumUp_ge h2
    rw [dbl_zero, zero_add] at h6
    have b1 := addUp_ge he
    have b2 := mulUp_ge h1
    rw [dbl_abs (abs_finD.1 h4)] at b2
    exact ⟨h3, _, h5, by linarith, h6⟩
  · have := mul_pair h
    rw [mul_comm (dbl k)]
    exact ⟨(mulUp_fin (subUp_fin h).1).1, this⟩

theorem cMul_rep (hε : Noise ε) (hx : x.Rep ε u) {k : D} : (cMul k x).Rep ε (dbl k * u) := by
  unfold cMul
  refine rep_scale hε hx (k := dbl k) (g := fun i => subUp (mulUp k (c x i)) (mulDown k (c x i))) (by ring) (fun he => ?_) (fun i h => ?_)
  · obtain ⟨h1, h2⟩ := addUp_fin he
    obtain ⟨h3, h4⟩ := mulUp_fin h1
    obtain ⟨-, h5, h6⟩ := sumUp_ge h2
    rw [dbl_zero, zero_add] at h6
    have b1 := addUp_ge he
    have b2 := mulUp_ge h1
    rw [dbl_abs (abs_finD.1 h4)] at b2
    exact ⟨h3, _, h5, by linarith, h6⟩
  · have := mul_pair h
    exact ⟨(mulUp_fin (subUp_fin h).1).2, this⟩

theorem divC_rep (hε : Noise ε) (hx : x.Rep ε u) {k : D} (hk : FinD k) : (divC x k).Rep ε (u / dbl k) := by
  unfold divC
  by_cases h0 : dbl k = 0
  · intro hf
    exfalso
    obtain ⟨h1, h2⟩ := addUp_fin (fin_vec.1 hf).2
    have := divUp_ne h2 (abs_finD.2 hk)
    rw [dbl_abs hk, h0] at this
    simp at this
  refine rep_scale hε hx (k := (dbl k)⁻¹) (g := fun i => subUp (divUp (c x i) k) (divDown (c x i) k)) (by ring) (fun he => ?_)
    (fun i h => ?_)
  · obtain ⟨h1, h2⟩ := addUp_fin he
    have h3 := divUp_fin h2 (abs_finD.2 hk)
    obtain ⟨-, h5, h6⟩ := sumUp_ge h1
    rw [dbl_zero, zero_add] at h6
    have b1 := addUp_ge he
    have b2 := divUp_ge h2 (abs_finD.2 hk)
    rw [dbl_abs hk] at b2
    refine ⟨h3, _, h5, ?_, h6⟩
    rw [abs_inv, inv_mul_eq_div]; linarith
  · have h1 := (subUp_fin h).1
    have := pair h (s := dbl (c x i) / dbl k) (fun h => divDown_le h hk h0) (fun h => divUp_ge h hk)
    rw [inv_mul_eq_div]
    exact ⟨divUp_fin h1 hk, this⟩

theorem size_mulC {k : D} : size (mulC x k) = size x := size_vec
theorem size_cMul {k : D} : size (cMul k x) = size x := size_vec
theorem size_divC {k : D} : size (divC x k) = size x := size_vec

end Affine
end Kv
