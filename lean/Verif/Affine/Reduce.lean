import Verif.Affine.Eval

/-!
# Lemmas about `split`, `resize`, `epsilon_reduce` and `epsilon_reduce2`
-/

namespace Kv
open Rop (lit addUp addDown subUp subDown mulUp mulDown divUp divDown)

namespace Affine
open AM

variable {ε : ℕ → ℝ} {x r : Form} {u : ℝ} {m m' : ℕ}

theorem sum_split (n k : ℕ) (f : ℕ → ℝ) :
    ∑ i ∈ Finset.range (n + k), f i = ∑ i ∈ Finset.range n, f i + ∑ i ∈ Finset.range k, f (n + i) := Finset.sum_range_add f n k

/-- a sum over `0, ..., m-1` in the order of a permutation -/
theorem sum_perm {pa : List ℕ} (h : pa.Perm (List.range m)) (g : ℕ → ℝ) :
    ∑ i ∈ Finset.range m, g i = ∑ j ∈ Finset.range m, g (pa.getD j 0) := by
  have hl : pa.length = m := by simpa using h.length_eq
  have e : pa = (List.range m).map fun j => pa.getD j 0 := by
    refine List.ext_getElem (by simp [hl]) fun i h1 h2 => ?_
    simp [List.getElem_map, h1]
  have h1 := (h.map g).sum_eq
  rw [e, List.map_map] at h1
  rw [← List.sum_toFinset _ List.nodup_range, ← List.sum_toFinset _ List.nodup_range] at h1
  rw [List.toFinset_range] at h1
  exact h1.symm

theorem perm_mem {pa : List ℕ} (h : pa.Perm (List.range m)) {q : ℕ} (hq : q < m) : ∃ j < m, pa.getD j 0 = q := by
  have hl : pa.length = m := by simpa using h.length_eq
  obtain ⟨j, hj, e⟩ := List.getElem_of_mem (h.mem_iff.2 (List.mem_range.2 hq))
  exact ⟨j, by omega, by rw [List.getD_eq_getElem _ _ hj, e]⟩

theorem abs_sum_noise {n : ℕ} {a e : ℕ → ℝ} (he : ∀ i, |e i| ≤ 1) :
    |∑ i ∈ Finset.range n, a i * e i| ≤ ∑ i ∈ Finset.range n, |a i| := by
  refine (Finset.abs_sum_le_sum_abs _ _).trans (Finset.sum_le_sum fun i _ => ?_)
  rw [abs_mul]
  calc |a i| * |e i| ≤ |a i| * 1 := mul_le_mul_of_nonneg_left (he _) (abs_nonneg _)
    _ = _ := mul_one _

/-- the sum of the absolute values of some coefficients and the error -/
theorem sumAbs_ge {n : ℕ} {g : ℕ → D} {er : D} (h : FinD (addUp (sumUp n (lit 0) fun j => Rop.abs (g j)) er)) :
    (∀ j < n, FinD (g j)) ∧ FinD er ∧
      ∑ j ∈ Finset.range n, |dbl (g j)| + dbl er ≤ dbl (addUp (sumUp n (lit 0) fun j => Rop.abs (g j)) er) := by
  obtain ⟨h1, h2⟩ := addUp_fin h
  obtain ⟨-, h3, h4⟩ := sumUp_ge h1
  have h5 : ∀ j < n, FinD (g j) := fun j hj => abs_finD.1 (h3 j hj)
  refine ⟨h5, h2, ?_⟩
  have h6 := addUp_ge h
  rw [dbl_zero, zero_add, Finset.sum_congr rfl fun j hj => dbl_abs (h5 j (Finset.mem_range.1 hj))] at h4
  linarith

/-! ## `epsilon_reduce2` -/

theorem epsReduce2_run {x : List Form} {r : List Form} {n : ℕ} (h : epsReduce2 x n m = (.ok r, m')) :
    m' = n + x.length ∧ r.length = x.length ∧ ∀ i < x.length, r.getD i ⟨[], lit 0⟩ =
      ⟨vec (n + 1 + i + 1) fun j => if j = n + 1 + i then
          addUp (sumUp (size (x.getD i ⟨[], lit 0⟩) - (n + 1)) (lit 0) fun j => Rop.abs (c (x.getD i ⟨[], lit 0⟩) (n + 1 + j)))
            (x.getD i ⟨[], lit 0⟩).er
        else if j ≤ n then c (x.getD i ⟨[], lit 0⟩) j else lit 0, lit 0⟩ := by
  cases h
  refine ⟨rfl, by simp, fun i hi => ?_⟩
  rw [List.getD_eq_getElem _ _ (by simpa using hi), List.getElem_map, List.getElem_range]

theorem epsReduce2_rep (hε : Noise ε) {x r : List Form} {n : ℕ} {u : ℕ → ℝ}
    (hx : ∀ i < x.length, (x.getD i ⟨[], lit 0⟩).Rep ε (u i)) (h : epsReduce2 x n m = (.ok r, m')) :
    m' = n + x.length ∧ r.length = x.length ∧ ∃ ε', Noise ε' ∧ (∀ j ≤ n, ε' j = ε j) ∧
      ∀ i < x.length, (r.getD i ⟨[], lit 0⟩).Rep ε' (u i) ∧ size (r.getD i ⟨[], lit 0⟩) ≤ m' + 1 := by
  obtain ⟨h1, h2, h3⟩ := epsReduce2_run h
  refine ⟨h1, h2, ?_⟩
  -- the noise value of the new symbol of component `i`
  have key : ∀ i, ∃ e : ℝ, |e| ≤ 1 ∧ (i < x.length → (r.getD i ⟨[], lit 0⟩).Fin →
      u i - ∑ j ∈ Finset.range (n + 1), dbl (c (x.getD i ⟨[], lit 0⟩) j) * ε j = dbl (c (r.getD i ⟨[], lit 0⟩) (n + 1 + i)) * e) := by
    intro i
    by_cases hi : i < x.length ∧ (r.getD i ⟨[], lit 0⟩).Fin
    swap
    · exact ⟨0, by simp, fun a b => absurd ⟨a, b⟩ hi⟩
    obtain ⟨hi, hf⟩ := hi
    have hr := hx i hi
    have h4 := h3 i hi
    generalize x.getD i ⟨[], lit 0⟩ = f at hr h4 ⊢
    rw [h4] at hf ⊢
    rw [fin_vec] at hf
    have hf := hf.1
    have ht := hf (n + 1 + i) (by omega)
    rw [if_pos rfl] at ht
    obtain ⟨f1, f2, f3⟩ := sumAbs_ge (g := fun j => c f (n + 1 + j)) ht
    have ff : f.Fin := by
      rw [fin_iff]
      refine ⟨fun j hj => ?_, f2⟩
      by_cases hjn : j ≤ n
      · have := hf j (by omega)
        rwa [if_neg (by omega), if_pos hjn] at this
      · have := f1 (j - (n + 1)) (by omega)
        rwa [show n + 1 + (j - (n + 1)) = j by omega] at this
    have hb := hr ff
    rw [lin_le (n := n + 1 + (size f - (n + 1))) (by omega), sum_split] at hb
    have hs := abs_sum_noise (n := size f - (n + 1)) (a := fun j => dbl (c f (n + 1 + j))) (e := fun j => ε (n + 1 + j)) fun j => hε.le _
    have hw : |u i - ∑ j ∈ Finset.range (n + 1), dbl (c f j) * ε j| ≤
        dbl (c ⟨vec (n + 1 + i + 1) fun j => if j = n + 1 + i then
          addUp (sumUp (size f - (n + 1)) (lit 0) fun j => Rop.abs (c f (n + 1 + j))) f.er
        else if j ≤ n then c f j else lit 0, lit 0⟩ (n + 1 + i)) := by
      rw [c_vec (by omega), if_pos rfl]
      rw [abs_le] at hb hs ⊢
      constructor <;> linarith [hb.1, hb.2, hs.1, hs.2]
    obtain ⟨e, he, hw⟩ := pick hw
    exact ⟨e, he, fun _ _ => hw⟩
  choose e he hk using key
  refine ⟨fun j => if j ≤ n then ε j else e (j - (n + 1)), ⟨by simp [hε.zero], fun j => ?_⟩, fun j hj => if_pos hj, fun i hi => ⟨fun hf => ?_, ?_⟩⟩
  · split_ifs
    · exact hε.le j
    · exact he _
  · have hw := hk i hi hf
    have h4 := h3 i hi
    generalize x.getD i ⟨[], lit 0⟩ = f at hw h4
    rw [h4] at hw ⊢
    rw [c_vec (by omega), if_pos rfl] at hw
    have e1 : ∀ j ∈ Finset.range (n + 1), dbl (if j = n + 1 + i then
          addUp (sumUp (size f - (n + 1)) (lit 0) fun j => Rop.abs (c f (n + 1 + j))) f.er
        else if j ≤ n then c f j else lit 0) * (if j ≤ n then ε j else e (j - (n + 1))) = dbl (c f j) * ε j := fun j hj => by
      rw [Finset.mem_range] at hj
      rw [if_neg (by omega), if_pos (by omega), if_pos (by omega)]
    have e2 : ∀ j ∈ Finset.range i, dbl (if n + 1 + j = n + 1 + i then
          addUp (sumUp (size f - (n + 1)) (lit 0) fun j => Rop.abs (c f (n + 1 + j))) f.er
        else if n + 1 + j ≤ n then c f (n + 1 + j) else lit 0) * (if n + 1 + j ≤ n then ε (n + 1 + j) else e (n + 1 + j - (n + 1))) = 0 := fun j hj => by
      rw [Finset.mem_range] at hj
      rw [if_neg (by omega), if_neg (by omega), dbl_zero, zero_mul]
    rw [lin_vec, Finset.sum_range_succ, sum_split, Finset.sum_congr rfl e1, Finset.sum_eq_zero e2, if_pos rfl, if_neg (by omega),
      show n + 1 + i - (n + 1) = i by omega]
    rw [show u i - (∑ j ∈ Finset.range (n + 1), dbl (c f j) * ε j + 0 +
      dbl (addUp (sumUp (size f - (n + 1)) (lit 0) fun j => Rop.abs (c f (n + 1 + j))) f.er) * e i) = 0 by linarith]
    rw [abs_zero]
    exact dbl_zero.ge
  · rw [h3 i hi, size_vec]; omega

/-! ## `epsilon_reduce` -/

theorem scores_length {x : List Form} {m : ℕ} {l : List D} (h : scores x m = .ok l) : l.length = m := by
  induction m generalizing l with
  | zero => cases h; rfl
  | succ m ih =>
    obtain ⟨l', h1, h⟩ := bind_ok.1 h
    obtain ⟨s, -, h⟩ := bind_ok.1 h
    cases h
    simp [ih h1]

/-- either nothing happens or the forms are replaced -/
theorem epsReduce_run {sort : List D → ℕ → List ℕ} {x r : List Form} {n nLimit : ℕ} (h : epsReduce sort x n nLimit m = (.ok r, m'))
    (hsort : ∀ l k, (sort l k).Perm (List.range l.length)) :
    (r = x ∧ m' = m) ∨ (∃ pa : List ℕ, pa.Perm (List.range m) ∧ m' = n ∧ x.length ≤ n ∧ n < m ∧ r.length = x.length ∧
      ∀ i < x.length, size (x.getD i ⟨[], lit 0⟩) ≠ 0 ∧ r.getD i ⟨[], lit 0⟩ =
        ⟨vec (n + 1) fun j => if j = 0 then c (x.getD i ⟨[], lit 0⟩) 0
          else if j ≤ n - x.length then c (x.getD i ⟨[], lit 0⟩) (pa.getD (j - 1) 0 + 1)
          else if j = n - x.length + i + 1 then
            addUp (sumUp (m - (n - x.length)) (lit 0) fun j => Rop.abs (c (x.getD i ⟨[], lit 0⟩) (pa.getD (n - x.length + j) 0 + 1)))
              (x.getD i ⟨[], lit 0⟩).er
          else lit 0, lit 0⟩) := by
  obtain ⟨a, s1, g1, g2⟩ := bind_run h
  obtain ⟨rfl, rfl⟩ := get_run g1
  dsimp only at g2
  by_cases c1 : s1 ≤ if nLimit < n then n else nLimit
  · rw [if_pos c1] at g2
    obtain ⟨rfl, rfl⟩ := pure_run g2
    exact .inl ⟨rfl, rfl⟩
  rw [if_neg c1] at g2
  have hn : n < s1 := by split_ifs at c1 <;> omega
  by_cases c2 : n < x.length
  · rw [if_pos c2] at g2
    obtain ⟨rfl, rfl⟩ := pure_run g2
    exact .inl ⟨rfl, rfl⟩
  rw [if_neg c2] at g2
  obtain ⟨sc, s2, g3, g4⟩ := bind_run g2
  obtain ⟨g5, rfl⟩ := lift_run g3
  have hl := scores_length g5
  by_cases c3 : (x.any fun f => decide (size f = 0)) = true
  · rw [if_pos c3] at g4; cases g4
  rw [if_neg c3] at g4
  refine .inr ⟨sort sc (n - x.length), by rw [← hl]; exact hsort _ _, ?_⟩
  cases g4
  refine ⟨rfl, by omega, hn, by simp, fun i hi => ⟨fun h0 => c3 ?_, ?_⟩⟩
  · rw [List.any_eq_true]
    refine ⟨_, List.getElem_mem hi, ?_⟩
    rw [List.getD_eq_getElem _ _ hi] at h0
    simpa using h0
  · rw [List.getD_eq_getElem _ _ (by simpa using hi), List.getElem_map, List.getElem_range]

theorem epsReduce_rep (hε : Noise ε) {sort : List D → ℕ → List ℕ} {x r : List Form} {n nLimit : ℕ} {u : ℕ → ℝ}
    (hsort : ∀ l k, (sort l k).Perm (List.range l.length))
    (hx : ∀ i < x.length, size (x.getD i ⟨[], lit 0⟩) ≤ m + 1 ∧ (x.getD i ⟨[], lit 0⟩).Rep ε (u i))
    (h : epsReduce sort x n nLimit m = (.ok r, m')) :
    r.length = x.length ∧ ∃ ε', Noise ε' ∧
      ∀ i < x.length, (r.getD i ⟨[], lit 0⟩).Rep ε' (u i) ∧ size (r.getD i ⟨[], lit 0⟩) ≤ m' + 1 := by
  rcases epsReduce_run h hsort with ⟨rfl, rfl⟩ | ⟨pa, hp, rfl, hn, hm, hl, h3⟩
  · exact ⟨rfl, ε, hε, fun i hi => ⟨(hx i hi).2, (hx i hi).1⟩⟩
  refine ⟨hl, ?_⟩
  obtain ⟨k, hk⟩ : ∃ k, m' = k + x.length := ⟨m' - x.length, by omega⟩
  have hk' : m' - x.length = k := by omega
  simp only [hk'] at h3
  -- the noise value of the new symbol of component `i`
  have key : ∀ i, ∃ e : ℝ, |e| ≤ 1 ∧ (i < x.length → (r.getD i ⟨[], lit 0⟩).Fin →
      u i - (dbl (c (x.getD i ⟨[], lit 0⟩) 0) +
        ∑ j ∈ Finset.range k, dbl (c (x.getD i ⟨[], lit 0⟩) (pa.getD j 0 + 1)) * ε (pa.getD j 0 + 1)) =
          dbl (addUp (sumUp (m - k) (lit 0) fun j => Rop.abs (c (x.getD i ⟨[], lit 0⟩) (pa.getD (k + j) 0 + 1)))
              (x.getD i ⟨[], lit 0⟩).er) * e) := by
    intro i
    by_cases hi : i < x.length ∧ (r.getD i ⟨[], lit 0⟩).Fin
    swap
    · exact ⟨0, by simp, fun a b => absurd ⟨a, b⟩ hi⟩
    obtain ⟨hi, hf⟩ := hi
    obtain ⟨hz, hr⟩ := hx i hi
    obtain ⟨hnz, h4⟩ := h3 i hi
    generalize x.getD i ⟨[], lit 0⟩ = f at hz hr hnz h4 ⊢
    rw [h4, fin_vec] at hf
    have hf := hf.1
    have ht := hf (k + i + 1) (by omega)
    rw [if_neg (by omega), if_neg (by omega), if_pos rfl] at ht
    obtain ⟨f1, f2, f3⟩ := sumAbs_ge (g := fun j => c f (pa.getD (k + j) 0 + 1)) ht
    have f4 : ∀ j < m, FinD (c f (pa.getD j 0 + 1)) := fun j hj => by
      by_cases hjk : j < k
      · have := hf (j + 1) (by omega)
        rwa [if_neg (by omega), if_pos (by omega), Nat.add_sub_cancel] at this
      · have := f1 (j - k) (by omega)
        rwa [show k + (j - k) = j by omega] at this
    have ff : f.Fin := by
      rw [fin_iff]
      refine ⟨fun j hj => ?_, f2⟩
      rcases Nat.eq_zero_or_pos j with rfl | hj0
      · have := hf 0 (by omega)
        rwa [if_pos rfl] at this
      · obtain ⟨t, ht, e⟩ := perm_mem hp (q := j - 1) (by omega)
        have := f4 t ht
        rwa [e, Nat.sub_add_cancel hj0] at this
    have hb := hr ff
    rw [lin_le hz, Finset.sum_range_succ', hε.zero, mul_one, sum_perm hp (fun i => dbl (c f (i + 1)) * ε (i + 1)),
      show m = k + (m - k) by omega, sum_split] at hb
    have hs := abs_sum_noise (n := m - k) (a := fun j => dbl (c f (pa.getD (k + j) 0 + 1))) (e := fun j => ε (pa.getD (k + j) 0 + 1))
      fun j => hε.le _
    have hw : |u i - (dbl (c f 0) + ∑ j ∈ Finset.range k, dbl (c f (pa.getD j 0 + 1)) * ε (pa.getD j 0 + 1))| ≤
          dbl (addUp (sumUp (m - k) (lit 0) fun j => Rop.abs (c f (pa.getD (k + j) 0 + 1))) f.er) := by
      rw [abs_le] at hb hs ⊢
      constructor <;> linarith [hb.1, hb.2, hs.1, hs.2]
    obtain ⟨e, he, hw⟩ := pick hw
    exact ⟨e, he, fun _ _ => hw⟩
  choose e he hk using key
  refine ⟨fun j => if j = 0 then 1 else if j ≤ k then ε (pa.getD (j - 1) 0 + 1) else e (j - (k + 1)), ⟨by simp, fun j => ?_⟩,
    fun i hi => ⟨fun hf => ?_, ?_⟩⟩
  · split_ifs
    · simp
    · exact hε.le _
    · exact he _
  · have hw := hk i hi hf
    have h4 := (h3 i hi).2
    generalize x.getD i ⟨[], lit 0⟩ = f at hw h4
    rw [h4]
    obtain ⟨q, hq⟩ : ∃ q, x.length = i + (1 + q) := ⟨x.length - i - 1, by omega⟩
    generalize hT : addUp (sumUp (m - k) (lit 0) fun j => Rop.abs (c f (pa.getD (k + j) 0 + 1))) f.er = T at hw ⊢
    have e1 : ∀ j ∈ Finset.range k, dbl (if j + 1 = 0 then c f 0 else if j + 1 ≤ k then c f (pa.getD (j + 1 - 1) 0 + 1)
        else if j + 1 = k + i + 1 then T else lit 0) *
        (if j + 1 = 0 then 1 else if j + 1 ≤ k then ε (pa.getD (j + 1 - 1) 0 + 1) else e (j + 1 - (k + 1))) =
        dbl (c f (pa.getD j 0 + 1)) * ε (pa.getD j 0 + 1) := fun j hj => by
      rw [Finset.mem_range] at hj
      rw [if_neg (by omega), if_pos (by omega), if_neg (by omega), if_pos (by omega), Nat.add_sub_cancel]
    have e2 : ∀ t, t ≠ i → dbl (if k + t + 1 = 0 then c f 0 else if k + t + 1 ≤ k then c f (pa.getD (k + t + 1 - 1) 0 + 1)
        else if k + t + 1 = k + i + 1 then T else lit 0) *
        (if k + t + 1 = 0 then 1 else if k + t + 1 ≤ k then ε (pa.getD (k + t + 1 - 1) 0 + 1) else e (k + t + 1 - (k + 1))) = 0 := fun t ht => by
      rw [if_neg (by omega), if_neg (by omega), if_neg (by omega), dbl_zero, zero_mul]
    rw [lin_vec, ‹m' = k + x.length›, Finset.sum_range_succ', sum_split, Finset.sum_congr rfl e1,
      Finset.sum_eq_single_of_mem i (Finset.mem_range.2 hi) fun t _ ht => e2 t ht, if_neg (by omega), if_neg (by omega), if_pos rfl,
      if_neg (by omega), if_neg (by omega), if_pos rfl, if_pos rfl, show k + i + 1 - (k + 1) = i by omega]
    rw [show u i - (∑ j ∈ Finset.range k, dbl (c f (pa.getD j 0 + 1)) * ε (pa.getD j 0 + 1) + dbl T * e i + dbl (c f 0) * 1) = 0 by linarith]
    rw [abs_zero]
    exact dbl_zero.ge
  · rw [(h3 i hi).2, size_vec]

/-! ## `split` and `resize` -/

theorem split_rep {n : ℕ} {y z : Form} (h : split x n = .ok (y, z)) (hx : x.Rep ε u) (hxf : x.Fin) :
    ∃ v w, u = v + w ∧ y.Rep ε v ∧ z.Rep ε w ∧ (∀ i, n < i → c y i = lit 0) ∧ (∀ i ≤ n, c z i = lit 0) ∧
      size y = size x ∧ size z = size x := by
  unfold split at h
  dsimp only at h
  split_ifs at h with hs
  cases h
  refine ⟨Form.lin ε ⟨vec (size x) fun i => if i ≤ n then c x i else lit 0, lit 0⟩, u - Form.lin ε ⟨vec (size x) fun i => if i ≤ n then c x i else lit 0, lit 0⟩,
    by ring, fun _ => ?_, fun hf => ?_, fun i hi => ?_, fun i hi => ?_, size_vec, size_vec⟩
  · rw [sub_self, abs_zero]; exact dbl_zero.ge
  · have hb := hx hxf
    rw [sub_sub]
    have e : Form.lin ε ⟨vec (size x) fun i => if i ≤ n then c x i else lit 0, lit 0⟩ +
          Form.lin ε ⟨vec (size x) fun i => if i ≤ n then lit 0 else c x i, x.er⟩ = x.lin ε := by
      rw [lin_vec, lin_vec, lin_def, ← Finset.sum_add_distrib]
      refine Finset.sum_congr rfl fun i _ => ?_
      split_ifs <;> rw [dbl_zero] <;> ring
    rw [e]; exact hb
  · by_cases h : i < size x
    · rw [c_vec h, if_neg (by omega)]
    · rw [c_ge (by rw [size_vec]; omega)]
  · by_cases h : i < size x
    · rw [c_vec h, if_pos hi]
    · rw [c_ge (by rw [size_vec]; omega)]

theorem resize_eq (hs : size x = m + 1) : resize x m = (.ok x, m) := by
  obtain ⟨l, e⟩ := x
  have h1 : resize ⟨l, e⟩ m = if size ⟨l, e⟩ < m + 1 then (.error .undefined, m) else (.ok ⟨vec (m + 1) fun i => c ⟨l, e⟩ i, e⟩, m) := by
    unfold resize
    change (if size ⟨l, e⟩ < m + 1 then _ else _ : AM Form) m = _
    split_ifs <;> rfl
  rw [h1, if_neg (by omega)]
  congr 3
  refine List.ext_getElem (by simpa [vec, size] using hs.symm) fun i h2 h3 => ?_
  simp [vec, c, h3]

end Affine
end Kv
