import Verif.Complex.DkaOk

/-!
# Zeros of polynomials: `smith_error` and `vdka` (C67, C68)

The specification: `p` encloses the coefficients `c 0, ..., c n`, and `z` is a zero if `∑ c k z^k = 0`.
-/

namespace Kv
open RopSem Kv.Interval Kv.Dka
open Rop (lit)

namespace Dka

/-- an approximation without NaN and infinities -/
def Cd.Finite (x : Cd) : Prop := FinD x.re ∧ FinD x.im

/-- the polynomial with the coefficients `c` vanishes at `z` -/
def IsZero {n : ℕ} (c : Fin (n + 1) → ℂ) (z : ℂ) : Prop := ∑ k, c k * z ^ (k : ℕ) = 0

end Dka

variable {n fuel : ℕ} {p : Fin (n + 1) → Cx} {c : Fin (n + 1) → ℂ} {x : Fin n → Cd} {r : Fin n → Cx}

/-- the centre of the `i`-th square -/
noncomputable def Dka.ctr (x : Fin n → Cd) (i : Fin n) : ℂ := ⟨dbl (x i).re, dbl (x i).im⟩

theorem Dka.ctr_mem (hx : ∀ i, (x i).Finite) (i : Fin n) : ctr x i ∈ (x i).toCx :=
  ⟨point_mem (is_dbl' (hx i).1), point_mem (is_dbl' (hx i).2)⟩

/-- what the result contains: all points within `n |w i|` of the `i`-th approximation -/
theorem Dka.smith_spec (hn : n < 2 ^ 31) (hx : ∀ i, (x i).Finite) (hp : ∀ k, c k ∈ p k) (h : smithError fuel p x = .ok r) (i : Fin n) :
    ctr x i ∈ r i ∧ (∀ z, ‖z - ctr x i‖ ≤ n * ‖Smith.wc c (ctr x) i‖ → z ∈ r i) ∧ ((∀ z, z ∈ r i) ∨ Smith.den c (ctr x) i ≠ 0) := by
  obtain ⟨x3, h1, h⟩ := bind_ok.1 h
  obtain ⟨s, h2, h⟩ := bind_ok.1 h
  cases h
  have hsq := fun i => (squares_spec h1 i).1 (List.mem_finRange i)
  have hctr := ctr_mem hx
  have key : ∀ i, ctr x i ∈ x3 i ∧ (∀ z, ‖z - ctr x i‖ ≤ n * ‖Smith.wc c (ctr x) i‖ → z ∈ x3 i) ∧ ((∀ z, z ∈ x3 i) ∨ Smith.den c (ctr x) i ≠ 0) := by
    intro i
    obtain ⟨e, he, hr⟩ := hsq i
    obtain ⟨g1, g2⟩ := radius_spec hn he hp hctr
    have g3 : ∀ z, ‖z - ctr x i‖ ≤ n * ‖Smith.wc c (ctr x) i‖ → z ∈ x3 i := fun z hz => by
      rw [hr]
      exact square_mem (hctr i) ⟨g1.1, le_trans (by exact_mod_cast hz) g1.2⟩
    refine ⟨g3 _ (by rw [sub_self, norm_zero]; positivity), g3, g2.imp (fun hall z => ?_) id⟩
    rw [hr]
    exact square_mem (hctr i) (hall _)
  have hk : Keeps x3 ⟨x3, fun _ => none, true⟩ := ⟨fun k => ⟨_, (key k).1⟩, fun j z hz => hz⟩
  obtain ⟨k1, k2⟩ := passes_inv hk (fun j k e => by cases e) h2
  have hsub : ∀ z, z ∈ x3 i → z ∈ copyBack s i := fun z hz => by
    rw [copyBack_rep k2]; exact k1.2 i z hz
  exact ⟨hsub _ (key i).1, fun z hz => hsub z ((key i).2.1 z hz), (key i).2.2.imp (fun hall z => hsub z (hall z)) id⟩

/-- C67: every zero of every polynomial whose coefficients lie in the given boxes is in one of the returned boxes, for all finite
approximations. -/
theorem C67 (hn : 1 ≤ n) (hn' : n < 2 ^ 31) (hx : ∀ i, (x i).Finite) (hp : ∀ k, c k ∈ p k) (h : smithError fuel p x = .ok r)
    {z : ℂ} (hz : IsZero c z) : ∃ i, z ∈ r i := by
  have hs := smith_spec hn' hx hp h
  by_cases hall : ∃ i, ∀ z, z ∈ r i
  · obtain ⟨i, hi⟩ := hall; exact ⟨i, hi z⟩
  · have hd : ∀ i, Smith.den c (ctr x) i ≠ 0 := fun i => (hs i).2.2.resolve_left fun hc => hall ⟨i, hc⟩
    obtain ⟨i, hi⟩ := Smith.cover (by omega) hd hz
    exact ⟨i, (hs i).2.1 z hi⟩

/-- C67: `smith_error` returns: it neither throws nor loops, and each box contains its approximation. -/
theorem C67_returns (hn : n < 2 ^ 31) (hx : ∀ i, (x i).Finite) (hp : ∀ k, ∃ a : ℂ, a ∈ p k) (hf : n < fuel) :
    ∃ r, smithError fuel p x = .ok r ∧ ∀ i, (⟨dbl (x i).re, dbl (x i).im⟩ : ℂ) ∈ r i := by
  choose c hc using hp
  obtain ⟨x3, h1⟩ := squares_ok hn hc (ctr_mem hx) (List.finRange n) fun _ => ⟨point (lit 0), point (lit 0)⟩
  obtain ⟨s, h2⟩ := passes_ok (fuel := fuel) (s := ⟨x3, fun _ => none, true⟩) (lt_of_le_of_lt (Finset.card_le_univ _) (by simpa using hf))
  have h : smithError fuel p x = .ok (copyBack s) := by
    unfold smithError
    rw [h1]
    show (passes fuel ⟨x3, fun _ => none, true⟩ >>= fun s => .ok (copyBack s)) = _
    rw [h2]; rfl
  exact ⟨_, h, fun i => (smith_spec hn hx hc h i).1⟩

/-- C67: the same for `vdka`, whatever finite approximations the iteration `dka` computes. -/
theorem C67_vdka {dka : (Fin (n + 1) → Cd) → Fin n → Cd} (hn : 1 ≤ n) (hn' : n < 2 ^ 31) (hx : ∀ q i, (dka q i).Finite)
    (hp : ∀ k, c k ∈ p k) (h : vdka fuel dka p = .ok (some r)) : c (Fin.last n) ≠ 0 ∧ ∀ z, IsZero c z → ∃ i, z ∈ r i := by
  unfold vdka at h
  by_cases h0 : maybeZero (p (Fin.last n)) = true
  · rw [if_pos h0] at h; cases h
  · rw [if_neg h0] at h
    obtain ⟨r', h1, h⟩ := bind_ok.1 h
    cases h
    exact ⟨maybeZero_ne (by simpa using h0) (hp _), fun z hz => C67 hn hn' (hx _) hp h1 hz⟩

/-- C67: `vdka` returns `false` if the leading coefficient may be zero, so that the number of zeros is not known. -/
theorem C67_vdka_false {dka : (Fin (n + 1) → Cd) → Fin n → Cd} (h0 : (0 : ℂ) ∈ p (Fin.last n)) : vdka fuel dka p = .ok none := by
  unfold vdka
  by_cases h : maybeZero (p (Fin.last n)) = true
  · rw [if_pos h]
  · exact absurd rfl (maybeZero_ne (by simpa using h) h0)

/-- C68, proved part: if the returned boxes are pairwise disjoint, then each of them contains exactly one zero of every polynomial with
coefficients in the given boxes.  Missing: if some boxes overlap; see `C68_violated`. -/
theorem C68_partial (hn : n < 2 ^ 31) (hx : ∀ i, (x i).Finite) (hp : ∀ k, c k ∈ p k) (hl : c (Fin.last n) ≠ 0)
    (h : smithError fuel p x = .ok r) (hd : ∀ i j, i ≠ j → ∀ z, z ∈ r i → z ∉ r j) (i : Fin n) : ∃! z, z ∈ r i ∧ IsZero c z := by
  have hs := smith_spec hn hx hp h
  have hden : ∀ i, Smith.den c (ctr x) i ≠ 0 := fun i => by
    rcases (hs i).2.2 with hall | hne
    · have he : (Finset.univ.erase i : Finset (Fin n)) = ∅ := by
        rw [Finset.eq_empty_iff_forall_notMem]
        intro j hj
        exact hd i j (Ne.symm (Finset.ne_of_mem_erase hj)) _ (hall _) (hs j).1
      rw [Smith.den, he, Finset.prod_empty, mul_one]; exact hl
    · exact hne
  have := Smith.unique_zero hden (fun i => {z | z ∈ r i}) (fun i z hz => (hs i).2.1 z hz)
    (fun i j hij => Set.disjoint_left.2 fun z hz => hd i j hij z hz) i
  exact this

/-! ## Examples and counterexamples -/

namespace Dka

/-- a real coefficient -/
def rl (q : ℚ) : Cx := ⟨point (lit q), point (lit 0)⟩
/-- a real approximation -/
def ra (q : ℚ) : Cd := ⟨lit q, lit 0⟩

/-- the `i`-th box of a result -/
def box (r : Res (Fin n → Cx)) (i : Fin n) : Option Cx := match r with | .ok r => some (r i) | .error _ => none

/-- `(z + 20) (z + 3) (z + 5)` -/
def badPoly : Fin 4 → Cx := ![rl 300, rl 175, rl 28, rl 1]
def badApprox : Fin 3 → Cd := ![ra (-3), ra (-13), ra 19]

/-- `z² - 2` with good approximations -/
def goodPoly : Fin 3 → Cx := ![rl (-2), rl 0, rl 1]
def goodApprox : Fin 2 → Cd := ![ra (3 / 2), ra (-3 / 2)]

end Dka

theorem Dka.rl_mem {q : ℚ} {t : ℝ} (h : Is (lit q : D) t) : (t : ℂ) ∈ rl q := Cx.mem_of (point_mem h) (point_mem is_zero) (by simp) (by simp)

theorem Dka.is_int (k : ℤ) (h : |k| < 2 ^ 53) : Is (lit (k : ℚ) : D) (k : ℝ) := by
  have := is_cst (q := k) k 0 h (by norm_num) (by norm_num) (by simp); simpa using this

theorem Dka.rl_int (k : ℤ) (h : |k| < 2 ^ 53) : ((k : ℝ) : ℂ) ∈ rl k := rl_mem (is_int k h)

theorem Dka.badPoly_mem (k : Fin 4) : (![300, 175, 28, 1] : Fin 4 → ℂ) k ∈ badPoly k := by
  fin_cases k
  · have := rl_int 300 (by norm_num); simpa [badPoly] using this
  · have := rl_int 175 (by norm_num); simpa [badPoly] using this
  · have := rl_int 28 (by norm_num); simpa [badPoly] using this
  · have := rl_int 1 (by norm_num); simpa [badPoly] using this

theorem Dka.goodPoly_mem (k : Fin 3) : (![-2, 0, 1] : Fin 3 → ℂ) k ∈ goodPoly k := by
  fin_cases k
  · have := rl_int (-2) (by norm_num); simpa [goodPoly] using this
  · have := rl_int 0 (by norm_num); simpa [goodPoly] using this
  · have := rl_int 1 (by norm_num); simpa [goodPoly] using this

theorem Dka.fin_lit {q : ℚ} {t : ℝ} (h : Is (lit q : D) t) : FinD (lit q : D) := ⟨t, h⟩

theorem Dka.ra_fin {q : ℚ} {t : ℝ} (h : Is (lit q : D) t) : (ra q).Finite := ⟨fin_lit h, fin_lit (is_zero (T := D))⟩

theorem Dka.badApprox_fin (i : Fin 3) : (badApprox i).Finite := by
  fin_cases i
  · exact ra_fin (by have := is_int (-3) (by norm_num); simpa using this)
  · exact ra_fin (by have := is_int (-13) (by norm_num); simpa using this)
  · exact ra_fin (by have := is_int 19 (by norm_num); simpa using this)

theorem Dka.goodApprox_fin (i : Fin 2) : (goodApprox i).Finite := by
  fin_cases i
  · exact ra_fin (is_cst (q := 3 / 2) 3 (-1) (by norm_num) (by norm_num) (by norm_num) (by norm_num))
  · exact ra_fin (is_cst (q := -3 / 2) (-3) (-1) (by norm_num) (by norm_num) (by norm_num) (by norm_num))

theorem Dka.box_ok {R : Res (Fin n → Cx)} {i : Fin n} {B : Cx} (h : box R i = some B) : ∃ r, R = .ok r ∧ r i = B := by
  cases R with
  | error e => cases h
  | ok r => exact ⟨r, rfl, by simpa [box] using h⟩

/-- C68 violated: the boxes are unified in one pass only, because the first comparison is that of a box with itself.  For
`(z + 20) (z + 3) (z + 5)` and the approximations `-3, -13, 19`, the second box contains no zero. -/
theorem C68_violated : ∃ (p : Fin 4 → Cx) (c : Fin 4 → ℂ) (x : Fin 3 → Cd) (r : Fin 3 → Cx) (i : Fin 3),
    (∀ i, (x i).Finite) ∧ (∀ k, c k ∈ p k) ∧ c (Fin.last 3) ≠ 0 ∧ smithError 4 p x = .ok r ∧ ∀ z, z ∈ r i → ¬ IsZero c z := by
  have hb : box (smithError 4 badPoly badApprox) 1 = some ⟨⟨lit (-73/4), lit (-31/4)⟩, ⟨lit (-21/4), lit (21/4)⟩⟩ := by decide +kernel
  obtain ⟨r, hr, hB⟩ := box_ok hb
  refine ⟨badPoly, ![300, 175, 28, 1], badApprox, r, 1, badApprox_fin, badPoly_mem, by simp [Fin.last], hr, fun z hz h0 => ?_⟩
  rw [hB] at hz
  have e : (z + 20) * ((z + 3) * (z + 5)) = 0 := by
    have h0 : ∑ k : Fin 4, (![300, 175, 28, 1] : Fin 4 → ℂ) k * z ^ (k : ℕ) = 0 := h0
    rw [Fin.sum_univ_four] at h0
    simp at h0
    linear_combination h0
  have h1 : (-73/4 : ℝ) ≤ z.re := by
    have h1 := hz.1.1.2
    rw [(is_cst (q := -73/4) (-73) (-2) (by norm_num) (by norm_num) (by norm_num) (by norm_num)).2] at h1
    have := EReal.coe_le_coe_iff.1 h1; push_cast at this; linarith
  have h2 : z.re ≤ (-31/4 : ℝ) := by
    have h2 := hz.1.2.2
    rw [(is_cst (q := -31/4) (-31) (-2) (by norm_num) (by norm_num) (by norm_num) (by norm_num)).2] at h2
    have := EReal.coe_le_coe_iff.1 h2; push_cast at this; linarith
  have key : ∀ a : ℝ, z + a = 0 → z.re = -a := fun a ha => by
    rw [eq_neg_of_add_eq_zero_left ha]; simp
  rcases mul_eq_zero.1 e with e | e
  · have := key 20 (by exact_mod_cast e); linarith
  rcases mul_eq_zero.1 e with e | e
  · have := key 3 (by exact_mod_cast e); linarith
  · have := key 5 (by exact_mod_cast e); linarith

/-- An approximation which is NaN yields a box of NaNs, and the zero is lost: `z` with the approximation NaN. -/
theorem C67_nan_violated : ∃ (p : Fin 2 → Cx) (c : Fin 2 → ℂ) (x : Fin 1 → Cd) (r : Fin 1 → Cx),
    (∀ k, c k ∈ p k) ∧ smithError 2 p x = .ok r ∧ IsZero c 0 ∧ ∀ i, (0 : ℂ) ∉ r i := by
  have hb : box (smithError 2 (![rl 0, rl 1] : Fin 2 → Cx) ![⟨dNaN, dNaN⟩]) 0 = some ⟨⟨dNaN, dNaN⟩, ⟨dNaN, dNaN⟩⟩ := by decide +kernel
  obtain ⟨r, hr, hB⟩ := box_ok hb
  refine ⟨![rl 0, rl 1], ![0, 1], ![⟨dNaN, dNaN⟩], r, fun k => ?_, hr, ?_, fun i hi => ?_⟩
  · fin_cases k
    · have := rl_int 0 (by norm_num); simpa using this
    · have := rl_int 1 (by norm_num); simpa using this
  · simp [IsZero]
  · rw [Subsingleton.elim i 0, hB] at hi
    exact hi.1.1.1 nan_dNaN

/-- the hypotheses of C67, C67_returns and C68_partial hold for `z² - 2` with the approximations `±3/2`; the boxes are disjoint -/
theorem Dka.good_boxes : ∃ r, smithError 3 goodPoly goodApprox = .ok r ∧ ∀ i j, i ≠ j → ∀ z, z ∈ r i → z ∉ r j := by
  have h0 : (box (smithError 3 goodPoly goodApprox) 0).any (fun A => Rop.lt (lit 0) A.re.inf) = true := by decide +kernel
  have h1 : (box (smithError 3 goodPoly goodApprox) 1).any (fun A => Rop.lt A.re.sup (lit 0)) = true := by decide +kernel
  obtain ⟨A, hA, hA'⟩ := (Option.any_eq_true _ _).1 h0
  obtain ⟨r, hr, hB⟩ := box_ok hA
  obtain ⟨A2, hA2, hA2'⟩ := (Option.any_eq_true _ _).1 h1
  obtain ⟨r2, hr2, hB2⟩ := box_ok hA2
  rw [hr] at hr2
  cases hr2
  have key : ∀ z, z ∈ r 0 → z ∉ r 1 := fun z hz hz' => by
    rw [hB] at hz
    rw [hB2] at hz'
    have e0 : val (lit 0 : D) = 0 := (is_zero (T := D)).2
    rw [lt_iff, e0] at hA' hA2'
    have h1 := lt_of_lt_of_le hA'.2.2 hz.1.1.2
    have h2 := lt_of_le_of_lt hz'.1.2.2 hA2'.2.2
    exact absurd (h1.trans h2) (lt_irrefl _)
  refine ⟨r, hr, fun i j hij z hz hz' => ?_⟩
  fin_cases i <;> fin_cases j <;> first | exact hij rfl | exact key z hz hz' | exact key z hz' hz

example : ∃ r, smithError 3 goodPoly goodApprox = .ok r ∧ ∃! z, z ∈ r 0 ∧ IsZero ![-2, 0, 1] z := by
  obtain ⟨r, hr, hd⟩ := good_boxes
  exact ⟨r, hr, C68_partial (by norm_num) goodApprox_fin goodPoly_mem (by simp [Fin.last]) hr hd 0⟩

example : ∃ r, smithError 3 goodPoly goodApprox = .ok r ∧ ∃ i, ((Real.sqrt 2 : ℝ) : ℂ) ∈ r i := by
  obtain ⟨r, hr, -⟩ := good_boxes
  refine ⟨r, hr, C67 (by norm_num) (by norm_num) goodApprox_fin goodPoly_mem hr ?_⟩
  have : ((Real.sqrt 2 : ℝ) : ℂ) ^ 2 = 2 := by
    rw [← Complex.ofReal_pow, Real.sq_sqrt (by norm_num)]; norm_num
  simp [IsZero, Fin.sum_univ_three, this]

example : ∃ r, smithError 3 goodPoly goodApprox = .ok r ∧ ∀ i, (⟨dbl (goodApprox i).re, dbl (goodApprox i).im⟩ : ℂ) ∈ r i :=
  C67_returns (by norm_num) goodApprox_fin (fun k => ⟨_, goodPoly_mem k⟩) (by norm_num)

example : ∃ r, vdka 3 (fun _ => goodApprox) goodPoly = .ok (some r) ∧ ∀ z, IsZero ![-2, 0, 1] z → ∃ i, z ∈ r i := by
  obtain ⟨r, hr, -⟩ := good_boxes
  have h : vdka 3 (fun _ => goodApprox) goodPoly = .ok (some r) := by
    unfold vdka
    rw [if_neg (by decide +kernel)]
    show (smithError 3 goodPoly goodApprox >>= fun r => .ok (some r)) = _
    rw [hr]; rfl
  exact ⟨r, h, (C67_vdka (by norm_num) (by norm_num) (fun _ => goodApprox_fin) goodPoly_mem h).2⟩

example : vdka 3 (fun _ => goodApprox) ![rl 1, rl 1, rl 0] = .ok none := C67_vdka_false (by have := rl_int 0 (by norm_num); simpa using this)

end Kv
