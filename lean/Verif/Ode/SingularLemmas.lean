import Verif.Ode.Singular
import Verif.Ode.DefintAuto
import Verif.Ode.Weighted
import Verif.Complex.CardanoLemmas

/-! # Lemmas about the integrators for singular integrands -/

namespace Kv
open PowerSeries Psa PM MeasureTheory Filter Topology
open Rop (lit)
set_option linter.unusedVariables false

/-- a complete computation without reuse of results -/
theorem Psa.OpT.run {S : Type} [ScalSem S] {E : Env S} {T : ℕ → List (PowerSeries ℝ × Bool)} {k : Bool} {c : PowerSeries ℝ} {v : ℝ} {X : Prop}
    {m : PM S (List S)} (h : OpT E T k c v X m) {st st' : PSt S} (h1 : st.mode = E.md) (h2 : st.domain = E.d) (h3 : st.use = false)
    (hr : st.record = false) (h4 : E.g = st.hist) {z : List S} (hm : m st = (.ok z, st')) : st' = st ∧ Sem E k c v z ∧ X := by
  obtain ⟨hat, hs, hX⟩ := h false st.record [] [] st (by simpa [popT] using Psa.At.start h1 h2 h3 h4) z st' hm
  obtain ⟨r1, r2, r3, r4, r5⟩ := hat.restored h1 h2 h3 h4
  refine ⟨?_, hs, hX⟩
  cases st; cases st'
  simp only at r1 r2 r3 r4 r5 hr
  simp only [PSt.mk.injEq]
  exact ⟨r1, r2, r5 hr, r3, r4⟩

namespace Defint
variable {fuel : ℕ} {ρ : ℕ → ℝ} {p : ℕ → Interval D} {N n : ℕ} {a : ℝ}

/-- the environment of an evaluation in mode 2 at the point `τ` -/
def env2 (N : ℕ) (st : PSt (Interval D)) (τ : ℝ) : Env (Interval D) := ⟨2, st.domain, N + 1, 1, N, τ, st.hist⟩

theorem env2_ok (hN : 1 ≤ N) (hN' : N + 1 < 2 ^ 31) {st : PSt (Interval D)} {τ : ℝ} (hτ : τ ∈ st.domain) (h0 : (0 : ℝ) ∈ st.domain) :
    letI := semI fuel; (env2 N st τ).Ok := by
  let _ := semI fuel
  exact ⟨Or.inr ⟨rfl, rfl, hτ, h0, convI fuel⟩, le_refl 1, by show 1 ≤ N + 1; omega, hN, hN'⟩

theorem start_sem (hN : 1 ≤ N) {st : PSt (Interval D)} {τ : ℝ} {x : Ode.Ser} (hl : x.length = N + 1) (hx : Contains x (idCo a)) :
    letI := semI fuel; Sem (env2 N st τ) false (idPs a) (a + τ) x := by
  let _ := semI fuel
  refine ⟨by simpa [env2] using hl, fun hk => (by cases hk), idCo a, hx, fun k _ => (idCo_idPs a k).symm, fun _ => ?_, fun hk => (by cases hk)⟩
  show a + τ = ∑ i ∈ Finset.range (N + 1), idCo a i * τ ^ i
  obtain ⟨M, rfl⟩ : ∃ M, N = M + 1 := ⟨N - 1, by omega⟩
  rw [Finset.sum_range_succ', Finset.sum_range_succ', Finset.sum_eq_zero (fun k _ => by simp [idCo])]
  simp [idCo]; ring

/-- the value of a series without the first `n` terms -/
theorem divTn_sem {st : PSt (Interval D)} {τ : ℝ} {c : PowerSeries ℝ} {v : ℝ} {y z : Ode.Ser} (hn : n ≤ N)
    (hy : letI := semI fuel; Sem (env2 N st τ) false c v y) (h : (letI := scalI fuel; divTn y (n : ℤ)) = .ok z) :
    letI := semI fuel
    ∃ c' v', Sem (env2 N st τ) false c' v' z ∧ v' * τ ^ n = v - ∑ k ∈ Finset.range n, coeff k c * τ ^ k := by
  let _ := semI fuel
  have hl : y.length = N + 1 := by simpa [env2] using hy.len
  unfold divTn at h
  rw [if_neg (by omega)] at h
  cases h
  obtain ⟨q, h1, h2, h3, -⟩ := hy.ex
  have h3 : v = ∑ i ∈ Finset.range (N + 1), q i * τ ^ i := h3 rfl
  let q' : ℕ → ℝ := fun i => if i + n < N + 1 then q (i + n) else 0
  refine ⟨PowerSeries.mk q', ∑ i ∈ Finset.range (N + 1), q' i * τ ^ i, ⟨?_, fun hk => (by cases hk), q', ?_, fun i _ => by rw [PowerSeries.coeff_mk],
    fun _ => rfl, fun hk => (by cases hk)⟩, ?_⟩
  · simp [env2, hl]; omega
  · intro i A hA
    simp only [Int.toNat_natCast] at hA
    by_cases hi : i + n < N + 1
    · rw [List.getElem?_append_left (by rw [List.length_drop]; omega), List.getElem?_drop] at hA
      show q' i ∈ A
      simp only [q', if_pos hi]
      have := h1 (i + n) A (by rw [Nat.add_comm]; exact hA)
      exact this
    · rw [List.getElem?_append_right (by rw [List.length_drop]; omega)] at hA
      rw [List.getElem?_replicate] at hA
      split_ifs at hA
      cases hA
      show q' i ∈ _
      simp only [q', if_neg hi]
      exact mem_lit0 (fuel := fuel)
  · have e1 : ∑ i ∈ Finset.range (N + 1), q' i * τ ^ i = ∑ i ∈ Finset.range (N + 1 - n), q (n + i) * τ ^ i := by
      rw [← Finset.sum_subset (Finset.range_mono (Nat.sub_le (N + 1) n))]
      · refine Finset.sum_congr rfl fun i hi => ?_
        have := Finset.mem_range.1 hi
        simp only [q', if_pos (show i + n < N + 1 by omega), Nat.add_comm n i]
      · intro i _ hi
        simp only [Finset.mem_range, not_lt] at hi
        simp only [q', if_neg (show ¬ (i + n < N + 1) by omega), zero_mul]
    have e2 := Finset.sum_range_add (fun i => q i * τ ^ i) n (N + 1 - n)
    rw [show n + (N + 1 - n) = N + 1 by omega] at e2
    have e3 : ∑ k ∈ Finset.range n, q k * τ ^ k = ∑ k ∈ Finset.range n, coeff k c * τ ^ k :=
      Finset.sum_congr rfl fun k hk => by rw [h2 k (by have := Finset.mem_range.1 hk; show k < N; omega)]
    rw [e1, h3, e2, e3, add_sub_cancel_left, Finset.sum_mul]
    refine Finset.sum_congr rfl fun i _ => ?_
    rw [pow_add]; ring

/-- if everything is removed, nothing remains -/
theorem divTn_all {st : PSt (Interval D)} {τ : ℝ} {y z : Ode.Ser} (hl : y.length = N + 1) (h : (letI := scalI fuel; divTn y ((N : ℤ) + 1)) = .ok z) :
    letI := semI fuel
    Sem (env2 N st τ) false 0 0 z := by
  let _ := semI fuel
  unfold divTn at h
  rw [if_neg (by omega)] at h
  cases h
  refine ⟨?_, fun hk => (by cases hk), fun _ => 0, ?_, fun i _ => by simp, fun _ => by simp, fun hk => (by cases hk)⟩
  · have : ((N : ℤ) + 1).toNat = N + 1 := by omega
    simp [env2, hl, this]
  · intro i A hA
    rw [List.drop_eq_nil_of_le (by omega), List.nil_append, List.getElem?_replicate] at hA
    split_ifs at hA
    cases hA
    exact mem_lit0 (fuel := fuel)

/-- data of a template function without inverse functions -/
structure Fun (e : Expr 1) (ρ : ℕ → ℝ) (a : ℝ) : Prop where
  fin : e.FinCst
  noInv : e.noInv
  ldom : e.LDom False ρ fun _ => a

/-- the Taylor coefficients -/
noncomputable def co (e : Expr 1) (ρ : ℕ → ℝ) (a : ℝ) (k : ℕ) : ℝ := coeff k (e.ps ρ fun _ => idPs a)

/-- `e` with its Taylor polynomial of `n` terms removed -/
noncomputable def tail (e : Expr 1) (ρ : ℕ → ℝ) (a : ℝ) (n : ℕ) (t : ℝ) : ℝ := fn e ρ (a + t) - ∑ k ∈ Finset.range n, co e ρ a k * t ^ k

/-- evaluation of a template function at the point `τ` -/
theorem evalE_sem {e : Expr 1} (he : Fun e ρ a) (hp : ∀ i, ρ i ∈ p i) {st st' : PSt (Interval D)} {τ : ℝ} {x z : Ode.Ser}
    (hE : letI := semI fuel; (env2 N st τ).Ok) (hx : letI := semI fuel; Sem (env2 N st τ) false (idPs a) (a + τ) x)
    (hm : st.mode = 2) (hu : st.use = false) (hr : st.record = false) (h : (letI := scalI fuel; evalE e p x) st = (.ok z, st')) :
    letI := semI fuel
    st' = st ∧ Sem (env2 N st τ) e.isC (e.ps ρ fun _ => idPs a) (fn e ρ (a + τ)) z ∧ Smooth e ρ a ∧ Smooth e ρ (a + τ) := by
  let _ := semI fuel
  obtain ⟨T, hT⟩ := Expr.evalP_spec (S := Interval D) ρ (fun _ => idPs a) e he.fin
  have := hT hE (p := p) (x := fun _ => x) (v := fun _ => a + τ) hp (fun _ => hx) (fun _ => he.noInv) (by
    have : ((env2 N st τ).s < 2) = False := eq_false fun h => by have := (hE.two rfl).1; omega
    rw [this]
    simpa only [coeff_idPs] using he.ldom)
  simp only [coeff_idPs] at this
  obtain ⟨h1, h2, h3, h4⟩ := this.run hm rfl hu hr rfl h
  exact ⟨h1, h2, h3, h4 rfl⟩

theorem sem_len {st : PSt (Interval D)} {τ : ℝ} {c : PowerSeries ℝ} {v : ℝ} {y : Ode.Ser}
    (hy : letI := semI fuel; Sem (env2 N st τ) false c v y) : y.length = N + 1 := by
  let _ := semI fuel
  simpa [env2] using hy.len

/-- `pow(div_tn(f(x), n), power) * g(x)` -/
theorem powerTerm_at {f g : Expr 1} (hf : Fun f ρ a) (hg : Fun g ρ a) (hfc : f.isC = false) (hp : ∀ i, ρ i ∈ p i)
    (hN : 1 ≤ N) (hN' : N + 1 < 2 ^ 31) {st st' : PSt (Interval D)}
    (hm : st.mode = 2) (hu : st.use = false) (hr : st.record = false) (h0 : (0 : ℝ) ∈ st.domain) {x y : Ode.Ser} (hxl : x.length = N + 1)
    (hx : Contains x (idCo a)) {power : Interval D} {π : ℝ} (hπ : π ∈ power)
    (h : (letI := scalI fuel; powerTerm f g p x power (n : ℤ)) st = (.ok y, st')) :
    st' = st ∧ y.length = N + 1 ∧ n ≤ N ∧ ∀ τ ∈ st.domain, Smooth f ρ (a + τ) ∧ Smooth g ρ (a + τ) ∧
      ∃ (r : ℕ → ℝ) (v : ℝ), Contains y r ∧ 0 < v ∧ v * τ ^ n = tail f ρ a n τ ∧
        v ^ π * fn g ρ (a + τ) = ∑ k ∈ Finset.range (N + 1), r k * τ ^ k := by
  let _ := semI fuel
  unfold powerTerm at h
  obtain ⟨y1, st1, e1, h1⟩ := bind_run h
  obtain ⟨y2, s2, e2', h2⟩ := bind_run h1
  obtain ⟨e2, hs2⟩ := lift_run e2'
  rw [hs2] at h2
  obtain ⟨y3, st3, e3, h3⟩ := bind_run h2
  obtain ⟨y4, st4, e4, e5⟩ := bind_run h3
  clear h h1 h2 h3 e2' hs2
  have key : ∀ τ ∈ st.domain, (st' = st ∧ y.length = N + 1 ∧ n ≤ N) ∧ Smooth f ρ (a + τ) ∧ Smooth g ρ (a + τ) ∧
      ∃ (r : ℕ → ℝ) (v : ℝ), Contains y r ∧ 0 < v ∧ v * τ ^ n = tail f ρ a n τ ∧
        v ^ π * fn g ρ (a + τ) = ∑ k ∈ Finset.range (N + 1), r k * τ ^ k := by
    intro τ hτ
    have hE := env2_ok (fuel := fuel) hN hN' hτ h0
    have hxs := start_sem (fuel := fuel) (a := a) hN (st := st) (τ := τ) hxl hx
    obtain ⟨rfl, s1, -, sf⟩ := evalE_sem (fuel := fuel) hf hp hE hxs hm hu hr e1
    rw [hfc] at s1
    have hl1 := sem_len (fuel := fuel) s1
    have hn : (n : ℤ) ≤ N + 1 := by
      by_contra hc
      unfold divTn at e2
      rw [if_pos (by omega)] at e2
      cases e2
    obtain ⟨c2, v2, s2, hv⟩ : ∃ c' v', Sem (env2 N st1 τ) false c' v' y2 ∧ (n ≤ N → v' * τ ^ n = tail f ρ a n τ) ∧ (n = N + 1 → v' = 0) := by
      rcases Nat.lt_or_ge N n with hc | hc
      · have : n = N + 1 := by omega
        subst this
        exact ⟨0, 0, divTn_all (fuel := fuel) hl1 (by exact_mod_cast e2), fun h => by omega, fun _ => rfl⟩
      · obtain ⟨c', v', h1, h2⟩ := divTn_sem (fuel := fuel) hc s1 e2
        exact ⟨c', v', h1, fun _ => h2, fun h => by omega⟩
    obtain ⟨rfl, s3, -, hvm⟩ := (pow_spec hE s2 (sem_const hE hπ) (fun h => by
      rcases h with h | h
      · have := (hE.two rfl).1; omega
      · cases h)).run hm rfl hu hr rfl e3
    have hv0 : 0 < v2 := hvm rfl
    obtain ⟨rfl, s4, -, sg⟩ := evalE_sem (fuel := fuel) hg hp hE hxs hm hu hr e4
    obtain ⟨rfl, s5, -⟩ := (Op1.opT (mul_spec hE s3 s4)).run hm rfl hu hr rfl e5
    have hnN : n ≤ N := by
      by_contra hc
      exact hv0.ne' (hv.2 (by omega))
    change Sem _ (true && false && g.isC) _ _ _ at s5
    rw [show (true && false && g.isC) = false from rfl] at s5
    have hl5 := sem_len (fuel := fuel) s5
    obtain ⟨r, r1, r2, r3, -⟩ := s5.ex
    refine ⟨⟨rfl, hl5, hnN⟩, sf, sg, r, v2, r1, hv0, hv.1 hnN, ?_⟩
    rw [Real.rpow_def_of_pos hv0, mul_comm (Real.log v2)]
    exact r3 rfl
  obtain ⟨⟨h1, h2, h3⟩, -⟩ := key 0 h0
  exact ⟨h1, h2, h3, fun τ hτ => (key τ hτ).2⟩

/-! ## runs -/

theorem startAt_spec (hN : 1 ≤ N) {st st' : PSt (Interval D)} {start : Interval D} {x : Ode.Ser} (ha : a ∈ start)
    (h : (letI := scalI fuel; startAt start (N : ℤ)) st = (.ok x, st')) : st' = st ∧ x.length = N + 1 ∧ Contains x (idCo a) := by
  let _ := semI fuel
  change startAt start (N : ℤ) st = (.ok x, st') at h
  unfold startAt Psa.setorder at h
  rw [if_neg (by omega)] at h
  rw [if_pos (by simp; omega)] at h
  obtain ⟨rfl, rfl⟩ := pure_run h
  refine ⟨rfl, by simp; omega, fun k A hA => ?_⟩
  match k with
  | 0 => simp at hA; subst hA; exact ha
  | 1 => simp at hA; subst hA; exact ScalSem.ofC_mem (S := Interval D) Interval.is_one
  | k + 2 =>
    simp [List.getElem?_replicate] at hA
    rw [← hA.2]
    exact mem_lit0 (fuel := fuel)

theorem setorder_same {st st' : PSt (Interval D)} {y z : Ode.Ser} (hl : y.length = N + 1)
    (h : (letI := scalI fuel; Psa.setorder y (N : ℤ)) st = (.ok z, st')) : z = y ∧ st' = st := by
  let _ := semI fuel
  change Psa.setorder y (N : ℤ) st = (.ok z, st') at h
  unfold Psa.setorder at h
  rw [if_neg (by omega)] at h
  rw [if_pos (by simp [hl])] at h
  obtain ⟨rfl, rfl⟩ := pure_run h
  refine ⟨?_, rfl⟩
  simp [hl]

/-- the state in which the body runs -/
def st2 (st : PSt (Interval D)) (step : Interval D) : PSt (Interval D) :=
  { st with mode := 2, use := false, record := false, domain := Interval.sHull (lit 0) step }

theorem inMode2_run {α : Type} {step : Interval D} {m : PM (Interval D) α} {st st' : PSt (Interval D)} {z : α}
    (h : inMode2 step m st = (.ok z, st')) : ∃ s1, m (st2 st step) = (.ok z, s1) := by
  unfold inMode2 at h
  rw [get_bind] at h
  obtain ⟨_, sb1, e1, h1⟩ := bind_run h
  cases e1
  obtain ⟨_, sb2, e2, h2⟩ := bind_run h1
  cases e2
  obtain ⟨_, sb3, e3, h3⟩ := bind_run h2
  cases e3
  obtain ⟨_, sb4, e4, h4⟩ := bind_run h3
  cases e4
  obtain ⟨r, sc, e5, h5⟩ := bind_run h4
  obtain ⟨_, sb6, e6, h6⟩ := bind_run h5
  obtain ⟨_, sb7, e7, h7⟩ := bind_run h6
  obtain ⟨_, sb8, e8, h8⟩ := bind_run h7
  obtain ⟨rfl, _⟩ := pure_run h8
  exact ⟨_, e5⟩

/-! ## sums -/

theorem powerSum_mem {step : Interval D} {T : ℝ} (hT : 0 < T) (hs : T ∈ step) : ∀ {y : Ode.Ser} {tx tp R Z : Interval D} {e w : ℝ} {s : ℕ → ℝ},
    Contains y s → T ^ e ∈ tx → e ∈ tp → w ∈ R → (powerSum step y tx tp R) = .ok Z →
      w + ∑ k ∈ Finset.range y.length, s k * (T ^ (e + k) / (e + k)) ∈ Z
  | [], tx, tp, R, Z, e, w, s, _, _, _, hw, h => by
    unfold powerSum at h; cases h; simpa using hw
  | y :: l, tx, tp, R, Z, e, w, s, hy, htx, htp, hw, h => by
    unfold powerSum at h
    obtain ⟨q, hq, h⟩ := bind_ok.1 h
    have h0 : s 0 ∈ y := hy 0 y rfl
    have hq' := Interval.div_mem hq (Interval.mul_mem h0 htx) htp
    have := powerSum_mem hT hs (s := fun k => s (k + 1)) (e := e + 1) (w := w + s 0 * T ^ e / e) (fun k A hA => hy (k + 1) A (by simpa using hA))
      (by
        have := Interval.mul_mem htx hs
        rwa [Real.rpow_add_one hT.ne']) (Interval.addS_mem htp Interval.is_one) (Interval.add_mem hw hq') h
    rw [List.length_cons, Finset.sum_range_succ']
    have e1 : ∑ k ∈ Finset.range l.length, s (k + 1) * (T ^ (e + ((k + 1 : ℕ) : ℝ)) / (e + ((k + 1 : ℕ) : ℝ))) =
        ∑ k ∈ Finset.range l.length, s (k + 1) * (T ^ (e + 1 + k) / (e + 1 + k)) :=
      Finset.sum_congr rfl fun k _ => by
        rw [show e + ((k + 1 : ℕ) : ℝ) = e + 1 + k by push_cast; ring]
    rw [e1]
    have e2 : s 0 * (T ^ (e + ((0 : ℕ) : ℝ)) / (e + ((0 : ℕ) : ℝ))) = s 0 * T ^ e / e := by
      rw [Nat.cast_zero, add_zero, mul_div_assoc]
    rw [e2]
    have e3 : ∀ A B C : ℝ, A + (B + C) = A + C + B := fun _ _ _ => by ring
    rw [e3]; exact this

theorem powerResult_mem {step power : Interval D} {T π : ℝ} (hT : 0 < T) (hs : T ∈ step) (hπ : π ∈ power) (hn : n < 2 ^ 31) {y : Ode.Ser} {s : ℕ → ℝ}
    (hy : Contains y s) {Z : Interval D} (h : powerResult fuel step power (n : ℤ) y = .ok Z) :
    ∑ k ∈ Finset.range y.length, s k * (T ^ (π * n + 1 + k) / (π * n + 1 + k)) ∈ Z := by
  unfold powerResult at h
  obtain ⟨tx, htx, h⟩ := bind_ok.1 h
  have hn' : Is (lit (n : ℤ) : D) (n : ℝ) := by
    have := Interval.Is.lit_int (T := D) (n : ℤ) (by rw [abs_of_nonneg (by positivity)]; exact_mod_cast hn.le)
    exact_mod_cast this
  have htp : π * n + 1 ∈ Interval.addS (Interval.mulS power (lit (n : ℤ))) (lit 1) :=
    Interval.addS_mem (Interval.mulS_mem hπ hn') Interval.is_one
  have := powerSum_mem hT hs hy (Interval.pow_mem htx hs htp hT) htp (w := 0) ⟨Interval.is_zero.lo, Interval.is_zero.hi⟩ h
  rwa [zero_add] at this

/-- intervals are closed and convex -/
theorem int_ord (Z : Interval D) : {y : ℝ | y ∈ Z}.OrdConnected := ⟨fun a ha b hb ξ hξ => convI 0 Z a b ξ ha hb (Set.Icc_subset_uIcc hξ)⟩

/-- the sets given by a series -/
def sets (y : Ode.Ser) (k : ℕ) : Set ℝ := {x | ∀ A, y[k]? = some A → x ∈ A}

theorem sets_closed (y : Ode.Ser) (k : ℕ) : IsClosed (sets y k) := by
  unfold sets
  cases h : y[k]? with
  | none => simp
  | some A => simpa using Interval.mem_closed A

theorem sets_ord (y : Ode.Ser) (k : ℕ) : (sets y k).OrdConnected := by
  unfold sets
  cases h : y[k]? with
  | none => simpa using Set.ordConnected_univ
  | some A => simpa using int_ord A

theorem contains_iff {y : Ode.Ser} {s : ℕ → ℝ} (h : ∀ k < y.length, s k ∈ sets y k) : Contains y s := fun k A hA =>
  h k (getElem?_lt hA) A hA

end Defint
end Kv
