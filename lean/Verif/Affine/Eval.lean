import Verif.Affine.Ranges
import Verif.Autodif.Inst
import Mathlib.Analysis.Calculus.MeanValue

/-! # Affine arithmetic: elementary functions by the mean value form, and whole expressions -/

namespace Kv
open RopSem Kv.Interval
open Rop (lit addUp addDown subUp subDown mulUp mulDown divUp divDown)

/-- the noise coefficients and the error are finite -/
def Form.TFin (x : Form) : Prop := (∀ i, i ≠ 0 → FinD (Affine.c x i)) ∧ FinD x.er

/-- if everything else is finite, the centre is finite -/
def Form.Ctr (x : Form) : Prop := Affine.size x ≠ 0 ∧ (x.TFin → FinD (Affine.c x 0))

namespace Affine
open AM
variable {ε : ℕ → ℝ} {x y r : Form} {u v t w : ℝ} {m m' : ℕ} {P Q : Prop}

theorem fin_of_tfin (h : x.TFin) (h0 : FinD (c x 0)) : x.Fin :=
  fin_iff.2 ⟨fun i _ => if hi : i = 0 then hi ▸ h0 else h.1 i hi, h.2⟩

theorem tfin_of_fin (h : x.Fin) : x.TFin := ⟨fun i _ => Fin.c h i, (fin_iff.1 h).2⟩

theorem ctr_of_fin (hs : size x ≠ 0) (h : x.Fin) : x.Ctr := ⟨hs, fun _ => Fin.c h 0⟩

/-! ## finite results come from finite operands -/

theorem unbounded (h : ∀ a : ℝ, ∃ u, r.Rep ε u ∧ u = a) : ¬ r.Fin := by
  intro hf
  obtain ⟨u, hu, rfl⟩ := h (r.lin ε + dbl r.er + 1)
  have := hu hf
  have h0 := le_abs_self (r.lin ε + dbl r.er + 1 - r.lin ε)
  linarith

theorem rep_of_not_fin (h : ¬ x.Fin) (u : ℝ) : x.Rep ε u := fun hf => absurd hf h

theorem add_form_fin (hε : Noise ε) (hx : x.Rep ε u) (hy : y.Rep ε v) (h : (add x y).Fin) : x.Fin ∧ y.Fin := by
  constructor
  · by_contra hn
    exact unbounded (fun a => ⟨(a - v) + v, add_rep hε (rep_of_not_fin hn _) hy, by ring⟩) h
  · by_contra hn
    exact unbounded (fun a => ⟨u + (a - u), add_rep hε hx (rep_of_not_fin hn _), by ring⟩) h
theorem sub_form_fin (hε : Noise ε) (hx : x.Rep ε u) (hy : y.Rep ε v) (h : (sub x y).Fin) : x.Fin ∧ y.Fin := by
  constructor
  · by_contra hn
    exact unbounded (fun a => ⟨(a + v) - v, sub_rep hε (rep_of_not_fin hn _) hy, by ring⟩) h
  · by_contra hn
    exact unbounded (fun a => ⟨u - (u - a), sub_rep hε hx (rep_of_not_fin hn _), by ring⟩) h
theorem addC_form_fin (hε : Noise ε) {k : D} (h : addC x k = .ok r) (hf : r.Fin) : x.Fin := by
  by_contra hn
  exact unbounded (fun a => ⟨(a - dbl k) + dbl k, (addC_rep hε (rep_of_not_fin hn _) h).1, by ring⟩) hf
theorem cAdd_form_fin (hε : Noise ε) {k : D} (h : cAdd k x = .ok r) (hf : r.Fin) : x.Fin := by
  by_contra hn
  exact unbounded (fun a => ⟨dbl k + (a - dbl k), (cAdd_rep hε (rep_of_not_fin hn _) h).1, by ring⟩) hf
theorem subC_form_fin (hε : Noise ε) {k : D} (h : subC x k = .ok r) (hf : r.Fin) : x.Fin := by
  by_contra hn
  exact unbounded (fun a => ⟨(a + dbl k) - dbl k, (subC_rep hε (rep_of_not_fin hn _) h).1, by ring⟩) hf
theorem cSub_form_fin (hε : Noise ε) {k : D} (h : cSub k x = .ok r) (hf : r.Fin) : x.Fin := by
  by_contra hn
  exact unbounded (fun a => ⟨dbl k - (dbl k - a), (cSub_rep hε (rep_of_not_fin hn _) h).1, by ring⟩) hf
theorem neg_form_fin (h : (neg x).Fin) : x.Fin := by
  by_contra hn
  exact unbounded (ε := fun _ => 0) (fun a => ⟨-(-a), neg_rep (rep_of_not_fin hn _), by ring⟩) h

theorem mulC_form_fin {k : D} (h : FinD (mulC x k).er) : x.Fin := by
  obtain ⟨h1, h2⟩ := addUp_fin h
  exact fin_iff.2 ⟨fun i hi => (mulUp_fin (subUp_fin ((sumUp_ge h2).2.1 i hi)).1).1, (mulUp_fin h1).1⟩
theorem cMul_form_fin {k : D} (h : FinD (cMul k x).er) : x.Fin ∧ FinD k := by
  obtain ⟨h1, h2⟩ := addUp_fin h
  exact ⟨fin_iff.2 ⟨fun i hi => (mulUp_fin (subUp_fin ((sumUp_ge h2).2.1 i hi)).1).2, (mulUp_fin h1).1⟩, abs_finD.1 (mulUp_fin h1).2⟩
theorem divC_form_fin {k : D} (hk : FinD k) (h : FinD (divC x k).er) : x.Fin ∧ dbl k ≠ 0 := by
  obtain ⟨h1, h2⟩ := addUp_fin h
  refine ⟨fin_iff.2 ⟨fun i hi => divUp_fin (subUp_fin ((sumUp_ge h1).2.1 i hi)).1 hk, divUp_fin h2 (abs_finD.2 hk)⟩, fun h0 => ?_⟩
  have := divUp_ne h2 (abs_finD.2 hk)
  rw [dbl_abs hk, h0] at this
  simp at this

theorem mul_form_fin (h : mul x y m = (.ok r, m')) (hf : FinD (c r (m + 1))) : x.Fin ∧ y.Fin ∧ FinD (c r 0) := by
  obtain ⟨a, s1, h1, h⟩ := bind_run h
  obtain ⟨rfl, rfl⟩ := next_run h1
  dsimp only at h
  by_cases hs : size x = 0 ∨ size y = 0 ∨ m + 1 + 1 < size x ∨ m + 1 + 1 < size y
  · rw [if_pos hs] at h
    cases (lift_run h).1
  rw [if_neg hs] at h
  obtain ⟨rfl, rfl⟩ := pure_run h
  rw [c_vec (by omega), if_pos rfl] at hf
  obtain ⟨e1, e2⟩ := addUp_fin hf
  obtain ⟨e3, e4⟩ := addUp_fin e1
  obtain ⟨e5, -, -⟩ := sumUp_ge e3
  obtain ⟨e8, e9⟩ := mulUp_fin e4
  obtain ⟨e10, e11⟩ := addUp_fin e2
  obtain ⟨e12, e13⟩ := mulUp_fin e10
  obtain ⟨e14, e15⟩ := mulUp_fin e11
  obtain ⟨rx1, -, -⟩ := rad_fin e8
  obtain ⟨ry1, -, -⟩ := rad_fin e9
  refine ⟨fin_iff.2 ⟨fun i hi => if h0 : i = 0 then h0 ▸ abs_finD.1 e14 else rx1 i h0 hi, e13⟩,
    fin_iff.2 ⟨fun i hi => if h0 : i = 0 then h0 ▸ abs_finD.1 e12 else ry1 i h0 hi, e15⟩, ?_⟩
  rw [c_vec (by omega), if_neg (by omega), if_pos rfl]
  exact (subUp_fin e5).2

theorem linear_form_fin {a : D} {R : Interval D} (h : linear (m + 1) x a R = .ok r) (hf : FinD (c r (m + 1))) :
    x.Fin ∧ FinD a ∧ FinD R.inf ∧ FinD R.sup ∧ FinD (c r 0) := by
  unfold linear at h
  split_ifs at h with hs
  cases h
  rw [c_vec (by omega), if_pos rfl] at hf
  obtain ⟨e1, e2⟩ := addUp_fin hf
  obtain ⟨e3, e4⟩ := addUp_fin e1
  obtain ⟨e5, e6, -⟩ := sumUp_ge e3
  obtain ⟨e8, e9⟩ := subUp_fin e5
  obtain ⟨e11, -⟩ := addUp_fin (mulUp_fin e8).1
  obtain ⟨e14, e15⟩ := subUp_fin e4
  obtain ⟨x0, fa⟩ := mulDown_fin (addDown_fin e15).1
  refine ⟨fin_iff.2 ⟨fun i hi => ?_, (mulUp_fin e2).2⟩, fa, e9, e11, ?_⟩
  · by_cases h0 : i = 0
    · rw [h0]; exact x0
    · have := e6 (i - 1) (by omega)
      rw [Nat.sub_add_cancel (by omega)] at this
      exact (mulUp_fin (subUp_fin this).1).1
  · rw [c_vec (by omega), if_neg (by omega), if_pos rfl]
    exact e14

/-! ## valid operands and results -/

/-- a form that represents the value `u`, defined if `P` -/
structure In (ε : ℕ → ℝ) (m : ℕ) (x : Form) (u : ℝ) (P : Prop) : Prop where
  size : size x ≤ m + 1
  ctr : x.Ctr
  dom : x.Fin → P
  rep : x.Rep ε u

/-- the result of a computation that may have made new noise symbols -/
def Out (ε : ℕ → ℝ) (m m' : ℕ) (r : Form) (w : ℝ) (P : Prop) : Prop :=
  m ≤ m' ∧ ∃ ε', Noise ε' ∧ (∀ i ≤ m, ε' i = ε i) ∧ In ε' m' r w P

theorem In.mono (h : In ε m x u P) (hm : m ≤ m') {ε' : ℕ → ℝ} (he : ∀ i ≤ m, ε' i = ε i) : In ε' m' x u P :=
  ⟨h.size.trans (by omega), h.ctr, h.dom, rep_congr (fun i hi => (he i (by have := h.size; omega)).symm) h.rep⟩

theorem In.imp (h : In ε m x u P) (hpq : P → Q) : In ε m x u Q := ⟨h.size, h.ctr, fun f => hpq (h.dom f), h.rep⟩
theorem Out.imp (h : Out ε m m' x u P) (hpq : P → Q) : Out ε m m' x u Q := by
  obtain ⟨h1, e, h2, h3, h4⟩ := h
  exact ⟨h1, e, h2, h3, h4.imp hpq⟩

theorem Out.of (hε : Noise ε) (h : In ε m r w P) : Out ε m m r w P := ⟨le_rfl, ε, hε, fun _ _ => rfl, h⟩

/-- one computation after another -/
theorem Out.trans {ε : ℕ → ℝ} {m m1 : ℕ} {r1 : Form} {w1 : ℝ} {P1 : Prop} (h : Out ε m m1 r1 w1 P1)
    (h2 : ∀ ε1, Noise ε1 → m ≤ m1 → (∀ i ≤ m, ε1 i = ε i) → In ε1 m1 r1 w1 P1 → Out ε1 m1 m' r w P) : Out ε m m' r w P := by
  obtain ⟨a1, e1, a2, a3, a4⟩ := h
  obtain ⟨b1, e2, b2, b3, b4⟩ := h2 e1 a2 a1 a3 a4
  exact ⟨a1.trans b1, e2, b2, fun i hi => (b3 i (by omega)).trans (a3 i hi), b4⟩

/-- result with a new noise symbol -/
theorem Out.new (hε : Noise ε) (h1 : size r = m + 2) (hc : FinD (c r (m + 1)) → FinD (c r 0)) (hd : r.Fin → P)
    (h : ∃ e, |e| ≤ 1 ∧ r.Rep (Function.update ε (m + 1) e) w) : Out ε m (m + 1) r w P := by
  obtain ⟨e, he, hr⟩ := h
  exact ⟨by omega, _, noise_update hε (by omega) he, fun i hi => Function.update_of_ne (by omega) _ _,
    ⟨by omega, ⟨by omega, fun hf => hc (hf.1 _ (by omega))⟩, hd, hr⟩⟩

/-! ## operations -/

theorem add_er_fin (h : FinD (add x y).er) : FinD x.er ∧ FinD y.er := by
  unfold add at h
  dsimp only at h
  split_ifs at h <;> exact addUp_fin (addUp_fin h).1

theorem add_ctr (h0 : size x ≠ 0) (h0' : size y ≠ 0) : (add x y).Ctr := by
  refine ⟨by rw [size_add]; omega, fun hf => ?_⟩
  have h2 := hf.2
  unfold add at h2 ⊢
  dsimp only at h2 ⊢
  split_ifs at h2 ⊢ with hs
  · rw [c_vec (by omega), if_pos (by omega)]
    exact (subUp_fin ((sumUp_ge (addUp_fin h2).2).2.1 0 (by omega))).2
  · rw [c_vec (by omega), if_pos (by omega)]
    exact (subUp_fin ((sumUp_ge (addUp_fin h2).2).2.1 0 (by omega))).2

theorem add_in (hε : Noise ε) (hx : In ε m x u P) (hy : In ε m y v Q) : In ε m (add x y) (u + v) (P ∧ Q) := by
  refine ⟨?_, add_ctr hx.ctr.1 hy.ctr.1, fun hf => ?_, add_rep hε hx.rep hy.rep⟩
  · rw [size_add]; have := hx.size; have := hy.size; omega
  · obtain ⟨h1, h2⟩ := add_form_fin hε hx.rep hy.rep hf
    exact ⟨hx.dom h1, hy.dom h2⟩

theorem sub_in (hε : Noise ε) (hx : In ε m x u P) (hy : In ε m y v Q) : In ε m (sub x y) (u - v) (P ∧ Q) := by
  refine ⟨?_, ⟨?_, fun hf => ?_⟩, fun hf => ?_, sub_rep hε hx.rep hy.rep⟩
  · rw [size_sub]; have := hx.size; have := hy.size; omega
  · rw [size_sub]; have := hx.ctr.1; omega
  · have h2 := hf.2
    have h0 := hx.ctr.1
    have h0' := hy.ctr.1
    unfold sub at h2 ⊢
    dsimp only at h2 ⊢
    split_ifs at h2 ⊢ with hs
    · rw [c_vec (by omega), if_pos (by omega)]
      exact (subUp_fin ((sumUp_ge (addUp_fin h2).2).2.1 0 (by omega))).2
    · rw [c_vec (by omega), if_pos (by omega)]
      exact (subUp_fin ((sumUp_ge (addUp_fin h2).2).2.1 0 (by omega))).2
  · obtain ⟨h1, h2⟩ := sub_form_fin hε hx.rep hy.rep hf
    exact ⟨hx.dom h1, hy.dom h2⟩

theorem shift_ctr {f : ℕ → D} {e : D} (hs : size x ≠ 0) (h : FinD e → FinD (f 0)) : Form.Ctr ⟨vec (size x) f, e⟩ :=
  ⟨by rw [size_vec]; exact hs, fun hf => by rw [c_vec (by omega)]; exact h hf.2⟩

theorem addC_in (hε : Noise ε) (hx : In ε m x u P) {k : D} (h : addC x k = .ok r) : In ε m r (u + dbl k) P := by
  obtain ⟨h1, h2⟩ := addC_rep hε hx.rep h
  refine ⟨h2 ▸ hx.size, ?_, fun hf => hx.dom (addC_form_fin hε h hf), h1⟩
  unfold addC at h
  split_ifs at h with hs
  cases h
  exact shift_ctr hs fun hf => by rw [if_pos rfl]; exact (subUp_fin (addUp_fin hf).2).2
theorem cAdd_in (hε : Noise ε) (hx : In ε m x u P) {k : D} (h : cAdd k x = .ok r) : In ε m r (dbl k + u) P := by
  obtain ⟨h1, h2⟩ := cAdd_rep hε hx.rep h
  refine ⟨h2 ▸ hx.size, ?_, fun hf => hx.dom (cAdd_form_fin hε h hf), h1⟩
  unfold cAdd at h
  split_ifs at h with hs
  cases h
  exact shift_ctr hs fun hf => by rw [if_pos rfl]; exact (subUp_fin (addUp_fin hf).2).2
theorem subC_in (hε : Noise ε) (hx : In ε m x u P) {k : D} (h : subC x k = .ok r) : In ε m r (u - dbl k) P := by
  obtain ⟨h1, h2⟩ := subC_rep hε hx.rep h
  refine ⟨h2 ▸ hx.size, ?_, fun hf => hx.dom (subC_form_fin hε h hf), h1⟩
  unfold subC at h
  split_ifs at h with hs
  cases h
  exact shift_ctr hs fun hf => by rw [if_pos rfl]; exact (subUp_fin (addUp_fin hf).2).2
theorem cSub_in (hε : Noise ε) (hx : In ε m x u P) {k : D} (h : cSub k x = .ok r) : In ε m r (dbl k - u) P := by
  obtain ⟨h1, h2⟩ := cSub_rep hε hx.rep h
  refine ⟨h2 ▸ hx.size, ?_, fun hf => hx.dom (cSub_form_fin hε h hf), h1⟩
  unfold cSub at h
  split_ifs at h with hs
  cases h
  exact shift_ctr hs fun hf => by rw [if_pos rfl]; exact (subUp_fin (addUp_fin hf).2).2

theorem neg_in (hx : In ε m x u P) : In ε m (neg x) (-u) P := by
  refine ⟨by rw [size_neg]; exact hx.size, ⟨by rw [size_neg]; exact hx.ctr.1, fun hf => ?_⟩, fun hf => hx.dom (neg_form_fin hf), neg_rep hx.rep⟩
  have h0 := hx.ctr.1
  rw [c_neg (by omega), neg_finD]
  refine hx.ctr.2 ⟨fun i hi => ?_, hf.2⟩
  by_cases h : i < size x
  · have := hf.1 i hi; rwa [c_neg h, neg_finD] at this
  · rw [c_ge (by omega)]; exact fin_zero

theorem mulC_in (hε : Noise ε) (hx : In ε m x u P) {k : D} : In ε m (mulC x k) (u * dbl k) P :=
  ⟨by rw [size_mulC]; exact hx.size, shift_ctr hx.ctr.1 fun hf => (subUp_fin ((sumUp_ge (addUp_fin hf).2).2.1 0 (by have := hx.ctr.1; omega))).2,
    fun hf => hx.dom (mulC_form_fin (fin_iff.1 hf).2), mulC_rep hε hx.rep⟩
theorem cMul_in (hε : Noise ε) (hx : In ε m x u P) {k : D} : In ε m (cMul k x) (dbl k * u) P :=
  ⟨by rw [size_cMul]; exact hx.size, shift_ctr hx.ctr.1 fun hf => (subUp_fin ((sumUp_ge (addUp_fin hf).2).2.1 0 (by have := hx.ctr.1; omega))).2,
    fun hf => hx.dom (cMul_form_fin (fin_iff.1 hf).2).1, cMul_rep hε hx.rep⟩
theorem divC_in (hε : Noise ε) (hx : In ε m x u P) {k : D} (hk : FinD k) : In ε m (divC x k) (u / dbl k) (P ∧ dbl k ≠ 0) :=
  ⟨by rw [size_divC]; exact hx.size, shift_ctr hx.ctr.1 fun hf => (subUp_fin ((sumUp_ge (addUp_fin hf).1).2.1 0 (by have := hx.ctr.1; omega))).2,
    fun hf => (divC_form_fin hk (fin_iff.1 hf).2).imp hx.dom id, divC_rep hε hx.rep hk⟩

theorem mul_out (hε : Noise ε) (hx : In ε m x u P) (hy : In ε m y v Q) (h : mul x y m = (.ok r, m')) :
    Out ε m m' r (u * v) (P ∧ Q) := by
  obtain ⟨rfl, h1, h2⟩ := mul_rep hε hx.rep hy.rep hx.size hy.size h
  refine Out.new hε h1 (fun hf => (mul_form_fin h hf).2.2) (fun hf => ?_) h2
  obtain ⟨a, b, -⟩ := mul_form_fin h (Fin.c hf _)
  exact ⟨hx.dom a, hy.dom b⟩

theorem ofInterval_size {I : Interval D} (h : ofInterval I m = (.ok r, m')) : m' = m + 1 ∧ size r = m + 2 := by
  obtain ⟨a, s1, h1, h⟩ := bind_run h
  obtain ⟨rfl, rfl⟩ := next_run h1
  obtain ⟨rfl, rfl⟩ := pure_run h
  exact ⟨rfl, size_vec⟩

theorem ofInterval_out (hε : Noise ε) {I : Interval D} (hv : v ∈ I) (h : ofInterval I m = (.ok r, m')) : Out ε m m' r v True := by
  obtain ⟨rfl, h1, h2⟩ := ofInterval_rep hε hv h
  refine Out.new hε h1 (fun hf => ?_) (fun _ => trivial) h2
  obtain ⟨a, s1, h1, h⟩ := bind_run h
  obtain ⟨rfl, rfl⟩ := next_run h1
  obtain ⟨rfl, -⟩ := pure_run h
  rw [c_vec (by omega), if_neg (by omega), if_pos rfl] at hf
  rw [c_vec (by omega), if_pos rfl]
  exact (subUp_fin hf).1

/-- functions given by slope and range -/
theorem unary_out (hε : Noise ε) (hx : In ε m x u P) {f : Interval D → Res (D × Interval D)}
    (hw : ∀ {I a R}, u ∈ I → (I.inf = dNinf ∨ FinD I.inf) → (I.sup = dPinf ∨ FinD I.sup) → f I = .ok (a, R) → FinD a →
      FinD R.inf → FinD R.sup → Q ∧ w - dbl a * u ∈ R)
    (h : unary f x m = (.ok r, m')) : Out ε m m' r w (P ∧ Q) := by
  obtain ⟨rfl, h1, h2⟩ := unary_rep hε hx.rep hx.size (fun a b c d e f g => (hw a b c d e f g).2) h
  obtain ⟨a, s1, h3, h⟩ := bind_run h
  obtain ⟨rfl, rfl⟩ := next_run h3
  obtain ⟨I, s2, h4, h⟩ := bind_run h
  obtain ⟨k2, rfl⟩ := lift_run h4
  obtain ⟨p, s3, h5, h⟩ := bind_run h
  obtain ⟨k3, rfl⟩ := lift_run h5
  obtain ⟨k, -⟩ := lift_run h
  refine Out.new hε h1 (fun hf => (linear_form_fin k hf).2.2.2.2) (fun hf => ?_) h2
  obtain ⟨f1, f2, f3, f4, -⟩ := linear_form_fin k (Fin.c hf _)
  have hu := toInterval_mem hε hx.rep f1 k2
  exact ⟨hx.dom f1, (hw hu (inf_cases hu) (sup_cases hu) k3 f2 f3 f4).1⟩

theorem inv_out (hε : Noise ε) (hx : In ε m x u P) (h : inv x m = (.ok r, m')) : Out ε m m' r (1 / u) (P ∧ u ≠ 0) :=
  unary_out hε hx (fun a b c d e _ _ => invRange_mem a b c d e) h
theorem sqrt_out (hε : Noise ε) (hx : In ε m x u P) (h : sqrt x m = (.ok r, m')) : Out ε m m' r (√u) (P ∧ 0 ≤ u) :=
  unary_out hε hx (fun a _ c d e _ _ => sqrtRange_mem a c d e) h
theorem square_out (hε : Noise ε) (hx : In ε m x u P) (h : square x m = (.ok r, m')) : Out ε m m' r (u * u) P :=
  (unary_out (Q := True) hε hx (fun a _ _ d e _ _ => ⟨trivial, squareRange_mem a d e⟩) h).imp And.left
theorem exp_out (hε : Noise ε) (hx : In ε m x u P) {L : Libm} {fuel : ℕ} (h : exp L fuel x m = (.ok r, m')) :
    Out ε m m' r (Real.exp u) P :=
  (unary_out (Q := True) hε hx (fun a b c d e _ g => ⟨trivial, expRange_mem a b c d e g⟩) h).imp And.left
theorem log_out (hε : Noise ε) (hx : In ε m x u P) {L : Libm} {fuel : ℕ} (h : log L fuel x m = (.ok r, m')) :
    Out ε m m' r (Real.log u) (P ∧ 0 < u) :=
  unary_out hε hx (fun a _ c d e _ _ => logRange_mem a c d e) h

theorem div_out (hε : Noise ε) (hx : In ε m x u P) (hy : In ε m y v Q) (h : div x y m = (.ok r, m')) :
    Out ε m m' r (u / v) (P ∧ Q ∧ v ≠ 0) := by
  obtain ⟨q, s1, h1, h2⟩ := bind_run h
  refine (inv_out hε hy h1).trans fun e1 n1 hm ag i1 => ?_
  have := mul_out n1 (hx.mono hm ag) i1 h2
  rwa [mul_one_div] at this

theorem cDiv_out (hε : Noise ε) {k : D} (hy : In ε m y v Q) (h : cDiv k y m = (.ok r, m')) :
    Out ε m m' r (dbl k / v) (Q ∧ v ≠ 0) := by
  obtain ⟨q, s1, h1, h2⟩ := bind_run h
  obtain ⟨rfl, rfl⟩ := pure_run h2
  refine (inv_out hε hy h1).trans fun e1 n1 hm ag i1 => ?_
  have := cMul_in (k := k) n1 i1
  rw [mul_one_div] at this
  exact Out.of n1 this

theorem pow_out (hε : Noise ε) (hx : In ε m x u P) (hy : In ε m y v Q) {L : Libm} {fuel : ℕ} (h : pow L fuel x y m = (.ok r, m')) :
    Out ε m m' r (u ^ v) (P ∧ Q ∧ 0 < u) := by
  obtain ⟨g, s1, h1, h⟩ := bind_run h
  obtain ⟨p, s2, h2, h3⟩ := bind_run h
  have := (log_out hε hx h1).trans fun e1 n1 hm ag i1 =>
    (mul_out n1 (hy.mono hm ag) i1 h2).trans fun e2 n2 _ _ i2 => exp_out n2 i2 h3
  obtain ⟨a1, e, a2, a3, a4⟩ := this
  refine ⟨a1, e, a2, a3, ⟨a4.size, a4.ctr, fun hf => ?_, fun hf => ?_⟩⟩
  · obtain ⟨b1, b2, b3⟩ := a4.dom hf; exact ⟨b2, b1, b3⟩
  · have b3 := (a4.dom hf).2.2
    rw [Real.rpow_def_of_pos b3, mul_comm]
    exact a4.rep hf

theorem powLoop_out : ∀ {n : ℕ} {ε : ℕ → ℝ} {m m' : ℕ} {r x s : Form} {w u : ℝ} {P Q : Prop}, Noise ε → In ε m r w Q → In ε m x u P →
    powLoop r x n m = (.ok s, m') → Out ε m m' s (w * u ^ n) (Q ∧ (n ≠ 0 → P)) := by
  intro n
  induction n using Nat.strong_induction_on with
  | _ n ih =>
    intro ε m m' r x s w u P Q hε hr hx h
    rw [powLoop] at h
    by_cases h0 : n = 0
    · rw [if_pos h0] at h
      obtain ⟨rfl, rfl⟩ := pure_run h
      rw [h0, pow_zero, mul_one]
      exact Out.of hε (hr.imp fun q => ⟨q, fun h => absurd rfl h⟩)
    · rw [if_neg h0] at h
      have e : w * u ^ n = (w * u ^ (n % 2)) * (u * u) ^ (n / 2) := by
        rw [← sq, ← pow_mul, mul_assoc, ← pow_add, Nat.mod_add_div]
      rw [e]
      by_cases hp : n % 2 ≠ 0
      · rw [if_pos hp] at h
        obtain ⟨r1, s1, h1, h⟩ := bind_run h
        obtain ⟨x1, s2, h2, h3⟩ := bind_run h
        have e : n % 2 = 1 := by omega
        rw [e, pow_one]
        refine (mul_out hε hr hx h1).trans fun e1 n1 hm ag i1 => ?_
        refine (mul_out n1 (hx.mono hm ag) (hx.mono hm ag) h2).trans fun e2 n2 hm2 ag2 i2 => ?_
        exact (ih _ (by omega) n2 (i1.mono hm2 ag2) i2 h3).imp fun a => ⟨a.1.1, fun _ => a.1.2⟩
      · rw [if_neg hp] at h
        have h : (mul x x >>= fun xp => powLoop r xp (n / 2)) m = (.ok s, m') := h
        obtain ⟨x1, s2, h2, h3⟩ := bind_run h
        have e : n % 2 = 0 := by omega
        rw [e, pow_zero, mul_one]
        refine (mul_out hε hx hx h2).trans fun e2 n2 hm2 ag2 i2 => ?_
        exact (ih _ (by omega) n2 (hr.mono hm2 ag2) i2 h3).imp fun a => ⟨a.1, fun _ => (a.2 (by omega)).1⟩

theorem scalar_in {m : ℕ} (hε : Noise ε) {k : D} (hk : FinD k) : In ε m (ofScalar k) (dbl k) True :=
  ⟨by simp [ofScalar, Affine.size], ⟨by simp [ofScalar, Affine.size], fun _ => hk⟩, fun _ => trivial, rep_ofScalar hε⟩

theorem powI_out (hε : Noise ε) (hx : In ε m x u P) {y : ℤ} (h : powI x y m = (.ok r, m')) :
    Out ε m m' r (u ^ y) ((y ≠ 0 → P) ∧ (y < 0 → u ≠ 0)) := by
  unfold powI at h
  by_cases h0 : y = 0
  · rw [if_pos h0] at h
    obtain ⟨rfl, rfl⟩ := pure_run h
    have := scalar_in (m := m') hε fin_one
    rw [dbl_one] at this
    rw [h0, zpow_zero]
    exact Out.of hε (this.imp fun _ => ⟨fun h => absurd rfl h, fun h => by omega⟩)
  rw [if_neg h0] at h
  by_cases h1 : y = -2147483648
  · rw [if_pos h1] at h; cases (lift_run h).1
  rw [if_neg h1] at h
  obtain ⟨q, s1, h2, h⟩ := bind_run h
  have hq := powLoop_out hε (scalar_in hε fin_one) hx h2
  rw [dbl_one, one_mul] at hq
  by_cases hn : y < 0
  · rw [if_pos hn] at h
    have e : u ^ y = dbl (lit 1) / u ^ y.natAbs := by
      rw [dbl_one, one_div, ← zpow_natCast, ← zpow_neg]
      congr 1; omega
    rw [e]
    refine hq.trans fun e1 n1 _ _ i1 => (cDiv_out n1 i1 h).imp ?_
    rintro ⟨⟨-, a⟩, b⟩
    exact ⟨fun _ => a (by omega), fun _ h0 => b (by rw [h0, zero_pow (by omega)])⟩
  · rw [if_neg hn] at h
    obtain ⟨rfl, rfl⟩ := pure_run h
    have e : u ^ y = u ^ y.natAbs := by
      rw [← zpow_natCast]; congr 1; omega
    rw [e]
    exact hq.imp fun a => ⟨fun _ => a.2 (by omega), fun h => absurd h hn⟩

/-! ## the mean value form -/

theorem mem_between {I : Interval D} {a b z : ℝ} (ha : a ∈ I) (hb : b ∈ I) (hz : z ∈ Set.uIcc a b) : z ∈ I := by
  rcases le_total a b with h | h
  · rw [Set.uIcc_of_le h] at hz; exact ⟨ha.1.mono hz.1, hb.2.mono hz.2⟩
  · rw [Set.uIcc_of_ge h] at hz; exact ⟨hb.1.mono hz.1, ha.2.mono hz.2⟩

theorem mean_value {f f' : ℝ → ℝ} {a b : ℝ} (h : ∀ t ∈ Set.uIcc a b, HasDerivAt f (f' t) t) :
    ∃ t ∈ Set.uIcc a b, f b = f a + f' t * (b - a) := by
  rcases lt_trichotomy a b with hab | rfl | hab
  · rw [Set.uIcc_of_le hab.le] at h ⊢
    obtain ⟨t, ht, e⟩ := exists_hasDerivAt_eq_slope f f' hab (fun t ht => (h t ht).continuousAt.continuousWithinAt)
      (fun t ht => h t (Set.Ioo_subset_Icc_self ht))
    refine ⟨t, Set.Ioo_subset_Icc_self ht, ?_⟩
    rw [e, div_mul_cancel₀ _ (by linarith)]; ring
  · exact ⟨a, by simp, by ring⟩
  · rw [Set.uIcc_of_ge hab.le] at h ⊢
    obtain ⟨t, ht, e⟩ := exists_hasDerivAt_eq_slope f f' hab (fun t ht => (h t ht).continuousAt.continuousWithinAt)
      (fun t ht => h t (Set.Ioo_subset_Icc_self ht))
    refine ⟨t, Set.Ioo_subset_Icc_self ht, ?_⟩
    rw [e]
    have : f b = f a + (f a - f b) / (a - b) * (b - a) := by
      rw [← neg_sub a b, mul_neg, div_mul_cancel₀ _ (by linarith)]; ring
    exact this

theorem size_set0 {k : D} : size ⟨x.a.set 0 k, x.er⟩ = size x := by simp [size]
theorem c_set0 {k : D} {i : ℕ} (hi : i ≠ 0) : c ⟨x.a.set 0 k, x.er⟩ i = c x i := by
  unfold c; dsimp only
  by_cases h : i < x.a.length
  · rw [List.getD_eq_getElem _ _ (by simpa using h), List.getD_eq_getElem _ _ h, List.getElem_set_ne (Ne.symm hi)]
  · rw [List.getD_eq_default _ _ (by simpa using h), List.getD_eq_default _ _ (by simpa using h)]
theorem c_set0_zero {k : D} (hs : size x ≠ 0) : c ⟨x.a.set 0 k, x.er⟩ 0 = k := by
  unfold c; dsimp only
  have : 0 < x.a.length := Nat.pos_of_ne_zero hs
  rw [List.getD_eq_getElem _ _ (by simpa using this), List.getElem_set_self]

/-- functions evaluated by the mean value form: `f0` encloses the value, `df` the derivative -/
theorem lazyFn_out (hε : Noise ε) (hx : In ε m x u P) {f0 df : Interval D → Res (Interval D)} {f f' : ℝ → ℝ}
    (hf : ∀ {k Z I W}, FinD k → f0 (point k) = .ok Z → dbl k ∈ I → df I = .ok W →
      f (dbl k) ∈ Z ∧ ∀ t ∈ I, HasDerivAt f (f' t) t ∧ f' t ∈ W)
    (hQ : ∀ {k Z I W}, FinD k → f0 (point k) = .ok Z → dbl k ∈ I → df I = .ok W → u ∈ I → Q)
    (h : lazyFn f0 df x m = (.ok r, m')) : Out ε m m' r (f u) (P ∧ Q) := by
  unfold lazyFn at h
  have hs := hx.ctr.1
  rw [if_neg hs] at h
  obtain ⟨Z, s1, h1, g1⟩ := bind_run h
  obtain ⟨k1, rfl⟩ := lift_run h1
  obtain ⟨I, s2, h2, g2⟩ := bind_run g1
  obtain ⟨k2, rfl⟩ := lift_run h2
  obtain ⟨W, s3, h3, g3⟩ := bind_run g2
  obtain ⟨k3, rfl⟩ := lift_run h3
  obtain ⟨J, s4, h4, g4⟩ := bind_run g3
  obtain ⟨k4, rfl⟩ := lift_run h4
  obtain ⟨s, s5, h5, g5⟩ := bind_run g4
  obtain ⟨rfl, rfl⟩ := pure_run g5
  clear h g1 g2 g3 g4 g5 h1 h2 h3 h4
  set tmp : Form := ⟨x.a.set 0 (lit 0), x.er⟩ with htmp
  have st : size tmp = size x := size_set0
  have c0 : c tmp 0 = lit 0 := c_set0_zero hs
  have ci : ∀ i, i ≠ 0 → c tmp i = c x i := fun i hi => c_set0 hi
  -- finite operands
  have fx : tmp.Fin → x.Fin := fun hf => by
    have : x.TFin := ⟨fun i hi => ci i hi ▸ Fin.c hf i, (fin_iff.1 hf).2⟩
    exact fin_of_tfin this (hx.ctr.2 this)
  have rt : ∀ {e : ℕ → ℝ}, Noise e → x.Rep e u → tmp.Rep e (u - dbl (c x 0)) := by
    intro e he hr hf
    have := hr (fx hf)
    rw [lin_tail he hs] at this
    rw [lin_tail he (by rw [st]; exact hs), c0, dbl_zero, zero_add]
    have et : tail e tmp = tail e x := by
      unfold tail
      rw [st]
      exact Finset.sum_congr rfl fun i _ => by rw [ci _ (by omega)]
    rw [et]
    refine le_trans (le_of_eq ?_) this
    congr 1; ring
  have it : In ε s4 tmp (u - dbl (c x 0)) P := by
    refine ⟨st ▸ hx.size, ⟨by rw [st]; exact hs, fun _ => by rw [c0]; exact fin_zero⟩, fun hf => hx.dom (fx hf), rt hε hx.rep⟩
  by_cases hfin : x.Fin ∧ FinD (mid W)
  · obtain ⟨hfx, hmW⟩ := hfin
    have ftmp : tmp.Fin := fin_of_tfin ⟨fun i hi => ci i hi ▸ Fin.c hfx i, (fin_iff.1 hfx).2⟩ (by rw [c0]; exact fin_zero)
    have hu : u ∈ I := toInterval_mem hε hx.rep hfx k2
    have hc : dbl (c x 0) ∈ I := toInterval_near hfx k2 (by rw [sub_self, abs_zero]; exact exRad_nonneg hε hs hx.rep hfx)
    have hJ : u - dbl (c x 0) ∈ J := toInterval_mem hε it.rep ftmp k4
    obtain ⟨v1, v2⟩ := hf (Fin.c hfx 0) k1 hc k3
    obtain ⟨t, ht, e⟩ := mean_value (f := f) (f' := f') (a := dbl (c x 0)) (b := u) fun t ht => (v2 t (mem_between hc hu ht)).1
    have hd := (v2 t (mem_between hc hu ht)).2
    have hr := add_mem v1 (mul_mem (subS_mem hd (is_dbl' hmW)) hJ)
    have o := ofInterval_out hε hr h5
    refine o.trans fun e1 n1 hm ag i1 => Out.of n1 ?_
    have := add_in n1 i1 (cMul_in (k := mid W) n1 (it.mono hm ag))
    have e' : f u = f (dbl (c x 0)) + (f' t - dbl (mid W)) * (u - dbl (c x 0)) + dbl (mid W) * (u - dbl (c x 0)) := by rw [e]; ring
    rw [e']
    exact this.imp fun a => ⟨a.2, hQ (Fin.c hfx 0) k1 hc k3 hu⟩
  · -- the result is not finite
    have hn : ¬ (add s (cMul (mid W) tmp)).Fin := by
      intro hf'
      obtain ⟨f1, f2⟩ := cMul_form_fin (add_er_fin (fin_iff.1 hf').2).2
      exact hfin ⟨fx f1, f2⟩
    obtain ⟨rfl, h6⟩ := ofInterval_size h5
    refine ⟨by omega, ε, hε, fun _ _ => rfl, ⟨?_, add_ctr (by omega) (by rw [size_cMul, st]; exact hs), fun h => absurd h hn, fun h => absurd h hn⟩⟩
    rw [size_add, size_cMul, st]
    have := hx.size
    omega

/-! ## the elementary functions -/

theorem memHalf {k : D} (hk : FinD k) : dbl k ∈ point k := pt_mem hk

theorem sin_out (hε : Noise ε) (hx : In ε m x u P) {fuel : ℕ}
    (h : lazyFn (Interval.sin fuel) (Interval.cos fuel) x m = (.ok r, m')) : Out ε m m' r (Real.sin u) P :=
  (lazyFn_out (Q := True) hε hx (f := Real.sin) (f' := Real.cos)
    (fun hk h0 _ h1 => ⟨sin_mem h0 (pt_mem hk), fun t ht => ⟨Real.hasDerivAt_sin t, cos_mem h1 ht⟩⟩) (fun _ _ _ _ _ => trivial) h).imp And.left

theorem cos_out (hε : Noise ε) (hx : In ε m x u P) {fuel : ℕ}
    (h : lazyFn (Interval.cos fuel) (fun I => do return Interval.neg (← Interval.sin fuel I)) x m = (.ok r, m')) :
    Out ε m m' r (Real.cos u) P :=
  (lazyFn_out (Q := True) hε hx (f := Real.cos) (f' := fun t => -Real.sin t)
    (fun hk h0 _ h1 => ⟨cos_mem h0 (pt_mem hk), fun t ht => ⟨Real.hasDerivAt_cos t, by
      obtain ⟨S, hS, h1⟩ := bind_ok.1 h1
      cases h1
      exact neg_mem (sin_mem hS ht)⟩⟩) (fun _ _ _ _ _ => trivial) h).imp And.left

theorem dTan_mem {fuel : ℕ} {I W : Interval D} (h : dTan fuel I = .ok W) (ht : t ∈ I) : Real.cos t ≠ 0 ∧ 1 / Real.cos t ^ 2 ∈ W := by
  obtain ⟨C, hC, h⟩ := bind_ok.1 h
  have hc := cos_mem hC ht
  refine ⟨powInt_neg_ne h hc (by norm_num), ?_⟩
  have := powInt_mem h hc
  rwa [zpow_neg, ← one_div, zpow_ofNat] at this

theorem tan_out (hε : Noise ε) (hx : In ε m x u P) {fuel : ℕ} (h : lazyFn (Interval.tan fuel) (dTan fuel) x m = (.ok r, m')) :
    Out ε m m' r (Real.tan u) (P ∧ Real.cos u ≠ 0) :=
  lazyFn_out hε hx (f := Real.tan) (f' := fun t => 1 / Real.cos t ^ 2)
    (fun hk h0 _ h1 => ⟨tan_mem h0 (pt_mem hk), fun _ ht => ⟨Real.hasDerivAt_tan (dTan_mem h1 ht).1, (dTan_mem h1 ht).2⟩⟩)
    (fun _ _ _ h1 hu => (dTan_mem h1 hu).1) h

theorem dAsin_mem {k : D} {a : ℝ} {I W : Interval D} (h : dAsin k I = .ok W) (hk : Is k a) (ht : t ∈ I) :
    -1 < t ∧ t < 1 ∧ a / √(1 - t ^ 2) ∈ W := by
  obtain ⟨p, hp, h⟩ := bind_ok.1 h
  obtain ⟨s, hs, h⟩ := bind_ok.1 h
  have h1 := sSub_mem (powInt_mem hp ht) is_one
  have h2 := sqrt_mem hs h1
  have h3 := sDiv_mem h h2 hk
  have h0 := sDiv_ne h h2
  rw [zpow_ofNat] at h0 h3
  have hpos : 0 < 1 - t ^ 2 := by
    by_contra hc; exact h0 (Real.sqrt_eq_zero'.2 (not_lt.1 hc))
  exact ⟨by nlinarith, by nlinarith, h3⟩

theorem asin_out (hε : Noise ε) (hx : In ε m x u P) {fuel : ℕ} (h : lazyFn (Interval.asin fuel) (dAsin (lit 1)) x m = (.ok r, m')) :
    Out ε m m' r (Real.arcsin u) (P ∧ -1 ≤ u ∧ u ≤ 1) :=
  lazyFn_out hε hx (f := Real.arcsin) (f' := fun t => 1 / √(1 - t ^ 2))
    (fun hk h0 _ h1 => ⟨(C17_asin (pt_mem hk) h0).2.2, fun t ht => by
      obtain ⟨a, b, c⟩ := dAsin_mem h1 is_one ht
      exact ⟨Real.hasDerivAt_arcsin a.ne' b.ne, c⟩⟩)
    (fun _ _ _ h1 hu => by
      obtain ⟨a, b, c⟩ := dAsin_mem h1 is_one hu
      exact ⟨a.le, b.le⟩) h

theorem acos_out (hε : Noise ε) (hx : In ε m x u P) {fuel : ℕ} (h : lazyFn (Interval.acos fuel) (dAsin (lit (-1))) x m = (.ok r, m')) :
    Out ε m m' r (Real.arccos u) (P ∧ -1 ≤ u ∧ u ≤ 1) :=
  lazyFn_out hε hx (f := Real.arccos) (f' := fun t => -(1 / √(1 - t ^ 2)))
    (fun hk h0 _ h1 => ⟨(C17_acos (pt_mem hk) h0).2.2, fun t ht => by
      obtain ⟨a, b, c⟩ := dAsin_mem h1 is_neg_one ht
      refine ⟨Real.hasDerivAt_arccos a.ne' b.ne, ?_⟩
      rwa [← neg_div]⟩)
    (fun _ _ _ h1 hu => by
      obtain ⟨a, b, c⟩ := dAsin_mem h1 is_neg_one hu
      exact ⟨a.le, b.le⟩) h

theorem sinh_out (hε : Noise ε) (hx : In ε m x u P) {fuel : ℕ}
    (h : lazyFn (Interval.sinh fuel) (Interval.cosh fuel) x m = (.ok r, m')) : Out ε m m' r (Real.sinh u) P :=
  (lazyFn_out (Q := True) hε hx (f := Real.sinh) (f' := Real.cosh)
    (fun hk h0 _ h1 => ⟨C18_sinh (pt_mem hk) h0, fun t ht => ⟨Real.hasDerivAt_sinh t, cosh_mem h1 ht⟩⟩) (fun _ _ _ _ _ => trivial) h).imp And.left
theorem cosh_out (hε : Noise ε) (hx : In ε m x u P) {fuel : ℕ}
    (h : lazyFn (Interval.cosh fuel) (Interval.sinh fuel) x m = (.ok r, m')) : Out ε m m' r (Real.cosh u) P :=
  (lazyFn_out (Q := True) hε hx (f := Real.cosh) (f' := Real.sinh)
    (fun hk h0 _ h1 => ⟨cosh_mem h0 (pt_mem hk), fun t ht => ⟨Real.hasDerivAt_cosh t, C18_sinh ht h1⟩⟩) (fun _ _ _ _ _ => trivial) h).imp And.left

theorem tanh_out (hε : Noise ε) (hx : In ε m x u P) {fuel : ℕ}
    (h : lazyFn (Interval.tanh fuel) (dTanh fuel) x m = (.ok r, m')) : Out ε m m' r (Real.tanh u) P :=
  (lazyFn_out (Q := True) hε hx (f := Real.tanh) (f' := fun t => 1 / (Real.cosh t * Real.cosh t))
    (fun hk h0 _ h1 => ⟨C18_tanh (pt_mem hk) h0, fun t ht => ⟨hasDerivAt_tanh t, by
      obtain ⟨C, hC, h1⟩ := bind_ok.1 h1
      have := powInt_mem h1 (cosh_mem hC ht)
      rwa [zpow_neg, ← one_div, zpow_ofNat, sq] at this⟩⟩) (fun _ _ _ _ _ => trivial) h).imp And.left

theorem asinh_out (hε : Noise ε) (hx : In ε m x u P) {fuel : ℕ}
    (h : lazyFn (Interval.asinh fuel) dAsinh x m = (.ok r, m')) : Out ε m m' r (Real.arsinh u) P :=
  (lazyFn_out (Q := True) hε hx (f := Real.arsinh) (f' := fun t => (√(1 + t ^ 2))⁻¹)
    (fun hk h0 _ h1 => ⟨C18_asinh (pt_mem hk) h0, fun t ht => ⟨Real.hasDerivAt_arsinh t, by
      obtain ⟨p, hp, h1⟩ := bind_ok.1 h1
      obtain ⟨s, hs, h1⟩ := bind_ok.1 h1
      have := sDiv_mem h1 (sqrt_mem hs (addS_mem (powInt_mem hp ht) is_one)) is_one
      rwa [one_div, zpow_ofNat, add_comm] at this⟩⟩) (fun _ _ _ _ _ => trivial) h).imp And.left

theorem dAcosh_mem {I W : Interval D} (h : dAcosh I = .ok W) (ht : t ∈ I) : 0 < t ^ 2 - 1 ∧ (√(t ^ 2 - 1))⁻¹ ∈ W := by
  obtain ⟨p, hp, h⟩ := bind_ok.1 h
  obtain ⟨s, hs, h⟩ := bind_ok.1 h
  have h2 := sqrt_mem hs (subS_mem (powInt_mem hp ht) is_one)
  have h3 := sDiv_mem h h2 is_one
  have h0 := sDiv_ne h h2
  rw [zpow_ofNat] at h0 h3
  rw [one_div] at h3
  refine ⟨?_, h3⟩
  by_contra hc; exact h0 (Real.sqrt_eq_zero'.2 (not_lt.1 hc))

theorem dAcosh_gt {k : D} {I W Z : Interval D} {fuel : ℕ} (hk : FinD k) (h0 : Interval.acosh fuel (point k) = .ok Z) (hI : dbl k ∈ I)
    (h : dAcosh I = .ok W) (ht : t ∈ I) : 1 < t := by
  have h1 := acosh_ok_le h0 (pt_mem hk)
  have h2 := (dAcosh_mem h ht).1
  by_contra hc
  have h3 : t ≤ 0 := by nlinarith [not_lt.1 hc]
  have h4 : (0:ℝ) ∈ I := ⟨ht.1.mono h3, hI.2.mono (by linarith)⟩
  have := (dAcosh_mem h h4).1
  norm_num at this

theorem acosh_out (hε : Noise ε) (hx : In ε m x u P) {fuel : ℕ}
    (h : lazyFn (Interval.acosh fuel) dAcosh x m = (.ok r, m')) : Out ε m m' r (Real.arcosh u) (P ∧ 1 ≤ u) :=
  lazyFn_out hε hx (f := Real.arcosh) (f' := fun t => (√(t ^ 2 - 1))⁻¹)
    (fun hk h0 hI h1 => ⟨C18_acosh (pt_mem hk) (acosh_ok_le h0 (pt_mem hk)) h0, fun _ ht =>
      ⟨Real.hasDerivAt_arcosh (dAcosh_gt hk h0 hI h1 ht), (dAcosh_mem h1 ht).2⟩⟩)
    (fun hk h0 hI h1 hu => (dAcosh_gt hk h0 hI h1 hu).le) h

theorem dAtanh_mem {I W : Interval D} (h : dAtanh I = .ok W) (ht : t ∈ I) : 1 - t * t ≠ 0 ∧ 1 / (1 - t * t) ∈ W := by
  obtain ⟨p, hp, h⟩ := bind_ok.1 h
  have h2 := sSub_mem (powInt_mem hp ht) is_one
  have h3 := sDiv_mem h h2 is_one
  have h0 := sDiv_ne h h2
  rw [zpow_ofNat, sq] at h0 h3
  exact ⟨h0, h3⟩

theorem dAtanh_lt {k : D} {I W Z : Interval D} {fuel : ℕ} (hk : FinD k) (h0 : Interval.atanh fuel (point k) = .ok Z) (hI : dbl k ∈ I)
    (h : dAtanh I = .ok W) (ht : t ∈ I) : -1 < t ∧ t < 1 := by
  obtain ⟨h1, h2⟩ := atanh_ok_le h0 (pt_mem hk)
  constructor
  · by_contra hc
    have h4 : (-1:ℝ) ∈ I := ⟨ht.1.mono (not_lt.1 hc), hI.2.mono h1⟩
    have := (dAtanh_mem h h4).1
    norm_num at this
  · by_contra hc
    have h4 : (1:ℝ) ∈ I := ⟨hI.1.mono h2, ht.2.mono (not_lt.1 hc)⟩
    have := (dAtanh_mem h h4).1
    norm_num at this

theorem atanh_out (hε : Noise ε) (hx : In ε m x u P) {fuel : ℕ}
    (h : lazyFn (Interval.atanh fuel) dAtanh x m = (.ok r, m')) : Out ε m m' r (Real.artanh u) (P ∧ -1 < u ∧ u < 1) :=
  lazyFn_out hε hx (f := Real.artanh) (f' := fun t => 1 / (1 - t * t))
    (fun hk h0 hI h1 => ⟨C18_atanh (pt_mem hk) (dAtanh_lt hk h0 hI h1 hI).1 (dAtanh_lt hk h0 hI h1 hI).2 h0, fun _ ht =>
      ⟨hasDerivAt_artanh (dAtanh_lt hk h0 hI h1 ht).1 (dAtanh_lt hk h0 hI h1 ht).2, (dAtanh_mem h1 ht).2⟩⟩)
    (fun hk h0 hI h1 hu => dAtanh_lt hk h0 hI h1 hu) h

theorem un_out (hε : Noise ε) (hx : In ε m x u P) {L : Libm} {fuel : ℕ} {f : Un} (hf : f ≠ .atan) (h : un L fuel f x m = (.ok r, m')) :
    Out ε m m' r (f.real u) (P ∧ f.Dom u) := by
  cases f with
  | neg =>
    obtain ⟨rfl, rfl⟩ := pure_run h
    exact Out.of hε ((neg_in hx).imp fun a => ⟨a, trivial⟩)
  | exp => exact (exp_out hε hx h).imp fun a => ⟨a, trivial⟩
  | log => exact log_out hε hx h
  | sqrt => exact sqrt_out hε hx h
  | sin => exact (sin_out hε hx h).imp fun a => ⟨a, trivial⟩
  | cos => exact (cos_out hε hx h).imp fun a => ⟨a, trivial⟩
  | tan => exact tan_out hε hx h
  | asin => exact asin_out hε hx h
  | acos => exact acos_out hε hx h
  | atan => exact absurd rfl hf
  | sinh => exact (sinh_out hε hx h).imp fun a => ⟨a, trivial⟩
  | cosh => exact (cosh_out hε hx h).imp fun a => ⟨a, trivial⟩
  | tanh => exact (tanh_out hε hx h).imp fun a => ⟨a, trivial⟩
  | asinh => exact (asinh_out hε hx h).imp fun a => ⟨a, trivial⟩
  | acosh => exact acosh_out hε hx h
  | atanh => exact atanh_out hε hx h

theorem bin_out (hε : Noise ε) (hx : In ε m x u P) (hy : In ε m y v Q) {o : Bin} (h : bin o x y m = (.ok r, m')) :
    Out ε m m' r (o.real u v) (P ∧ Q ∧ o.Dom v) := by
  cases o with
  | add =>
    obtain ⟨rfl, rfl⟩ := pure_run h
    exact Out.of hε ((add_in hε hx hy).imp fun a => ⟨a.1, a.2, trivial⟩)
  | sub =>
    obtain ⟨rfl, rfl⟩ := pure_run h
    exact Out.of hε ((sub_in hε hx hy).imp fun a => ⟨a.1, a.2, trivial⟩)
  | mul => exact (mul_out hε hx hy h).imp fun a => ⟨a.1, a.2, trivial⟩
  | div => exact div_out hε hx hy h

theorem binC_out (hε : Noise ε) (hx : In ε m x u P) {k : D} (hk : FinD k) {o : Bin} (h : binC o x k m = (.ok r, m')) :
    Out ε m m' r (o.real u (dbl k)) (P ∧ o.Dom (dbl k)) := by
  cases o with
  | add =>
    obtain ⟨g, rfl⟩ := lift_run h
    exact Out.of hε ((addC_in hε hx g).imp fun a => ⟨a, trivial⟩)
  | sub =>
    obtain ⟨g, rfl⟩ := lift_run h
    exact Out.of hε ((subC_in hε hx g).imp fun a => ⟨a, trivial⟩)
  | mul =>
    obtain ⟨rfl, rfl⟩ := pure_run h
    exact Out.of hε ((mulC_in hε hx).imp fun a => ⟨a, trivial⟩)
  | div =>
    obtain ⟨rfl, rfl⟩ := pure_run h
    exact Out.of hε (divC_in hε hx hk)

theorem cBin_out (hε : Noise ε) (hx : In ε m x u P) {k : D} {o : Bin} (h : cBin o k x m = (.ok r, m')) :
    Out ε m m' r (o.real (dbl k) u) (P ∧ o.Dom u) := by
  cases o with
  | add =>
    obtain ⟨g, rfl⟩ := lift_run h
    exact Out.of hε ((cAdd_in hε hx g).imp fun a => ⟨a, trivial⟩)
  | sub =>
    obtain ⟨g, rfl⟩ := lift_run h
    exact Out.of hε ((cSub_in hε hx g).imp fun a => ⟨a, trivial⟩)
  | mul =>
    obtain ⟨rfl, rfl⟩ := pure_run h
    exact Out.of hε ((cMul_in hε hx).imp fun a => ⟨a, trivial⟩)
  | div => exact cDiv_out hε hx h

end Affine

/-- the constants of the expression are finite and `atan` does not occur -/
def Expr.AffOk {n : ℕ} : Expr n → Prop
  | .var _ => True
  | .par _ => True
  | .cst k => FinD k
  | .un f a => f ≠ .atan ∧ a.AffOk
  | .bin _ a b => a.AffOk ∧ b.AffOk
  | .binC _ a k => a.AffOk ∧ FinD k
  | .cBin _ k b => b.AffOk ∧ FinD k
  | .powI a _ => a.AffOk
  | .pow a b => a.AffOk ∧ b.AffOk

/-- no power with exponent 0 -/
def Expr.NoPow0 {n : ℕ} : Expr n → Prop
  | .var _ => True
  | .par _ => True
  | .cst _ => True
  | .un _ a => a.NoPow0
  | .bin _ a b => a.NoPow0 ∧ b.NoPow0
  | .binC _ a _ => a.NoPow0
  | .cBin _ _ b => b.NoPow0
  | .powI a y => a.NoPow0 ∧ y ≠ 0
  | .pow a b => a.NoPow0 ∧ b.NoPow0

namespace Affine
open AM

theorem eval_out {L : Libm} {fuel n : ℕ} {p : ℕ → Form} {x : Fin n → Form} {ρ : ℕ → ℝ} {ξ : Fin n → ℝ} :
    ∀ {e : Expr n} {ε : ℕ → ℝ} {m m' : ℕ} {r : Form}, e.AffOk → Noise ε → (∀ i, In ε m (x i) (ξ i) True) → (∀ i, In ε m (p i) (ρ i) True) →
      eval L fuel p x e m = (.ok r, m') → Out ε m m' r (e.real ρ ξ) (e.NoPow0 → e.Dom ρ ξ) := by
  intro e
  induction e with
  | var i =>
    intro ε m m' r _ hε hx hp h
    obtain ⟨rfl, rfl⟩ := pure_run h
    exact Out.of hε ((hx i).imp fun _ _ => trivial)
  | par i =>
    intro ε m m' r _ hε hx hp h
    obtain ⟨rfl, rfl⟩ := pure_run h
    exact Out.of hε ((hp i).imp fun _ _ => trivial)
  | cst k =>
    intro ε m m' r ok hε hx hp h
    obtain ⟨rfl, rfl⟩ := pure_run h
    exact Out.of hε ((scalar_in hε ok).imp fun _ _ => trivial)
  | un f a ih =>
    intro ε m m' r ok hε hx hp h
    obtain ⟨u, s1, h1, h2⟩ := bind_run h
    refine (ih ok.2 hε hx hp h1).trans fun e1 n1 _ _ i1 => (un_out n1 i1 ok.1 h2).imp ?_
    exact fun a b => ⟨a.1 b, a.2⟩
  | bin o a b iha ihb =>
    intro ε m m' r ok hε hx hp h
    obtain ⟨u, s1, h1, h2⟩ := bind_run h
    obtain ⟨v, s2, h3, h4⟩ := bind_run h2
    refine (iha ok.1 hε hx hp h1).trans fun e1 n1 hm ag i1 => ?_
    refine (ihb ok.2 n1 (fun i => (hx i).mono hm ag) (fun i => (hp i).mono hm ag) h3).trans fun e2 n2 hm2 ag2 i2 => ?_
    refine (bin_out n2 (i1.mono hm2 ag2) i2 h4).imp ?_
    exact fun a b => ⟨a.1 b.1, a.2.1 b.2, a.2.2⟩
  | binC o a k ih =>
    intro ε m m' r ok hε hx hp h
    obtain ⟨u, s1, h1, h2⟩ := bind_run h
    refine (ih ok.1 hε hx hp h1).trans fun e1 n1 _ _ i1 => (binC_out n1 i1 ok.2 h2).imp ?_
    exact fun a b => ⟨a.1 b, a.2⟩
  | cBin o k b ih =>
    intro ε m m' r ok hε hx hp h
    obtain ⟨u, s1, h1, h2⟩ := bind_run h
    refine (ih ok.1 hε hx hp h1).trans fun e1 n1 _ _ i1 => (cBin_out n1 i1 h2).imp ?_
    exact fun a b => ⟨a.1 b, a.2⟩
  | powI a y ih =>
    intro ε m m' r ok hε hx hp h
    obtain ⟨u, s1, h1, h2⟩ := bind_run h
    refine (ih ok hε hx hp h1).trans fun e1 n1 _ _ i1 => (powI_out n1 i1 h2).imp ?_
    exact fun a b => ⟨a.1 b.2 b.1, a.2⟩
  | pow a b iha ihb =>
    intro ε m m' r ok hε hx hp h
    obtain ⟨u, s1, h1, h2⟩ := bind_run h
    obtain ⟨v, s2, h3, h4⟩ := bind_run h2
    refine (iha ok.1 hε hx hp h1).trans fun e1 n1 hm ag i1 => ?_
    refine (ihb ok.2 n1 (fun i => (hx i).mono hm ag) (fun i => (hp i).mono hm ag) h3).trans fun e2 n2 hm2 ag2 i2 => ?_
    refine (pow_out n2 (i1.mono hm2 ag2) i2 h4).imp ?_
    exact fun a b => ⟨a.1 b.1, a.2.1 b.2, a.2.2⟩

end Affine
end Kv
