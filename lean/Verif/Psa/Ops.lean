import Verif.Psa.Hoare
import Verif.Interval.ElemLog
import Mathlib.Algebra.Polynomial.Eval.Degree

/-! # Power series arithmetic: soundness of the arithmetic operations -/

namespace Kv
open RopSem
open Rop (lit)

namespace Psa
open PM ScalSem PowerSeries
set_option linter.unusedSectionVars false
variable {S : Type} [ScalSem S]

/-! ## lists -/

theorem Mem.cons {p : ℕ → ℝ} {a : S} {t : List S} : Mem p (a :: t) ↔ mem (p 0) a ∧ Mem (fun i => p (i + 1)) t := by
  constructor
  · intro h
    exact ⟨h 0 a rfl, fun i b hb => h (i + 1) b (by simpa using hb)⟩
  · rintro ⟨h0, h1⟩ i b hb
    cases i with
    | zero => simp at hb; subst hb; exact h0
    | succ i => exact h1 i b (by simpa using hb)

theorem Mem.congr {p q : ℕ → ℝ} {l : List S} (h : Mem p l) (e : ∀ i < l.length, p i = q i) : Mem q l := by
  intro i a hi
  have : i < l.length := by
    by_contra hc; rw [List.getElem?_eq_none (by omega)] at hi; cases hi
  rw [← e i this]; exact h i a hi

theorem Mem.at {p : ℕ → ℝ} {l : List S} (h : Mem p l) {i : ℕ} {a : S} (ha : at' l i = .ok a) : mem (p i) a :=
  h i a (at_ok ha)

theorem at_lt {l : List S} {i : ℕ} {a : S} (ha : at' l i = .ok a) : i < l.length := by
  have := at_ok ha
  by_contra hc; rw [List.getElem?_eq_none (by omega)] at this; cases this

theorem polyrange_mem {d : S} {t : ℝ} (ht : mem t d) : ∀ {l : List S} {p : ℕ → ℝ} {r : S}, Mem p l →
    polyrange d l = .ok r → mem (∑ i ∈ Finset.range l.length, p i * t ^ i) r
  | [], _, _, _, h => by cases h
  | [a], p, r, hp, h => by
    cases h
    simpa using hp 0 a rfl
  | a :: b :: l, p, r, hp, h => by
    unfold polyrange at h
    obtain ⟨q, hq, h⟩ := bind_ok.1 h
    obtain ⟨m, hm, h⟩ := bind_ok.1 h
    have hp' := Mem.cons.1 hp
    have h1 := (bin_mem h (bin_mem hm (polyrange_mem ht hp'.2 hq) ht).2 hp'.1).2
    have e : ∑ i ∈ Finset.range (a :: b :: l).length, p i * t ^ i =
        (∑ i ∈ Finset.range (b :: l).length, p (i + 1) * t ^ i) * t + p 0 := by
      rw [List.length_cons, Finset.sum_range_succ']
      simp only [pow_zero, mul_one]
      rw [Finset.sum_mul]
      congr 1
      exact Finset.sum_congr rfl fun i _ => by ring
    rw [e]; exact h1

theorem list_sum_range (q : ℕ → ℝ) (n : ℕ) : ((List.range n).map q).sum = ∑ j ∈ Finset.range n, q j := by
  induction n with
  | zero => simp
  | succ n ih => rw [List.range_succ, List.map_append, List.sum_append, ih, Finset.sum_range_succ]; simp

theorem sumFrom_mem {f : ℕ → Res S} {q : ℕ → ℝ} : ∀ {l : List ℕ} {z r : S} {σ : ℝ}, mem σ z →
    (∀ j ∈ l, ∀ a, f j = .ok a → mem (q j) a) → sumFrom z (l.map f) = .ok r → mem (σ + (l.map q).sum) r
  | [], z, r, σ, hz, _, h => by
    cases h; simpa using hz
  | j :: l, z, r, σ, hz, hf, h => by
    simp only [List.map_cons, sumFrom] at h
    obtain ⟨v, hv, h⟩ := bind_ok.1 h
    obtain ⟨s, hs, h⟩ := bind_ok.1 h
    have h1 := (bin_mem hs hz (hf j (by simp) v hv)).2
    have := sumFrom_mem h1 (fun i hi => hf i (by simp [hi])) h
    simp only [List.map_cons, List.sum_cons]
    rw [← add_assoc]; exact this

theorem zero_mem : mem 0 (zero : S) := ofC_mem Interval.is_zero
theorem one_mem : mem 1 (one : S) := ofC_mem Interval.is_one

theorem sum_mem {n : ℕ} {f : ℕ → Res S} {q : ℕ → ℝ} {r : S} (hf : ∀ j < n, ∀ a, f j = .ok a → mem (q j) a)
    (h : sumFrom zero ((List.range n).map f) = .ok r) : mem (∑ j ∈ Finset.range n, q j) r := by
  have := sumFrom_mem (q := q) zero_mem (fun j hj => hf j (List.mem_range.1 hj)) h
  rwa [list_sum_range, zero_add] at this

theorem prodAt_mem {p q : ℕ → ℝ} {a b : List S} (ha : Mem p a) (hb : Mem q b) {i j : ℕ} {r : S}
    (h : prodAt a b i j = .ok r) : mem (p i * q j) r := by
  unfold prodAt at h
  obtain ⟨u, hu, h⟩ := bind_ok.1 h
  obtain ⟨v, hv, h⟩ := bind_ok.1 h
  exact (bin_mem h (ha.at hu) (hb.at hv)).2

theorem elem2_mem {o : Bin} {p q : ℕ → ℝ} {a b : List S} (ha : Mem p a) (hb : Mem q b) {i : ℕ} {r : S}
    (h : elem2 o a b i = .ok r) : mem (o.real (p i) (q i)) r := by
  unfold elem2 at h
  obtain ⟨u, hu, h⟩ := bind_ok.1 h
  obtain ⟨v, hv, h⟩ := bind_ok.1 h
  exact (bin_mem h (ha.at hu) (hb.at hv)).2

theorem negV_mem {p : ℕ → ℝ} {a r : List S} (ha : Mem p a) (h : negV a = .ok r) :
    r.length = a.length ∧ Mem (fun i => -p i) r := by
  unfold negV at h
  refine ⟨(tab_ok h).1, tab_all h fun i z _ hz => ?_⟩
  obtain ⟨u, hu, hz⟩ := bind_ok.1 hz
  exact un_mem (f := .neg) hz (ha.at hu) trivial

theorem divV_mem {p : ℕ → ℝ} {a r : List S} {c : S} {γ : ℝ} (ha : Mem p a) (hc : mem γ c) (h : divV a c = .ok r) :
    r.length = a.length ∧ Mem (fun i => p i / γ) r := by
  unfold divV at h
  refine ⟨(tab_ok h).1, tab_all h fun i z _ hz => ?_⟩
  obtain ⟨u, hu, hz⟩ := bind_ok.1 hz
  exact (bin_mem hz (ha.at hu) hc).2

/-- change of the first element -/
theorem head_mem {p : ℕ → ℝ} {b0 z : S} {t : List S} {δ : ℝ} (hb : Mem p (b0 :: t)) (hz : mem (p 0 + δ) z) :
    Mem (fun i => if i = 0 then p 0 + δ else p i) (z :: t) := by
  rw [Mem.cons] at hb ⊢
  exact ⟨by simpa using hz, by simpa using hb.2⟩

theorem addHead_mem {p : ℕ → ℝ} {b r : List S} {a : S} {α : ℝ} (hb : Mem p b) (ha : mem α a) (h : addHead b a = .ok r) :
    r.length = b.length ∧ Mem (fun i => if i = 0 then p 0 + α else p i) r := by
  unfold addHead at h
  cases b with
  | nil => cases h
  | cons b0 t =>
    obtain ⟨z, hz, h⟩ := bind_ok.1 h
    cases h
    exact ⟨rfl, head_mem hb (bin_mem hz (Mem.cons.1 hb).1 ha).2⟩

theorem subHead_mem {p : ℕ → ℝ} {b r : List S} {a : S} {α : ℝ} (hb : Mem p b) (ha : mem α a) (h : subHead b a = .ok r) :
    r.length = b.length ∧ Mem (fun i => if i = 0 then p 0 + -α else p i) r := by
  unfold subHead at h
  cases b with
  | nil => cases h
  | cons b0 t =>
    obtain ⟨z, hz, h⟩ := bind_ok.1 h
    cases h
    exact ⟨rfl, head_mem hb (by rw [← sub_eq_add_neg]; exact (bin_mem hz (Mem.cons.1 hb).1 ha).2)⟩

theorem addHeadC_mem {p : ℕ → ℝ} {b r : List S} {k : D} {α : ℝ} (hb : Mem p b) (ha : Is k α) (h : addHeadC b k = .ok r) :
    r.length = b.length ∧ Mem (fun i => if i = 0 then p 0 + α else p i) r := by
  unfold addHeadC at h
  cases b with
  | nil => cases h
  | cons b0 t =>
    obtain ⟨z, hz, h⟩ := bind_ok.1 h
    cases h
    exact ⟨rfl, head_mem hb (binC_mem hz (Mem.cons.1 hb).1 ha).2⟩

theorem subHeadC_mem {p : ℕ → ℝ} {b r : List S} {k : D} {α : ℝ} (hb : Mem p b) (ha : Is k α) (h : subHeadC b k = .ok r) :
    r.length = b.length ∧ Mem (fun i => if i = 0 then p 0 + -α else p i) r := by
  unfold subHeadC at h
  cases b with
  | nil => cases h
  | cons b0 t =>
    obtain ⟨z, hz, h⟩ := bind_ok.1 h
    cases h
    exact ⟨rfl, head_mem hb (by rw [← sub_eq_add_neg]; exact (binC_mem hz (Mem.cons.1 hb).1 ha).2)⟩

/-! ## the operations -/

variable {E : Env S}

/-- `p` are the coefficients of the quantity, the last one at the point `τ` -/
structure Rep (E : Env S) (k : Bool) (c : PowerSeries ℝ) (v : ℝ) (p : ℕ → ℝ) : Prop where
  low : ∀ i < E.l, p i = coeff i c
  val : E.md = 2 → v = ∑ i ∈ Finset.range E.s, p i * E.τ ^ i
  con : k = true → ∀ i, 1 ≤ i → p i = 0

theorem Sem.rep {k c v} {x : List S} (h : Sem E k c v x) : ∃ p, Mem p x ∧ Rep E k c v p := by
  obtain ⟨p, h1, h2, h3, h4⟩ := h.ex
  exact ⟨p, h1, h2, h3, h4⟩

theorem Rep.sem {k c v p} {x : List S} (h : Rep E k c v p) (hm : Mem p x) (hl : x.length = if k then 1 else E.s)
    (hk : k = true → c = C v) : Sem E k c v x := ⟨hl, hk, p, hm, h.low, h.val, h.con⟩

/-- a list of one element: only the first coefficient matters -/
theorem Sem.short {k c v} {x : List S} (h : Sem E k c v x) (h1 : x.length = 1) : k = true ∨ E.s = 1 := by
  have := h.len
  cases k
  · right; simpa [h1] using this.symm
  · exact Or.inl rfl

theorem Sem.pos (hE : E.Ok) {k c v} {x : List S} (h : Sem E k c v x) : 1 ≤ x.length := by
  rw [h.len]; split_ifs
  · exact le_rfl
  · exact hE.s_pos

theorem Rep.add {ka kb ca cb va vb p q} (ha : Rep E ka ca va p) (hb : Rep E kb cb vb q) :
    Rep E (ka && kb) (ca + cb) (va + vb) (fun i => p i + q i) where
  low i hi := by rw [ha.low i hi, hb.low i hi, map_add]
  val hm := by rw [ha.val hm, hb.val hm, ← Finset.sum_add_distrib]; exact Finset.sum_congr rfl fun i _ => by ring
  con hk i hi := by
    rw [Bool.and_eq_true] at hk
    rw [ha.con hk.1 i hi, hb.con hk.2 i hi, add_zero]

theorem Rep.neg {ka ca va p} (ha : Rep E ka ca va p) : Rep E ka (-ca) (-va) (fun i => -p i) where
  low i hi := by rw [ha.low i hi, map_neg]
  val hm := by rw [ha.val hm, ← Finset.sum_neg_distrib]; exact Finset.sum_congr rfl fun i _ => by ring
  con hk i hi := by rw [ha.con hk i hi, neg_zero]

theorem Rep.sub {ka kb ca cb va vb p q} (ha : Rep E ka ca va p) (hb : Rep E kb cb vb q) :
    Rep E (ka && kb) (ca - cb) (va - vb) (fun i => p i - q i) := by
  have := ha.add hb.neg
  simpa only [sub_eq_add_neg] using this

theorem Rep.smul {ka ca va p} (γ : ℝ) (ha : Rep E ka ca va p) : Rep E ka (C γ * ca) (γ * va) (fun i => γ * p i) where
  low i hi := by rw [ha.low i hi, PowerSeries.coeff_C_mul]
  val hm := by rw [ha.val hm, Finset.mul_sum]; exact Finset.sum_congr rfl fun i _ => by ring
  con hk i hi := by rw [ha.con hk i hi, mul_zero]

theorem rep_const (hE : E.Ok) (γ : ℝ) : Rep E true (C γ) γ (fun i => if i = 0 then γ else 0) where
  low i _ := by simp [PowerSeries.coeff_C]
  val _ := by
    rw [Finset.sum_eq_single 0]
    · simp
    · intro i _ hi; simp [hi]
    · intro h0; exact absurd (Finset.mem_range.2 hE.s_pos) h0
  con _ i hi := by have : i ≠ 0 := by omega
                   simp [this]

theorem len_and {ka kb ca cb va vb} {a b : List S} (ha : Sem E ka ca va a) (hb : Sem E kb cb vb b)
    (h1 : a.length = 1) : b.length = if ka && kb then 1 else E.s := by
  rcases ha.short h1 with rfl | hs
  · simpa using hb.len
  · have := hb.len
    rw [hs] at this ⊢
    simpa using this

theorem con_and {ka kb : Bool} {ca cb : PowerSeries ℝ} {va vb : ℝ} (ha : ka = true → ca = C va) (hb : kb = true → cb = C vb)
    (hk : (ka && kb) = true) : ca + cb = C (va + vb) ∧ ca - cb = C (va - vb) ∧ ca * cb = C (va * vb) := by
  rw [Bool.and_eq_true] at hk
  rw [ha hk.1, hb hk.2]
  simp

theorem both_spec (hE : E.Ok) {o : Bin} {ka kb : Bool} {ca va p q} {a b : List S} (hl : Sem E ka ca va a) (h1 : a.length ≠ 1)
    (ha : Mem p a) (hb : Mem q b) {c v} (hr : Rep E (ka && kb) c v (fun i => o.real (p i) (q i))) (u r TU TP) :
    Tri (At E u r (popT u [(c, ka && kb)] TU) TP) (both o a b) (fun z st => At E u r (popT u [(c, ka && kb)] TU) TP st ∧
      Sem E (ka && kb) c v z) := by
  have hka : ka = false := by
    have := hl.len
    cases ka
    · rfl
    · exact absurd this h1
  subst hka
  unfold both
  refine Tri.bind_get fun st hst => ?_
  split_ifs
  · intro s _ z s' hz; cases (lift_run hz).1
  · refine ((fill_spec hE hr.low (le_of_eq (by simpa using hl.len)) (fun i z _ hz => elem2_mem ha hb hz) (fun i z _ hz => elem2_mem ha hb hz) u r TU TP).mono
      (fun s hs => by rw [hs]; exact hst) fun z s hz => ⟨hz.1, hr.sem hz.2.2 ?_ (fun h => by simp at h)⟩)
    rw [hz.2.1, hl.len]; rfl

theorem add_spec (hE : E.Ok) {ka kb ca cb va vb} {a b : List S} (ha : Sem E ka ca va a) (hb : Sem E kb cb vb b) :
    Op1 E (ka && kb) (ca + cb) (va + vb) (add a b) := by
  refine Op1.mk hE fun u r TU TP => ?_
  obtain ⟨p, hp, hrp⟩ := ha.rep
  obtain ⟨q, hq, hrq⟩ := hb.rep
  have hr := hrp.add hrq
  have hc : (ka && kb) = true → ca + cb = C (va + vb) := fun h => (con_and ha.con hb.con h).1
  split_ifs with h1 h2
  · refine Tri.lift fun z st hz hst => ⟨hst, ?_⟩
    obtain ⟨a0, ha0, hz⟩ := bind_ok.1 hz
    obtain ⟨hl, hm⟩ := addHead_mem hq (hp.at ha0) hz
    have hlen := len_and ha hb h1
    refine hr.sem (hm.congr fun i hi => ?_) (by rw [hl, hlen]) hc
    by_cases hi0 : i = 0
    · subst hi0; simp [add_comm]
    · rcases ha.short h1 with rfl | hs
      · simp [hi0, hrp.con rfl i (by omega)]
      · rw [hl, hlen, hs] at hi; simp at hi; omega
  · refine Tri.lift fun z st hz hst => ⟨hst, ?_⟩
    obtain ⟨a0, ha0, hz⟩ := bind_ok.1 hz
    obtain ⟨hl, hm⟩ := addHead_mem hp (hq.at ha0) hz
    have hlen := len_and hb ha h2
    refine hr.sem (hm.congr fun i hi => ?_) (by rw [hl, hlen, Bool.and_comm]) hc
    by_cases hi0 : i = 0
    · subst hi0; simp
    · rcases hb.short h2 with rfl | hs
      · simp [hi0, hrq.con rfl i (by omega)]
      · rw [hl, hlen, hs] at hi; simp at hi; omega
  · exact both_spec (kb := kb) hE ha h1 hp hq (o := .add) hr u r TU TP

theorem sub_spec (hE : E.Ok) {ka kb ca cb va vb} {a b : List S} (ha : Sem E ka ca va a) (hb : Sem E kb cb vb b) :
    Op1 E (ka && kb) (ca - cb) (va - vb) (sub a b) := by
  refine Op1.mk hE fun u r TU TP => ?_
  obtain ⟨p, hp, hrp⟩ := ha.rep
  obtain ⟨q, hq, hrq⟩ := hb.rep
  have hr := hrp.sub hrq
  have hc : (ka && kb) = true → ca - cb = C (va - vb) := fun h => (con_and ha.con hb.con h).2.1
  split_ifs with h1 h2
  · refine Tri.lift fun z st hz hst => ⟨hst, ?_⟩
    obtain ⟨nb, hnb, hz⟩ := bind_ok.1 hz
    obtain ⟨a0, ha0, hz⟩ := bind_ok.1 hz
    obtain ⟨hl0, hm0⟩ := negV_mem hq hnb
    obtain ⟨hl, hm⟩ := addHead_mem hm0 (hp.at ha0) hz
    have hlen := len_and ha hb h1
    refine hr.sem (hm.congr fun i hi => ?_) (by rw [hl, hl0, hlen]) hc
    by_cases hi0 : i = 0
    · subst hi0; simp; ring
    · rcases ha.short h1 with rfl | hs
      · simp [hi0, hrp.con rfl i (by omega)]
      · rw [hl, hl0, hlen, hs] at hi; simp at hi; omega
  · refine Tri.lift fun z st hz hst => ⟨hst, ?_⟩
    obtain ⟨a0, ha0, hz⟩ := bind_ok.1 hz
    obtain ⟨hl, hm⟩ := subHead_mem hp (hq.at ha0) hz
    have hlen := len_and hb ha h2
    refine hr.sem (hm.congr fun i hi => ?_) (by rw [hl, hlen, Bool.and_comm]) hc
    by_cases hi0 : i = 0
    · subst hi0; simp; ring
    · rcases hb.short h2 with rfl | hs
      · simp [hi0, hrq.con rfl i (by omega)]
      · rw [hl, hlen, hs] at hi; simp at hi; omega
  · exact both_spec (kb := kb) hE ha h1 hp hq (o := .sub) hr u r TU TP

/-! ### multiplication -/

/-- coefficient of a product -/
def cv (p q : ℕ → ℝ) (n : ℕ) : ℝ := ∑ j ∈ Finset.range (n + 1), p j * q (n - j)

theorem conv_mem {p q : ℕ → ℝ} {a b : List S} (ha : Mem p a) (hb : Mem q b) {i : ℕ} {r : S} (h : conv a b i = .ok r) :
    mem (cv p q i) r :=
  sum_mem (fun _ _ _ hz => prodAt_mem ha hb hz) h

theorem convHigh_mem {p q : ℕ → ℝ} {a b : List S} (ha : Mem p a) (hb : Mem q b) {s i : ℕ} {r : S}
    (h : convHigh a b s i = .ok r) : mem (∑ j ∈ Finset.range (s - i), p (i + j) * q (s - 1 - j)) r :=
  sum_mem (fun _ _ _ hz => prodAt_mem ha hb hz) h

theorem cv_coeff {ca cb : PowerSeries ℝ} {p q : ℕ → ℝ} {n : ℕ} (hp : ∀ i ≤ n, p i = coeff i ca) (hq : ∀ i ≤ n, q i = coeff i cb) :
    cv p q n = coeff n (ca * cb) := by
  rw [PowerSeries.coeff_mul, Finset.Nat.sum_antidiagonal_eq_sum_range_succ_mk, cv]
  refine Finset.sum_congr rfl fun j hj => ?_
  have := Finset.mem_range.1 hj
  rw [hp j (by omega), hq (n - j) (by omega)]

/-- the high coefficients of a product of two polynomials of degree less than `s` -/
theorem cv_high {p q : ℕ → ℝ} {s i : ℕ} (hp : ∀ j, s ≤ j → p j = 0) (hq : ∀ j, s ≤ j → q j = 0) (hi : 1 ≤ i) (his : i ≤ s) :
    cv p q (s - 1 + i) = ∑ j ∈ Finset.range (s - i), p (i + j) * q (s - 1 - j) := by
  unfold cv
  have e : s - 1 + i + 1 = i + (s - i) + i := by omega
  rw [e, Finset.sum_range_add, Finset.sum_range_add]
  have z1 : ∑ j ∈ Finset.range i, p j * q (s - 1 + i - j) = 0 := by
    refine Finset.sum_eq_zero fun j hj => ?_
    have := Finset.mem_range.1 hj
    rw [hq _ (by omega), mul_zero]
  have z2 : ∑ j ∈ Finset.range i, p (i + (s - i) + j) * q (s - 1 + i - (i + (s - i) + j)) = 0 := by
    refine Finset.sum_eq_zero fun j hj => ?_
    rw [hp _ (by omega), zero_mul]
  rw [z1, z2, zero_add, add_zero]
  refine Finset.sum_congr rfl fun j hj => ?_
  rw [show s - 1 + i - (i + j) = s - 1 - j by omega]

theorem sum_mul_poly {p q : ℕ → ℝ} {s : ℕ} (hp : ∀ j, s ≤ j → p j = 0) (hq : ∀ j, s ≤ j → q j = 0) (t : ℝ) :
    (∑ i ∈ Finset.range s, p i * t ^ i) * (∑ i ∈ Finset.range s, q i * t ^ i) =
      ∑ n ∈ Finset.range (2 * s), cv p q n * t ^ n := by
  have hA : ∀ (p : ℕ → ℝ), (∀ j, s ≤ j → p j = 0) →
      ∃ A : Polynomial ℝ, (∀ i, A.coeff i = p i) ∧ A.natDegree ≤ s ∧ A.eval t = ∑ i ∈ Finset.range s, p i * t ^ i := by
    intro p hp
    refine ⟨∑ i ∈ Finset.range s, Polynomial.monomial i (p i), fun i => ?_, ?_, ?_⟩
    · simp only [Polynomial.finsetSum_coeff, Polynomial.coeff_monomial]
      by_cases hi : i < s
      · rw [Finset.sum_eq_single i]
        · simp
        · intro j _ hj; simp [hj]
        · intro h; exact absurd (Finset.mem_range.2 hi) h
      · rw [hp i (by omega)]
        refine Finset.sum_eq_zero fun j hj => ?_
        have := Finset.mem_range.1 hj
        rw [if_neg (by omega)]
    · refine Polynomial.natDegree_sum_le_of_forall_le _ _ fun i hi => ?_
      exact le_trans (Polynomial.natDegree_monomial_le _) (Finset.mem_range.1 hi).le
    · rw [Polynomial.eval_finsetSum]
      exact Finset.sum_congr rfl fun i _ => by rw [Polynomial.eval_monomial]
  obtain ⟨A, a1, a2, a3⟩ := hA p hp
  obtain ⟨B, b1, b2, b3⟩ := hA q hq
  have hdeg : (A * B).natDegree < 2 * s + 1 := by
    have := Polynomial.natDegree_mul_le (p := A) (q := B); omega
  have hc : ∀ n, (A * B).coeff n = cv p q n := by
    intro n
    rw [Polynomial.coeff_mul, Finset.Nat.sum_antidiagonal_eq_sum_range_succ_mk, cv]
    exact Finset.sum_congr rfl fun j _ => by rw [a1, b1]
  rw [← a3, ← b3, ← Polynomial.eval_mul, Polynomial.eval_eq_sum_range' hdeg]
  simp only [hc]
  rw [Finset.sum_range_succ]
  have : cv p q (2 * s) = 0 := by
    refine Finset.sum_eq_zero fun j hj => ?_
    by_cases h : s ≤ j
    · rw [hp j h, zero_mul]
    · rw [hq _ (by omega), mul_zero]
  rw [this, zero_mul, add_zero]

/-- coefficients beyond the size can be put to zero -/
def cut (s : ℕ) (p : ℕ → ℝ) (i : ℕ) : ℝ := if i < s then p i else 0

theorem Rep.cut (hE : E.Ok) {k c v p} (h : Rep E k c v p) : Rep E k c v (cut E.s p) where
  low i hi := by
    have := hE.l_le
    rw [Psa.cut, if_pos (by omega)]; exact h.low i hi
  val hm := by
    rw [h.val hm]
    refine Finset.sum_congr rfl fun i hi => ?_
    rw [Psa.cut, if_pos (Finset.mem_range.1 hi)]
  con hk i hi := by
    unfold Psa.cut; rw [h.con hk i hi]; simp

theorem Mem.cut {s : ℕ} {p : ℕ → ℝ} {x : List S} (h : Mem p x) (hl : x.length ≤ s) : Mem (cut s p) x :=
  h.congr fun i hi => by rw [Psa.cut, if_pos (by omega)]

theorem Sem.len_le (hE : E.Ok) {k c v} {x : List S} (h : Sem E k c v x) : x.length ≤ E.s := by
  rw [h.len]; split_ifs
  · exact hE.s_pos
  · exact le_rfl

theorem Sem.rep0 (hE : E.Ok) {k c v} {x : List S} (h : Sem E k c v x) :
    ∃ p, Mem p x ∧ Rep E k c v p ∧ ∀ i, E.s ≤ i → p i = 0 := by
  obtain ⟨p, h1, h2⟩ := h.rep
  exact ⟨_, h1.cut (h.len_le hE), h2.cut hE, fun i hi => by rw [Psa.cut, if_neg (by omega)]⟩

/-- the representation of a product: in mode 2 the high coefficients go to the last one -/
noncomputable def mulP (E : Env S) (p q : ℕ → ℝ) (i : ℕ) : ℝ :=
  if E.md = 2 ∧ i = E.s - 1 then ∑ j ∈ Finset.range E.s, cv p q (E.s - 1 + j) * E.τ ^ j else cv p q i

theorem Rep.mul (hE : E.Ok) {ka kb ca cb va vb p q} (ha : Rep E ka ca va p) (hb : Rep E kb cb vb q)
    (zp : ∀ i, E.s ≤ i → p i = 0) (zq : ∀ i, E.s ≤ i → q i = 0) (hk : (ka && kb) = false) :
    Rep E (ka && kb) (ca * cb) (va * vb) (mulP E p q) where
  low i hi := by
    have h1 : ¬ (E.md = 2 ∧ i = E.s - 1) := by
      rintro ⟨h2, rfl⟩
      have := (hE.two h2).2.1; omega
    rw [mulP, if_neg h1]
    exact cv_coeff (fun j hj => ha.low j (by omega)) fun j hj => hb.low j (by omega)
  val hm := by
    rw [ha.val hm, hb.val hm, sum_mul_poly zp zq]
    obtain ⟨h2, -, -⟩ := hE.two hm
    rw [show 2 * E.s = (E.s - 1) + (E.s + 1) by omega, Finset.sum_range_add, Finset.sum_range_succ _ E.s]
    have e0 : cv p q (E.s - 1 + E.s) = 0 := by
      refine Finset.sum_eq_zero fun j hj => ?_
      by_cases h : E.s ≤ j
      · rw [zp j h, zero_mul]
      · rw [zq _ (by omega), mul_zero]
    rw [e0, zero_mul, add_zero]
    have e1 : ∑ i ∈ Finset.range E.s, mulP E p q i * E.τ ^ i =
        ∑ i ∈ Finset.range (E.s - 1), mulP E p q i * E.τ ^ i + mulP E p q (E.s - 1) * E.τ ^ (E.s - 1) := by
      rw [← Finset.sum_range_succ, show E.s - 1 + 1 = E.s by omega]
    rw [e1]
    congr 1
    · refine Finset.sum_congr rfl fun i hi => ?_
      have := Finset.mem_range.1 hi
      rw [mulP, if_neg (by omega)]
    · rw [mulP, if_pos ⟨hm, rfl⟩, Finset.sum_mul]
      exact Finset.sum_congr rfl fun i hi => by rw [pow_add]; ring
  con h := by rw [hk] at h; cases h

theorem fold_mem (hE : E.Ok) (h2 : E.md = 2) {p q : ℕ → ℝ} {a b z r : List S} (la : a.length = E.s) (lz : z.length = E.s)
    (ha : Mem p a) (hb : Mem q b) (zp : ∀ i, E.s ≤ i → p i = 0) (zq : ∀ i, E.s ≤ i → q i = 0) (hz : Mem (cv p q) z)
    (h : fold E.d a b z = .ok r) : r.length = E.s ∧ Mem (mulP E p q) r := by
  obtain ⟨hs2, hls, hτ, -⟩ := hE.two h2
  unfold fold at h
  rw [la] at h
  obtain ⟨last, hlast, h⟩ := bind_ok.1 h
  obtain ⟨hi, hhi, h⟩ := bind_ok.1 h
  obtain ⟨P, hP, h⟩ := bind_ok.1 h
  cases h
  have hm : Mem (fun j => cv p q (E.s - 1 + j)) (last :: hi) := by
    rw [Mem.cons]
    refine ⟨hz.at hlast, tab_all hhi fun i z hin hz => ?_⟩
    have := convHigh_mem ha hb hz
    rwa [← cv_high zp zq (by omega) (by omega)] at this
  have hPm := polyrange_mem hτ hm hP
  rw [List.length_cons, (tab_ok hhi).1, show E.s - 1 + 1 = E.s by omega] at hPm
  refine ⟨by simp [lz]; omega, fun i x hi => ?_⟩
  rcases lt_trichotomy i (E.s - 1) with hlt | heq | hgt
  · rw [List.getElem?_append_left (by simp [lz]; omega), List.getElem?_take, if_pos hlt] at hi
    rw [mulP, if_neg (by omega)]
    exact hz i x hi
  · rw [List.getElem?_append_right (by simp [lz]; omega)] at hi
    have : i - (List.take (E.s - 1) z).length = 0 := by simp [lz]; omega
    rw [this] at hi
    simp at hi; subst hi
    rw [mulP, if_pos ⟨h2, heq⟩]
    exact hPm
  · rw [List.getElem?_eq_none (by simp [lz]; omega)] at hi; cases hi

/-- element of a product with a list of one element -/
theorem cv_left {p q : ℕ → ℝ} (hp : ∀ j, 1 ≤ j → p j = 0) (i : ℕ) : cv p q i = p 0 * q i := by
  unfold cv
  rw [Finset.sum_eq_single 0]
  · simp
  · intro j _ hj; rw [hp j (by omega), zero_mul]
  · intro h; simp at h

theorem cv_right {p q : ℕ → ℝ} (hq : ∀ j, 1 ≤ j → q j = 0) (i : ℕ) : cv p q i = p i * q 0 := by
  unfold cv
  rw [Finset.sum_eq_single i]
  · simp
  · intro j hj hji
    have := Finset.mem_range.1 hj
    rw [hq _ (by omega), mul_zero]
  · intro h; simp at h

theorem mul_spec (hE : E.Ok) {ka kb ca cb va vb} {a b : List S} (ha : Sem E ka ca va a) (hb : Sem E kb cb vb b) :
    Op1 E (ka && kb) (ca * cb) (va * vb) (mul a b) := by
  refine Op1.mk hE fun u r TU TP => ?_
  have hc : (ka && kb) = true → ca * cb = C (va * vb) := fun h => (con_and ha.con hb.con h).2.2
  split_ifs with h1 h2
  · obtain ⟨p, hp, hrp, zp⟩ := ha.rep0 hE
    obtain ⟨q, hq, hrq, zq⟩ := hb.rep0 hE
    have hlen := len_and ha hb h1
    rcases ha.short h1 with hk | hs
    · have hr : Rep E (ka && kb) (ca * cb) (va * vb) (fun i => p 0 * q i) := by
        have h0 : p 0 = va := by
          rw [hrp.low 0 hE.l_pos, ha.con hk]; simp
        have := hrq.smul (p 0)
        rw [h0] at this ⊢
        rw [ha.con hk, hk]; simpa using this
      refine (fill_spec hE (p := fun i => p 0 * q i) hr.low (hb.len_le hE) (fun i z _ hz => prodAt_mem hp hq hz)
        (fun i z _ hz => prodAt_mem hp hq hz) u r TU TP).post fun z st hz => ⟨hz.1, ?_⟩
      exact hr.sem hz.2.2 (by rw [hz.2.1, hlen]) hc
    · have h1m : E.md ≠ 2 := fun h => by have := (hE.two h).1; omega
      have hr : Rep E (ka && kb) (ca * cb) (va * vb) (fun i => p 0 * q i) := by
        refine ⟨fun i hi => ?_, fun h => absurd h h1m, fun hk i hi => ?_⟩
        · have := hE.l_le
          have hi0 : i = 0 := by omega
          subst hi0
          rw [hrp.low 0 hi, hrq.low 0 hi]; simp
        · show p 0 * q i = 0
          rw [zq i (by omega), mul_zero]
      refine (fill_spec hE (p := fun i => p 0 * q i) hr.low (hb.len_le hE) (fun i z _ hz => prodAt_mem hp hq hz)
        (fun i z _ hz => prodAt_mem hp hq hz) u r TU TP).post fun z st hz => ⟨hz.1, ?_⟩
      exact hr.sem hz.2.2 (by rw [hz.2.1, hlen]) hc
  · obtain ⟨p, hp, hrp, zp⟩ := ha.rep0 hE
    obtain ⟨q, hq, hrq, zq⟩ := hb.rep0 hE
    have hlen := len_and hb ha h2
    have hs1 : E.s ≠ 1 := by
      intro h
      have := ha.len_le hE
      have := ha.pos hE
      omega
    have hk : kb = true := (hb.short h2).resolve_right hs1
    have hr : Rep E (ka && kb) (ca * cb) (va * vb) (fun i => p i * q 0) := by
      have h0 : q 0 = vb := by
        rw [hrq.low 0 hE.l_pos, hb.con hk]; simp
      have := hrp.smul (q 0)
      rw [h0] at this ⊢
      rw [hb.con hk, hk, mul_comm ca, mul_comm va]
      simpa [mul_comm] using this
    refine (fill_spec hE (p := fun i => p i * q 0) hr.low (ha.len_le hE) (fun i z _ hz => prodAt_mem hp hq hz)
      (fun i z _ hz => prodAt_mem hp hq hz) u r TU TP).post fun z st hz => ⟨hz.1, ?_⟩
    exact hr.sem hz.2.2 (by rw [hz.2.1, hlen, Bool.and_comm]) hc
  · obtain ⟨p, hp, hrp, zp⟩ := ha.rep0 hE
    obtain ⟨q, hq, hrq, zq⟩ := hb.rep0 hE
    have hka : ka = false := by
      have := ha.len
      cases ka
      · rfl
      · exact absurd this h1
    have hk : (ka && kb) = false := by rw [hka]; rfl
    have la : a.length = E.s := by rw [ha.len, hka]; rfl
    have hr := hrp.mul hE hrq zp zq hk
    have hcv : ∀ i < E.l, cv p q i = coeff i (ca * cb) := fun i hi =>
      cv_coeff (fun j hj => hrp.low j (by omega)) fun j hj => hrq.low j (by omega)
    refine (fill_spec hE (k := ka && kb) hcv (ha.len_le hE) (fun i z _ hz => conv_mem hp hq hz) (fun i z _ hz => conv_mem hp hq hz) u r TU TP).bind fun z => ?_
    refine Tri.pure_pre fun hz => Tri.bind_get fun st hst => ?_
    rw [hst.mode, hst.domain]
    split_ifs with hm
    · refine Tri.lift fun w s hw hs => ⟨by rw [hs]; exact hst, ?_⟩
      obtain ⟨hl, hmem⟩ := fold_mem hE hm la (by rw [hz.1, la]) hp hq zp zq hz.2 hw
      exact hr.sem hmem (by rw [hl, hk]; rfl) hc
    · refine Tri.pure fun s hs => ⟨by rw [hs]; exact hst, ?_⟩
      refine hr.sem (hz.2.congr fun i _ => ?_) (by rw [hz.1, la, hk]; rfl) hc
      rw [mulP, if_neg (fun h => hm h.1)]

/-! ### scalars -/

theorem smul_con {k : Bool} {c : PowerSeries ℝ} {v γ : ℝ} (h : k = true → c = C v) (hk : k = true) : C γ * c = C (γ * v) := by
  rw [h hk]; simp

theorem mulC_spec (hE : E.Ok) {k c v} {a : List S} (ha : Sem E k c v a) {x : D} {γ : ℝ} (hx : Is x γ) :
    Op1 E k (C γ * c) (γ * v) (mulC a x) := by
  refine Op1.mk hE fun u r TU TP => ?_
  obtain ⟨p, hp, hrp⟩ := ha.rep
  have hr := hrp.smul γ
  refine (fill_spec hE hr.low (ha.len_le hE) (fun i z _ hz => ?_) (fun i z _ hz => ?_) u r TU TP).post fun z st hz => ⟨hz.1, ?_⟩
  · obtain ⟨w, hw, hz⟩ := bind_ok.1 hz
    have := (bin_mem hz (hp.at hw) (ofC_mem hx)).2
    rw [mul_comm]; exact this
  · obtain ⟨w, hw, hz⟩ := bind_ok.1 hz
    have := (binC_mem hz (hp.at hw) hx).2
    rw [mul_comm]; exact this
  · exact hr.sem hz.2.2 (by rw [hz.2.1, ha.len]) (smul_con ha.con)

theorem cMul_spec (hE : E.Ok) {k c v} {a : List S} (ha : Sem E k c v a) {x : D} {γ : ℝ} (hx : Is x γ) :
    Op1 E k (C γ * c) (γ * v) (cMul x a) := by
  refine Op1.mk hE fun u r TU TP => ?_
  obtain ⟨p, hp, hrp⟩ := ha.rep
  have hr := hrp.smul γ
  refine (fill_spec hE hr.low (ha.len_le hE) (fun i z _ hz => ?_) (fun i z _ hz => ?_) u r TU TP).post fun z st hz => ⟨hz.1, ?_⟩
  · obtain ⟨w, hw, hz⟩ := bind_ok.1 hz
    exact (bin_mem hz (ofC_mem hx) (hp.at hw)).2
  · obtain ⟨w, hw, hz⟩ := bind_ok.1 hz
    exact (cBin_mem hz (hp.at hw) hx).2
  · exact hr.sem hz.2.2 (by rw [hz.2.1, ha.len]) (smul_con ha.con)

theorem sMul_spec (hE : E.Ok) {k c v} {a : List S} (ha : Sem E k c v a) {x : S} {γ : ℝ} (hx : mem γ x) :
    Op1 E k (C γ * c) (γ * v) (sMul x a) := by
  refine Op1.mk hE fun u r TU TP => ?_
  obtain ⟨p, hp, hrp⟩ := ha.rep
  have hr := hrp.smul γ
  refine (fill_spec hE hr.low (ha.len_le hE) (fun i z _ hz => ?_) (fun i z _ hz => ?_) u r TU TP).post fun z st hz => ⟨hz.1, ?_⟩
  · obtain ⟨w, hw, hz⟩ := bind_ok.1 hz
    exact (bin_mem hz hx (hp.at hw)).2
  · obtain ⟨w, hw, hz⟩ := bind_ok.1 hz
    exact (bin_mem hz hx (hp.at hw)).2
  · exact hr.sem hz.2.2 (by rw [hz.2.1, ha.len]) (smul_con ha.con)

/-! operations that do not touch the history -/

theorem neg_sem {k c v} {a r : List S} (ha : Sem E k c v a) (h : negV a = .ok r) : Sem E k (-c) (-v) r := by
  obtain ⟨p, hp, hrp⟩ := ha.rep
  obtain ⟨hl, hm⟩ := negV_mem hp h
  exact hrp.neg.sem hm (by rw [hl, ha.len]) fun hk => by rw [ha.con hk]; simp

theorem divV_sem {k c v} {a r : List S} {x : S} {γ : ℝ} (ha : Sem E k c v a) (hx : mem γ x) (h : divV a x = .ok r) :
    Sem E k (C γ⁻¹ * c) (γ⁻¹ * v) r := by
  obtain ⟨p, hp, hrp⟩ := ha.rep
  obtain ⟨hl, hm⟩ := divV_mem hp hx h
  exact (hrp.smul γ⁻¹).sem (hm.congr fun i _ => by rw [div_eq_mul_inv, mul_comm]) (by rw [hl, ha.len]) (smul_con ha.con)

/-- a constant added to the first coefficient -/
theorem Rep.head (hE : E.Ok) {k c v p} (γ : ℝ) (h : Rep E k c v p) : Rep E k (c + C γ) (v + γ) (fun i => if i = 0 then p 0 + γ else p i) := by
  have := h.add (rep_const hE γ)
  rw [Bool.and_true] at this
  have e : (fun i => p i + if i = 0 then γ else 0) = fun i => if i = 0 then p 0 + γ else p i := by
    funext i; by_cases hi : i = 0 <;> simp [hi]
  rwa [e] at this

theorem addHead_sem (hE : E.Ok) {k c v} {a r : List S} {x : S} {γ : ℝ} (ha : Sem E k c v a) (hx : mem γ x)
    (h : addHead a x = .ok r) : Sem E k (c + C γ) (v + γ) r := by
  obtain ⟨p, hp, hrp⟩ := ha.rep
  obtain ⟨hl, hm⟩ := addHead_mem hp hx h
  exact (hrp.head hE γ).sem hm (by rw [hl, ha.len]) fun hk => by rw [ha.con hk]; simp

theorem addHeadC_sem (hE : E.Ok) {k c v} {a r : List S} {x : D} {γ : ℝ} (ha : Sem E k c v a) (hx : Is x γ)
    (h : addHeadC a x = .ok r) : Sem E k (c + C γ) (v + γ) r := by
  obtain ⟨p, hp, hrp⟩ := ha.rep
  obtain ⟨hl, hm⟩ := addHeadC_mem hp hx h
  exact (hrp.head hE γ).sem hm (by rw [hl, ha.len]) fun hk => by rw [ha.con hk]; simp

theorem subHeadC_sem (hE : E.Ok) {k c v} {a r : List S} {x : D} {γ : ℝ} (ha : Sem E k c v a) (hx : Is x γ)
    (h : subHeadC a x = .ok r) : Sem E k (c - C γ) (v - γ) r := by
  obtain ⟨p, hp, hrp⟩ := ha.rep
  obtain ⟨hl, hm⟩ := subHeadC_mem hp hx h
  have := (hrp.head hE (-γ)).sem hm (by rw [hl, ha.len]) fun hk => by rw [ha.con hk]; simp
  simpa [sub_eq_add_neg] using this

end Psa
end Kv
