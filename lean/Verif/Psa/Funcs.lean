import Verif.Psa.Taylor
import Verif.Analysis.Taylor

/-! # Power series arithmetic: the elementary functions -/

namespace Kv
open RopSem
open Rop (lit)

namespace Psa
open PM ScalSem PowerSeries
open scoped Nat
set_option linter.unusedSectionVars false

variable {S : Type} [ScalSem S] {E : Env S}

/-! ## composition of specifications -/

theorem OpT.bind {T1 T2 : ℕ → List (PowerSeries ℝ × Bool)} {k1 k2 : Bool} {c1 c2 : PowerSeries ℝ} {v1 v2 : ℝ} {X1 X2 : Prop}
    {m : PM S (List S)} {f : List S → PM S (List S)} (h1 : OpT E T1 k1 c1 v1 X1 m)
    (h2 : ∀ z, Sem E k1 c1 v1 z → X1 → OpT E T2 k2 c2 v2 X2 (f z)) :
    OpT E (fun n => T1 n ++ T2 n) k2 c2 v2 X2 (m >>= f) := by
  intro u r TU TP
  rw [popT_append, pushT_append]
  exact (h1 u r _ TP).bind fun z => Tri.pure_pre fun hz => h2 z hz.1 hz.2 u r TU _

theorem OpT.bind_lift {T : ℕ → List (PowerSeries ℝ × Bool)} {k : Bool} {c : PowerSeries ℝ} {v : ℝ} {X : Prop} {α : Type}
    {m : Res α} {f : α → PM S (List S)} (h : ∀ z, m = .ok z → OpT E T k c v X (f z)) : OpT E T k c v X (PM.lift m >>= f) :=
  fun u r TU TP => Tri.bind_lift fun z hz => h z hz u r TU TP

theorem OpT.lift {k : Bool} {c : PowerSeries ℝ} {v : ℝ} {X : Prop}
    {m : Res (List S)} (h : ∀ z, m = .ok z → Sem E k c v z ∧ X) : OpT E (fun _ => []) k c v X (PM.lift m) := by
  intro u r TU TP
  rw [popT_nil, pushT_nil]
  exact Tri.lift fun a st ha hst => ⟨hst, h a ha⟩

theorem OpT.pure {k : Bool} {c : PowerSeries ℝ} {v : ℝ} {X : Prop} {z : List S} (h : Sem E k c v z) (hX : X) :
    OpT E (fun _ => []) k c v X (Pure.pure z : PM S (List S)) := by
  intro u r TU TP
  rw [popT_nil, pushT_nil]
  exact Tri.pure fun st hst => ⟨hst, h, hX⟩

theorem Op1.opT {k : Bool} {c : PowerSeries ℝ} {v : ℝ} {m : PM S (List S)} (h : Op1 E k c v m) :
    OpT E (fun _ => [(c, k)]) k c v True m :=
  fun u r TU TP => (h u r TU TP).post fun _ _ hz => ⟨hz.1, hz.2, trivial⟩

theorem OpT.imp {T : ℕ → List (PowerSeries ℝ × Bool)} {k : Bool} {c : PowerSeries ℝ} {v : ℝ} {X Y : Prop} {m : PM S (List S)}
    (h : OpT E T k c v X m) (hXY : X → Y) : OpT E T k c v Y m :=
  fun u r TU TP => (h u r TU TP).post fun _ _ hz => ⟨hz.1, hz.2.1, hXY hz.2.2⟩

/-- a fact established before the call is kept -/
theorem OpT.and {T : ℕ → List (PowerSeries ℝ × Bool)} {k : Bool} {c : PowerSeries ℝ} {v : ℝ} {X Y : Prop} {m : PM S (List S)}
    (h : OpT E T k c v X m) (hY : Y) : OpT E T k c v (X ∧ Y) m := h.imp fun hX => ⟨hX, hY⟩

theorem OpT.congr {T T' : ℕ → List (PowerSeries ℝ × Bool)} {k k' : Bool} {c c' : PowerSeries ℝ} {v v' : ℝ} {X : Prop}
    {m : PM S (List S)} (h : OpT E T k c v X m) (hT : T = T') (hk : k = k') (hc : c = c') (hv : v = v') :
    OpT E T' k' c' v' X m := by
  subst hT hk hc hv; exact h

/-- the value matters only in mode 2 -/
theorem OpT.value {T : ℕ → List (PowerSeries ℝ × Bool)} {k : Bool} {c : PowerSeries ℝ} {v v' : ℝ} {X : Prop} {m : PM S (List S)}
    (h : OpT E T k c v X m) (hv : X → (E.md = 2 ∨ k = true → v = v')) : OpT E T k c v' X m :=
  fun u r TU TP => (h u r TU TP).post fun _ _ hz => ⟨hz.1, hz.2.1.congr (fun _ _ => rfl) (fun h => hv hz.2.2 (Or.inl h))
    (fun hk => by rw [← hv hz.2.2 (Or.inr hk)]; exact hz.2.1.con hk), hz.2.2⟩

/-- a failing computation meets every specification -/
theorem OpT.dead {T : ℕ → List (PowerSeries ℝ × Bool)} {k : Bool} {c : PowerSeries ℝ} {v : ℝ} {X : Prop} {m : PM S (List S)}
    (h : ∀ st z st', m st ≠ (.ok z, st')) : OpT E T k c v X m :=
  fun _ _ _ _ st _ z st' hz => absurd hz (h st z st')

/-- a computation that does not touch the history -/
theorem OpT.bind_pre {T : ℕ → List (PowerSeries ℝ × Bool)} {k : Bool} {c : PowerSeries ℝ} {v : ℝ} {X : Prop} {α : Type} {Q : α → Prop}
    {m : PM S α} {f : α → PM S (List S)} (h : ∀ u r TU TP, Tri (At E u r TU TP) m (fun z st => At E u r TU TP st ∧ Q z))
    (h' : ∀ z, Q z → OpT E T k c v X (f z)) : OpT E T k c v X (m >>= f) :=
  fun u r TU TP => (h u r _ TP).bind fun z => Tri.pure_pre fun hz => h' z hz u r TU TP

theorem OpT.bind_get {T : ℕ → List (PowerSeries ℝ × Bool)} {k : Bool} {c : PowerSeries ℝ} {v : ℝ} {X : Prop}
    {f : PSt S → PM S (List S)} (h : ∀ st, st.mode = E.md → OpT E T k c v X (f st)) : OpT E T k c v X (PM.get >>= f) := by
  intro u r TU TP
  exact Tri.bind_get fun st hst => Tri.pre (h st hst.mode u r TU TP) (by rintro _ rfl; exact hst)

/-! ## ranges -/

theorem Sem.head (hE : E.Ok) {k c v} {x : List S} (hx : Sem E k c v x) {a : S} (ha : at' x 0 = .ok a) : mem (coeff 0 c) a := by
  obtain ⟨p, hp, hr⟩ := hx.rep
  rw [← hr.low 0 hE.l_pos]
  exact hp.at ha

theorem Sem.con0 {k c v} {x : List S} (hx : Sem E k c v x) (hk : k = true) : coeff 0 c = v := by
  rw [hx.con hk]; simp

/-- `evalrange` contains everything between the constant term and the value -/
theorem evalrange_spec (hE : E.Ok) (h2 : E.md = 2) {k : Bool} {c : PowerSeries ℝ} {v : ℝ} {x : List S} (hx : Sem E k c v x)
    (u r : Bool) (TU TP) :
    Tri (At E u r TU TP) (evalrange x) (fun s st => At E u r TU TP st ∧ ∀ ξ ∈ Set.uIcc (coeff 0 c) v, mem ξ s) := by
  intro st hst z st' hz
  unfold evalrange at hz
  rw [get_bind, hst.domain] at hz
  obtain ⟨hp', rfl⟩ := lift_run hz
  refine ⟨hst, fun ξ hξ => ?_⟩
  obtain ⟨hs2, hls, hτ, h0, hC⟩ := hE.two h2
  obtain ⟨p, hp, hr⟩ := hx.rep
  refine hC z _ _ ξ ?_ ?_ hξ
  · have := polyrange_mem h0 hp hp'
    rw [← hr.low 0 hE.l_pos]
    convert this using 1
    have := hx.pos hE
    rw [Finset.sum_eq_single 0]
    · simp
    · intro i _ hi; simp [hi]
    · intro h; exact absurd (Finset.mem_range.2 (by omega)) h
  · have := polyrange_mem hτ hp hp'
    convert this using 1
    rw [hr.val h2]
    have hl := hx.len
    cases k with
    | false => simp at hl; rw [hl]
    | true =>
      simp at hl
      rw [hl]
      refine (Finset.sum_subset (Finset.range_mono hE.s_pos) fun i _ hi => ?_).symm
      rw [hr.con rfl i (by simp at hi; omega), zero_mul]

theorem range_spec (hE : E.Ok) {k : Bool} {c : PowerSeries ℝ} {v : ℝ} {x : List S} (hx : Sem E k c v x) {md : ℤ} (hm : md = E.md)
    (u r : Bool) (TU TP) : Tri (At E u r TU TP) (if md = 2 then evalrange x else Pure.pure zero : PM S S)
      (fun s st => At E u r TU TP st ∧ (E.md = 2 → ∀ ξ ∈ Set.uIcc (coeff 0 c) v, mem ξ s)) := by
  subst hm
  split_ifs with h2
  · exact (evalrange_spec hE h2 hx u r TU TP).post fun _ _ h => ⟨h.1, fun _ => h.2⟩
  · exact Tri.pure fun st hst => ⟨hst, fun h => absurd h h2⟩

/-! ## Taylor's theorem in the form used by the loop -/

/-- coefficients from derivatives -/
noncomputable def tcf (F : ℕ → ℝ → ℝ) (c0 : ℝ) (i : ℕ) : ℝ := F i c0 / i !

theorem lagrange' {F : ℕ → ℝ → ℝ} {c v : ℝ} (h : ∀ k, ∀ t ∈ Set.uIcc c v, HasDerivAt (F k) (F (k + 1) t) t) (n : ℕ) :
    ∃ ξ ∈ Set.uIcc c v, F 0 v = ∑ i ∈ Finset.range n, tcf F c i * (v - c) ^ i + tcf F ξ n * (v - c) ^ n := by
  obtain ⟨ξ, hξ, e⟩ := lagrange h n
  refine ⟨ξ, hξ, ?_⟩
  rw [e]
  unfold tcf
  congr 1
  · exact Finset.sum_congr rfl fun i _ => by ring
  · ring

/-! ## exp, sin, cos, sinh, cosh -/

theorem is_nat (hE : E.Ok) {i : ℕ} (hi : i < E.s) : Is (lit (i : ℚ) : D) i := by
  have := hE.small
  have := Interval.is_cst (i : ℤ) 0 (by rw [Nat.abs_cast]; exact_mod_cast (show i < 2 ^ 53 by omega)) (by norm_num) (by norm_num)
    (q := (i : ℚ)) (by simp)
  simpa using this

theorem fact_spec (hE : E.Ok) {k : Bool} {c : PowerSeries ℝ} {v : ℝ} {x : List S} (hx : Sem E k c v x)
    {F : ℕ → ℝ → ℝ} (hF : ∀ k t, HasDerivAt (F k) (F (k + 1) t) t) {t0 : S} {table : ℕ → S} {tmp : ℕ → S → Res S}
    (h0 : mem (F 0 (coeff 0 c)) t0) (ht : ∀ i, mem (F i (coeff 0 c)) (table i))
    (htmp : ∀ i s z ξ, tmp i s = .ok z → mem ξ s → mem (F i ξ) z) :
    OpT E (trT (tcf F (coeff 0 c)) (c - C (coeff 0 c)) k (comp (tcf F (coeff 0 c)) (c - C (coeff 0 c)))) k
      (comp (tcf F (coeff 0 c)) (c - C (coeff 0 c))) (F 0 v) True
      (taylor x (.ok (center x)) t0 one (factStep table) (factLast x tmp)) := by
  refine (taylor_spec hE hx (κ := 1) (g := v - coeff 0 c) (Kinv := fun i f => mem (1 / i ! : ℝ) f) (Extra := True) one_ne_zero (by simp)
    (by simp) (fun hk => ⟨rfl, ?_, ?_, ?_⟩) ?_ ?_ ?_).imp fun _ => trivial
  · rintro hl ⟨⟩
    subst hk
    exact center_sem hE hx
  · intro i f f' z hi hf hz
    unfold factStep at hz
    obtain ⟨g, hg, hz⟩ := bind_ok.1 hz
    obtain ⟨y, hy, hz⟩ := bind_ok.1 hz
    cases hz
    have h1 := (binC_mem hg hf (is_nat hE hi)).2
    have e : Bin.div.real (1 / (i ! : ℝ)) ((i + 1 : ℕ) : ℝ) = 1 / ((i + 1)! : ℝ) := by
      simp only [Bin.real, Nat.factorial_succ]; push_cast; field_simp
    rw [e] at h1
    refine ⟨h1, ?_⟩
    have h2 := (bin_mem hy h1 (ht (i + 1))).2
    simp only [Bin.real] at h2
    rw [tcf, div_eq_mul_one_div, mul_comm]; exact h2
  · intro h2 f hf u r TU TP
    unfold factLast
    refine Tri.bind_lift fun g hg => ?_
    have hs2 := (hE.two h2).1
    have h1 := (binC_mem hg hf (is_nat hE (show E.s - 1 < E.s by omega))).2
    have e : Bin.div.real (1 / ((E.s - 2)! : ℝ)) ((E.s - 1 : ℕ) : ℝ) = 1 / ((E.s - 1)! : ℝ) := by
      rw [show E.s - 1 = (E.s - 2) + 1 by omega]
      simp only [Bin.real, Nat.factorial_succ]; push_cast; field_simp
    rw [e] at h1
    refine (evalrange_spec hE h2 hx u r TU TP).bind fun s => Tri.pure_pre fun hs => ?_
    refine Tri.bind_lift fun t htt => Tri.lift fun z st hz hst => ⟨hst, ?_⟩
    obtain ⟨ξ, hξ, e⟩ := lagrange' (fun k t _ => hF k t) (E.s - 1) (c := coeff 0 c) (v := v)
    refine ⟨tcf F ξ (E.s - 1), ?_, e, trivial⟩
    have h3 := (bin_mem hz h1 (htmp _ _ _ ξ htt (hs ξ hξ))).2
    simp only [Bin.real] at h3
    rw [tcf, div_eq_mul_one_div, mul_comm]; exact h3
  · intro hk
    simp only [tcf, Nat.factorial_zero, Nat.cast_one, div_one]
    rw [hx.con0 hk]
  · simpa [tcf] using h0
  · intro _
    simpa using one_mem

/-- derivatives of the functions -/
noncomputable def expD (_ : ℕ) : ℝ → ℝ := Real.exp
noncomputable def cosD (k : ℕ) : ℝ → ℝ := sinD (k + 1)
noncomputable def coshD (k : ℕ) : ℝ → ℝ := sinhD (k + 1)

/-- the series of `f(x)` from the derivatives of `f` -/
noncomputable def cps (F : ℕ → ℝ → ℝ) (c : PowerSeries ℝ) : PowerSeries ℝ := comp (tcf F (coeff 0 c)) (c - C (coeff 0 c))
/-- recorded results -/
noncomputable def ctr (F : ℕ → ℝ → ℝ) (c : PowerSeries ℝ) (k : Bool) : ℕ → List (PowerSeries ℝ × Bool) :=
  trT (tcf F (coeff 0 c)) (c - C (coeff 0 c)) k (cps F c)

theorem exp_spec (hE : E.Ok) {k : Bool} {c : PowerSeries ℝ} {v : ℝ} {x : List S} (hx : Sem E k c v x) :
    OpT E (ctr expD c k) k (cps expD c) (Real.exp v) True (exp x) := by
  unfold exp
  refine OpT.bind_lift fun a ha => OpT.bind_lift fun ea hea => ?_
  have h0 := hx.head hE ha
  have he : mem (Real.exp (coeff 0 c)) ea := un_mem (f := .exp) hea h0 trivial
  exact fact_spec hE hx (F := expD) (fun _ t => Real.hasDerivAt_exp t) he (fun _ => he)
    (fun i s z ξ hz hξ => un_mem (f := .exp) hz hξ trivial)

theorem pick4_mem {P : ℕ → S → Prop} {a b c d : S} (h0 : ∀ i, i % 4 = 0 → P i a) (h1 : ∀ i, i % 4 = 1 → P i b)
    (h2 : ∀ i, i % 4 = 2 → P i c) (h3 : ∀ i, i % 4 = 3 → P i d) (i : ℕ) : P i (pick4 i a b c d) := by
  unfold pick4
  split_ifs with g0 g1 g2
  · exact h0 i g0
  · exact h1 i g1
  · exact h2 i g2
  · exact h3 i (by omega)

theorem sin_spec (hE : E.Ok) {k : Bool} {c : PowerSeries ℝ} {v : ℝ} {x : List S} (hx : Sem E k c v x) :
    OpT E (ctr sinD c k) k (cps sinD c) (Real.sin v) True (sin x) := by
  unfold sin
  refine OpT.bind_lift fun a ha => OpT.bind_lift fun t0 h0 => OpT.bind_lift fun t1 h1 => OpT.bind_lift fun t2 h2 =>
    OpT.bind_lift fun t3 h3 => ?_
  have hc := hx.head hE ha
  have m0 := un_mem (f := .sin) h0 hc trivial
  have m1 := un_mem (f := .cos) h1 hc trivial
  have m2 := un_mem (f := .neg) h2 m0 trivial
  have m3 := un_mem (f := .neg) h3 m1 trivial
  refine fact_spec hE hx (F := sinD) (fun k t => sinD_hasDeriv k t) m0 (fun i => ?_) (fun i s z ξ hz hξ => ?_)
  · refine pick4_mem (P := fun i s => mem (sinD i (coeff 0 c)) s) ?_ ?_ ?_ ?_ i <;> intro i hi <;> simp only [sinD, hi] <;> assumption
  · unfold pick4 at hz
    split_ifs at hz with g0 g1 g2
    · simp only [sinD, g0]; exact un_mem (f := .sin) hz hξ trivial
    · simp only [sinD, g1]; exact un_mem (f := .cos) hz hξ trivial
    · obtain ⟨y, hy, hz⟩ := bind_ok.1 hz
      simp only [sinD, g2]; exact un_mem (f := .neg) hz (un_mem (f := .sin) hy hξ trivial) trivial
    · obtain ⟨y, hy, hz⟩ := bind_ok.1 hz
      have g3 : i % 4 = 3 := by omega
      simp only [sinD, g3]; exact un_mem (f := .neg) hz (un_mem (f := .cos) hy hξ trivial) trivial

theorem cos_spec (hE : E.Ok) {k : Bool} {c : PowerSeries ℝ} {v : ℝ} {x : List S} (hx : Sem E k c v x) :
    OpT E (ctr cosD c k) k (cps cosD c) (Real.cos v) True (cos x) := by
  unfold cos
  refine OpT.bind_lift fun a ha => OpT.bind_lift fun t0 h0 => OpT.bind_lift fun t1 h1 => OpT.bind_lift fun t2 h2 =>
    OpT.bind_lift fun t3 h3 => ?_
  obtain ⟨t1', h1', h1⟩ := bind_ok.1 h1
  have hc := hx.head hE ha
  have m0 := un_mem (f := .cos) h0 hc trivial
  have m1 := un_mem (f := .neg) h1 (un_mem (f := .sin) h1' hc trivial) trivial
  have m2 := un_mem (f := .neg) h2 m0 trivial
  have m3 := un_mem (f := .neg) h3 m1 trivial
  have e0 : ∀ i t, i % 4 = 0 → cosD i t = Real.cos t := fun i t h => by
    have h' : (i + 1) % 4 = 1 := by omega
    simp only [cosD, sinD, h']
  have e1 : ∀ i t, i % 4 = 1 → cosD i t = -Real.sin t := fun i t h => by
    have h' : (i + 1) % 4 = 2 := by omega
    simp only [cosD, sinD, h']
  have e2 : ∀ i t, i % 4 = 2 → cosD i t = -Real.cos t := fun i t h => by
    have h' : (i + 1) % 4 = 3 := by omega
    simp only [cosD, sinD, h']
  have e3 : ∀ i t, i % 4 = 3 → cosD i t = Real.sin t := fun i t h => by
    have h' : (i + 1) % 4 = 0 := by omega
    simp only [cosD, sinD, h']
  refine (fact_spec hE hx (F := cosD) (fun k t => sinD_hasDeriv (k + 1) t) (t0 := t0) (by rw [e0 0 _ rfl]; exact m0) (fun i => ?_)
    (fun i s z ξ hz hξ => ?_)).congr rfl rfl rfl (e0 0 v rfl)
  · refine pick4_mem (P := fun i s => mem (cosD i (coeff 0 c)) s) ?_ ?_ ?_ ?_ i <;> intro i hi
    · rw [e0 _ _ hi]; exact m0
    · rw [e1 _ _ hi]; exact m1
    · rw [e2 _ _ hi]; exact m2
    · rw [e3 _ _ hi]; simpa [Un.real] using m3
  · unfold pick4 at hz
    split_ifs at hz with g0 g1 g2
    · rw [e0 _ _ g0]; exact un_mem (f := .cos) hz hξ trivial
    · obtain ⟨y, hy, hz⟩ := bind_ok.1 hz
      rw [e1 _ _ g1]; exact un_mem (f := .neg) hz (un_mem (f := .sin) hy hξ trivial) trivial
    · obtain ⟨y, hy, hz⟩ := bind_ok.1 hz
      rw [e2 _ _ g2]; exact un_mem (f := .neg) hz (un_mem (f := .cos) hy hξ trivial) trivial
    · rw [e3 _ _ (by omega)]; exact un_mem (f := .sin) hz hξ trivial

theorem sinhD_even (i : ℕ) (t : ℝ) (h : i % 2 = 0) : sinhD i t = Real.sinh t := by simp [sinhD, h]
theorem sinhD_odd (i : ℕ) (t : ℝ) (h : i % 2 = 1) : sinhD i t = Real.cosh t := by simp [sinhD, h]

theorem sinh_spec (hE : E.Ok) {k : Bool} {c : PowerSeries ℝ} {v : ℝ} {x : List S} (hx : Sem E k c v x) :
    OpT E (ctr sinhD c k) k (cps sinhD c) (Real.sinh v) True (sinh x) := by
  unfold sinh
  refine OpT.bind_lift fun a ha => OpT.bind_lift fun t0 h0 => OpT.bind_lift fun t1 h1 => ?_
  have hc := hx.head hE ha
  have m0 := un_mem (f := .sinh) h0 hc trivial
  have m1 := un_mem (f := .cosh) h1 hc trivial
  refine (fact_spec hE hx (F := sinhD) (fun k t => sinhD_hasDeriv k t) (t0 := t0) (by rw [sinhD_even 0 _ rfl]; exact m0) (fun i => ?_)
    (fun i s z ξ hz hξ => ?_)).congr rfl rfl rfl (sinhD_even 0 v rfl)
  · unfold pick2
    split_ifs with h
    · rw [sinhD_even _ _ h]; exact m0
    · rw [sinhD_odd _ _ (by omega)]; exact m1
  · unfold pick2 at hz
    split_ifs at hz with h
    · rw [sinhD_even _ _ h]; exact un_mem (f := .sinh) hz hξ trivial
    · rw [sinhD_odd _ _ (by omega)]; exact un_mem (f := .cosh) hz hξ trivial

theorem cosh_spec (hE : E.Ok) {k : Bool} {c : PowerSeries ℝ} {v : ℝ} {x : List S} (hx : Sem E k c v x) :
    OpT E (ctr coshD c k) k (cps coshD c) (Real.cosh v) True (cosh x) := by
  unfold cosh
  refine OpT.bind_lift fun a ha => OpT.bind_lift fun t0 h0 => OpT.bind_lift fun t1 h1 => ?_
  have hc := hx.head hE ha
  have m0 := un_mem (f := .cosh) h0 hc trivial
  have m1 := un_mem (f := .sinh) h1 hc trivial
  refine (fact_spec hE hx (F := coshD) (fun k t => sinhD_hasDeriv (k + 1) t) (t0 := t0)
    (by rw [coshD, sinhD_odd _ _ rfl]; exact m0) (fun i => ?_) (fun i s z ξ hz hξ => ?_)).congr rfl rfl rfl (sinhD_odd _ v rfl)
  · unfold pick2
    split_ifs with h
    · rw [coshD, sinhD_odd _ _ (by omega)]; exact m0
    · rw [coshD, sinhD_even _ _ (by omega)]; exact m1
  · unfold pick2 at hz
    split_ifs at hz with h
    · rw [coshD, sinhD_odd _ _ (by omega)]; exact un_mem (f := .cosh) hz hξ trivial
    · rw [coshD, sinhD_even _ _ (by omega)]; exact un_mem (f := .sinh) hz hξ trivial

/-! ## inv -/

noncomputable def invD (k : ℕ) (t : ℝ) : ℝ := (-1) ^ k * k ! / t ^ (k + 1)

theorem invD_hasDeriv (k : ℕ) {t : ℝ} (ht : t ≠ 0) : HasDerivAt (invD k) (invD (k + 1) t) t := by
  have h1 := ((hasDerivAt_pow (k + 1) t).inv (pow_ne_zero _ ht)).const_mul ((-1 : ℝ) ^ k * k !)
  have e : invD k = fun t => (-1 : ℝ) ^ k * k ! * (t ^ (k + 1))⁻¹ := by funext t; rw [invD, div_eq_mul_inv]
  rw [e]
  refine h1.congr_deriv ?_
  rw [invD, Nat.factorial_succ]
  push_cast
  field_simp
  ring

theorem tcf_inv (t : ℝ) (i : ℕ) : tcf invD t i = (-1) ^ i / t ^ (i + 1) := by
  have : (i ! : ℝ) ≠ 0 := by exact_mod_cast Nat.factorial_ne_zero i
  rw [tcf, invD]; field_simp

/-- recorded results of `inv` -/
noncomputable def itr (c : PowerSeries ℝ) (k : Bool) : ℕ → List (PowerSeries ℝ × Bool) :=
  trT (fun i => tcf invD (coeff 0 c) i * coeff 0 c ^ i) (C (coeff 0 c)⁻¹ * (c - C (coeff 0 c))) k (cps invD c)

theorem inv_spec (hE : E.Ok) {k : Bool} {c : PowerSeries ℝ} {v : ℝ} {x : List S} (hx : Sem E k c v x) :
    OpT E (itr c k) k (cps invD c) v⁻¹ (coeff 0 c ≠ 0 ∧ (E.md = 2 → v ≠ 0)) (inv x) := by
  unfold inv
  refine OpT.bind_lift fun a ha => OpT.bind_lift fun r hr => OpT.bind_get fun st hst => ?_
  rw [hst]
  have hc := hx.head hE ha
  have hr' := cBin_mem hr hc Interval.is_one
  have hc0 : coeff 0 c ≠ 0 := hr'.1
  have hr1 : mem (1 / coeff 0 c) r := hr'.2
  refine OpT.bind_pre (range_spec hE hx rfl) fun range hrange => ?_
  refine OpT.bind_pre (Q := fun z => E.md = 2 → ∀ ξ ∈ Set.uIcc (coeff 0 c) v, ξ ≠ 0 ∧ mem (1 / ξ) z) (fun u r TU TP => ?_)
    fun xn2 hxn2 => ?_
  · split_ifs with h2
    · exact Tri.lift fun z st hz hst => ⟨hst, fun _ ξ hξ => cBin_mem hz (hrange h2 ξ hξ) Interval.is_one⟩
    · exact Tri.pure fun st hst => ⟨hst, fun h => absurd h h2⟩
  have hnext : ∀ (h2 : E.md = 2) t z i, (∀ ξ ∈ Set.uIcc (coeff 0 c) v, mem ((-1) ^ i * coeff 0 c ^ i / ξ ^ (i + 1)) t) →
      (do Scal.bin .mul (← negDiv t range) a : Res S) = .ok z →
      ∀ ξ ∈ Set.uIcc (coeff 0 c) v, mem ((-1) ^ (i + 1) * coeff 0 c ^ (i + 1) / ξ ^ (i + 1 + 1)) z := by
    intro h2 t z i ht hz ξ hξ
    obtain ⟨y, hy, hz⟩ := bind_ok.1 hz
    unfold negDiv at hy
    obtain ⟨w, hw, hy⟩ := bind_ok.1 hy
    have m1 := un_mem (f := .neg) hw (ht ξ hξ) trivial
    have m2 := (bin_mem hy m1 (hrange h2 ξ hξ)).2
    have m3 := (bin_mem hz m2 hc).2
    simp only [Bin.real, Un.real] at m3
    convert m3 using 1
    rw [pow_succ ξ (i + 1), ← div_div]
    ring
  refine ((taylor_spec hE hx (κ := coeff 0 c) (g := (coeff 0 c)⁻¹ * (v - coeff 0 c)) (a := tcf invD (coeff 0 c))
    (Kinv := fun i κ => mem ((-1) ^ i / coeff 0 c) κ.1 ∧
      (E.md = 2 → ∀ ξ ∈ Set.uIcc (coeff 0 c) v, mem ((-1) ^ i * coeff 0 c ^ i / ξ ^ (i + 1)) κ.2)) (Extra := True) hc0 rfl
    (fun i => rfl) (fun hk => ⟨rfl, ?_, ?_, ?_⟩) ?_ ?_ ?_).imp fun _ => ⟨hc0, fun h2 => (hxn2 h2 v Set.right_mem_uIcc).1⟩)
  · intro hl hhl
    subst hk
    exact divV_sem (center_sem hE hx) hc hhl
  · rintro i ⟨y, y2⟩ ⟨y', y2'⟩ z hi ⟨hy, hy2⟩ hz
    obtain ⟨w, hw, hz⟩ := bind_ok.1 hz
    obtain ⟨w2, hw2, hz⟩ := bind_ok.1 hz
    cases hz
    have m1 := un_mem (f := .neg) hw hy trivial
    have e : Un.neg.real ((-1) ^ i / coeff 0 c) = (-1) ^ (i + 1) / coeff 0 c := by simp only [Un.real]; ring
    rw [e] at m1
    refine ⟨⟨m1, fun h2 => ?_⟩, ?_⟩
    · rw [upd2, if_pos h2] at hw2
      exact hnext h2 y2 _ i (hy2 h2) hw2
    · convert m1 using 1
      rw [tcf_inv, pow_succ (coeff 0 c) (i + 1)]
      have := pow_ne_zero (i + 1) hc0
      field_simp
  · rintro h2 ⟨y, y2⟩ ⟨-, hy2⟩ u r TU TP
    refine Tri.lift fun z st hz hst => ⟨hst, ?_⟩
    obtain ⟨ξ, hξ, e⟩ := lagrange' (F := invD) (fun k t ht => invD_hasDeriv k (hxn2 h2 t ht).1) (E.s - 1) (c := coeff 0 c) (v := v)
    have hs2 := (hE.two h2).1
    have := hnext h2 y2 z (E.s - 2) (hy2 h2) hz ξ hξ
    rw [show E.s - 2 + 1 = E.s - 1 by omega] at this
    refine ⟨_, this, ?_, trivial⟩
    have e0 : v⁻¹ = invD 0 v := by simp [invD]
    rw [e0, e]
    congr 1
    · refine Finset.sum_congr rfl fun i _ => ?_
      rw [mul_pow, inv_pow]
      have := pow_ne_zero i hc0
      field_simp
    · rw [tcf_inv, mul_pow, inv_pow]
      have := pow_ne_zero (E.s - 1) hc0
      field_simp
  · intro hk
    rw [tcf_inv, hx.con0 hk]; simp
  · rw [tcf_inv]; simpa using hr1
  · intro _
    refine ⟨by simpa using hr1, fun h2 ξ hξ => by simpa using (hxn2 h2 ξ hξ).2⟩

/-! ## sqrt -/

noncomputable def sqrtD (k : ℕ) (t : ℝ) : ℝ := (∏ j ∈ Finset.range k, (1 / 2 - (j : ℝ))) * √t / t ^ k

theorem sqrtD_hasDeriv (k : ℕ) {t : ℝ} (ht : 0 < t) : HasDerivAt (sqrtD k) (sqrtD (k + 1) t) t := by
  have h1 := ((Real.hasDerivAt_sqrt ht.ne').const_mul (∏ j ∈ Finset.range k, (1 / 2 - (j : ℝ)))).div (hasDerivAt_pow k t)
    (pow_ne_zero k ht.ne')
  refine (h1.congr_deriv ?_)
  rw [sqrtD, Finset.prod_range_succ]
  have h2 : √t * √t = t := Real.mul_self_sqrt ht.le
  have h3 : √t ≠ 0 := (Real.sqrt_pos.2 ht).ne'
  rcases k with _ | k
  · simp only [Finset.prod_range_zero, pow_zero]
    field_simp
    simp
    nlinarith
  · rw [Nat.add_sub_cancel]
    push_cast
    field_simp
    rw [sq, h2]
    ring

theorem sqrt_next (t : ℝ) (i : ℕ) : tcf sqrtD t (i + 1) = tcf sqrtD t i * ((1 / 2 - i) / t / (i + 1)) := by
  have : (i ! : ℝ) ≠ 0 := by exact_mod_cast Nat.factorial_ne_zero i
  rw [tcf, tcf, sqrtD, sqrtD, Finset.prod_range_succ, Nat.factorial_succ, pow_succ]
  push_cast
  simp only [div_eq_mul_inv, mul_inv]
  ring

theorem is_half_sub (hE : E.Ok) {i : ℕ} (hi : i < E.s) : Is (lit (1 / 2 - i : ℚ) : D) (1 / 2 - i) := by
  have := hE.small
  have := Interval.is_cst (1 - 2 * i : ℤ) (-1) (by rw [abs_lt]; constructor <;> omega) (by norm_num) (by norm_num)
    (q := (1 / 2 - i : ℚ)) (by push_cast; norm_num; ring)
  simpa using this

theorem is_succ (hE : E.Ok) {i : ℕ} (hi : i < E.s) : Is (lit (i + 1 : ℚ) : D) (i + 1) := by
  have := hE.small
  have := Interval.is_cst (i + 1 : ℤ) 0 (by rw [abs_lt]; constructor <;> omega) (by norm_num) (by norm_num)
    (q := (i + 1 : ℚ)) (by simp)
  simpa using this

theorem inv2_mem {t z : S} {ξ : ℝ} (h : inv2 t = .ok z) (ht : mem ξ t) : ξ ≠ 0 ∧ mem (1 / (2 * ξ)) z := by
  unfold inv2 at h
  obtain ⟨y, hy, h⟩ := bind_ok.1 h
  have h1 := (cBin_mem hy ht Interval.is_two).2
  have h2 := cBin_mem h h1 Interval.is_one
  refine ⟨fun h0 => ?_, h2.2⟩
  have := h2.1
  simp [Bin.Dom, Bin.real, h0] at this

theorem sqrtNext_mem (hE : E.Ok) {i : ℕ} (hi : i < E.s) {a xn z : S} {t : ℝ} (h : sqrtNext a i xn = .ok z) (ha : mem t a)
    (hx : mem (tcf sqrtD t i) xn) : mem (tcf sqrtD t (i + 1)) z := by
  unfold sqrtNext at h
  obtain ⟨q, hq, h⟩ := bind_ok.1 h
  obtain ⟨q', hq', h⟩ := bind_ok.1 h
  have h1 := (cBin_mem hq ha (is_half_sub hE hi)).2
  have h2 := (binC_mem hq' h1 (is_succ hE hi)).2
  have h3 := (bin_mem h hx h2).2
  rw [sqrt_next]; exact h3

theorem tcf_sqrt0 (t : ℝ) : tcf sqrtD t 0 = √t := by simp [tcf, sqrtD]
theorem tcf_sqrt1 {t : ℝ} (ht : 0 < t) : tcf sqrtD t 1 = 1 / (2 * √t) := by
  have h2 : √t * √t = t := Real.mul_self_sqrt ht.le
  have h3 : √t ≠ 0 := (Real.sqrt_pos.2 ht).ne'
  simp [tcf, sqrtD]
  field_simp
  nlinarith

theorem sqrt_pos_of {a sa z : S} {ξ : ℝ} (h1 : Scal.un .sqrt a = .ok sa) (h2 : inv2 sa = .ok z) (ha : mem ξ a) :
    0 < ξ ∧ mem (√ξ) sa ∧ mem (tcf sqrtD ξ 1) z := by
  have h0 : 0 ≤ ξ := un_ok (f := .sqrt) h1 ha
  have h3 : mem (√ξ) sa := un_mem (f := .sqrt) h1 ha h0
  obtain ⟨h4, h5⟩ := inv2_mem h2 h3
  have h6 : 0 < ξ := lt_of_le_of_ne h0 fun h => h4 (by rw [← h, Real.sqrt_zero])
  exact ⟨h6, h3, by rw [tcf_sqrt1 h6]; exact h5⟩

theorem sqrt_spec (hE : E.Ok) {k : Bool} {c : PowerSeries ℝ} {v : ℝ} {x : List S} (hx : Sem E k c v x) :
    OpT E (ctr sqrtD c k) k (cps sqrtD c) (√v) (0 < coeff 0 c ∧ (E.md = 2 → 0 < v)) (sqrt x) := by
  unfold sqrt
  refine OpT.bind_lift fun a ha => OpT.bind_lift fun sa hsa => OpT.bind_lift fun xn hxn => OpT.bind_get fun st hst => ?_
  rw [hst]
  have hc := hx.head hE ha
  obtain ⟨hc0, hs0, hx0⟩ := sqrt_pos_of hsa hxn hc
  refine OpT.bind_pre (range_spec hE hx rfl) fun range hrange => ?_
  refine OpT.bind_pre (Q := fun z => E.md = 2 → ∀ ξ ∈ Set.uIcc (coeff 0 c) v, 0 < ξ ∧ mem (tcf sqrtD ξ 1) z) (fun u r TU TP => ?_)
    fun xn2 hxn2 => ?_
  · split_ifs with h2
    · refine Tri.lift fun z st hz hst => ⟨hst, fun _ ξ hξ => ?_⟩
      obtain ⟨y, hy, hz⟩ := bind_ok.1 hz
      obtain ⟨g1, -, g2⟩ := sqrt_pos_of hy hz (hrange h2 ξ hξ)
      exact ⟨g1, g2⟩
    · exact Tri.pure fun st hst => ⟨hst, fun h => absurd h h2⟩
  refine ((taylor_spec hE hx (κ := 1) (g := v - coeff 0 c) (a := tcf sqrtD (coeff 0 c))
    (Kinv := fun i κ => mem (tcf sqrtD (coeff 0 c) (i + 1)) κ.1 ∧
      (E.md = 2 → ∀ ξ ∈ Set.uIcc (coeff 0 c) v, mem (tcf sqrtD ξ (i + 1)) κ.2)) (Extra := True) one_ne_zero (by simp)
    (by simp) (fun hk => ⟨rfl, ?_, ?_, ?_⟩) ?_ ?_ ?_).imp fun _ => ⟨hc0, fun h2 => (hxn2 h2 v Set.right_mem_uIcc).1⟩)
  · rintro hl ⟨⟩
    subst hk
    exact center_sem hE hx
  · rintro i ⟨y, y2⟩ ⟨y', y2'⟩ z hi ⟨hy, hy2⟩ hz
    obtain ⟨w, hw, hz⟩ := bind_ok.1 hz
    obtain ⟨w2, hw2, hz⟩ := bind_ok.1 hz
    cases hz
    refine ⟨⟨sqrtNext_mem hE hi hw hc hy, fun h2 ξ hξ => ?_⟩, hy⟩
    rw [upd2, if_pos h2] at hw2
    exact sqrtNext_mem hE hi hw2 (hrange h2 ξ hξ) (hy2 h2 ξ hξ)
  · rintro h2 ⟨y, y2⟩ ⟨-, hy2⟩ u r TU TP
    refine Tri.pure fun st hst => ⟨hst, ?_⟩
    obtain ⟨ξ, hξ, e⟩ := lagrange' (F := sqrtD) (fun k t ht => sqrtD_hasDeriv k (hxn2 h2 t ht).1) (E.s - 1) (c := coeff 0 c) (v := v)
    have hs2 := (hE.two h2).1
    have := hy2 h2 ξ hξ
    rw [show E.s - 2 + 1 = E.s - 1 by omega] at this
    refine ⟨_, this, ?_, trivial⟩
    have e0 : √v = sqrtD 0 v := by simp [sqrtD]
    rw [e0, e]
  · intro hk
    rw [tcf_sqrt0, hx.con0 hk]
  · rw [tcf_sqrt0]; exact hs0
  · intro _
    exact ⟨hx0, fun h2 ξ hξ => (hxn2 h2 ξ hξ).2⟩

/-! ## log -/

noncomputable def logD : ℕ → ℝ → ℝ
  | 0 => Real.log
  | k + 1 => invD k

theorem logD_hasDeriv (k : ℕ) {t : ℝ} (ht : t ≠ 0) : HasDerivAt (logD k) (logD (k + 1) t) t := by
  cases k with
  | zero => simpa [logD, invD] using Real.hasDerivAt_log ht
  | succ k => exact invD_hasDeriv k ht

theorem tcf_log (t : ℝ) (i : ℕ) : tcf logD t (i + 1) = (-1) ^ i / t ^ (i + 1) / (i + 1 : ℕ) := by
  have : (i ! : ℝ) ≠ 0 := by exact_mod_cast Nat.factorial_ne_zero i
  rw [tcf, logD, invD, Nat.factorial_succ]
  push_cast
  field_simp

theorem negDiv_mem {a b z : S} {x y : ℝ} (h : negDiv a b = .ok z) (ha : mem x a) (hb : mem y b) : y ≠ 0 ∧ mem (-x / y) z := by
  unfold negDiv at h
  obtain ⟨w, hw, h⟩ := bind_ok.1 h
  exact bin_mem h (un_mem (f := .neg) hw ha trivial) hb

/-- if the first pass fails, so does the loop -/
theorem loop_dead {n old : ℕ} {K : Type} {hs : Res (List S)} {stp : ℕ → K → Res (K × S)} {lst : ℕ → K → PM S S} {r : List S} {κ : K}
    (h1 : ∀ z, stp 1 κ ≠ .ok z) (h2 : ∀ st z st', lst 1 κ st ≠ (.ok z, st')) : ∀ m st z st',
    loop n old hs stp lst (m + 1) r κ st ≠ (.ok z, st')
  | 0, st, z, st', h => by
    unfold loop at h
    obtain ⟨z1, st1, hm, hb⟩ := bind_run h
    obtain ⟨rfl, rfl⟩ := pure_run hm
    clear h hm
    unfold body at hb
    obtain ⟨-, st2, -, hb⟩ := bind_run hb
    obtain ⟨b, st3, -, h⟩ := bind_run hb
    clear hb
    split_ifs at h
    · obtain ⟨z4, st4, -, h⟩ := bind_run h
      obtain ⟨z5, st5, -, h⟩ := bind_run h
      obtain ⟨z6, st6, h6, -⟩ := bind_run h
      exact h2 _ _ _ h6
    · obtain ⟨z4, st4, -, h⟩ := bind_run h
      obtain ⟨z5, st5, -, h⟩ := bind_run h
      obtain ⟨z6, st6, h6, -⟩ := bind_run h
      exact h1 _ (lift_run h6).1
  | m + 1, st, z, st', h => by
    unfold loop at h
    obtain ⟨z1, st1, hm, h⟩ := bind_run h
    exact loop_dead h1 h2 m _ _ _ hm

/-- the same without a remainder -/
theorem loop_dead1 {n old : ℕ} {K : Type} {hs : Res (List S)} {stp : ℕ → K → Res (K × S)} {lst : ℕ → K → PM S S} {r : List S} {κ : K}
    (h1 : ∀ z, stp 1 κ ≠ .ok z) : ∀ m st z st', st.mode ≠ 2 → loop n old hs stp lst (m + 1) r κ st ≠ (.ok z, st')
  | 0, st, z, st', hmd, h => by
    unfold loop at h
    obtain ⟨z1, st1, hm, hb⟩ := bind_run h
    obtain ⟨rfl, rfl⟩ := pure_run hm
    clear h hm
    unfold body at hb
    obtain ⟨_, st2, hu, hb⟩ := bind_run hb
    have hmd2 : st2.mode ≠ 2 := by
      unfold useOff at hu
      rw [get_bind] at hu
      split_ifs at hu
      · cases hu; exact hmd
      · obtain ⟨-, rfl⟩ := pure_run hu; exact hmd
    obtain ⟨b, st3, hr, h⟩ := bind_run hb
    clear hb
    unfold recOff at hr
    rw [get_bind, if_neg (fun hh => hmd2 hh.1)] at hr
    obtain ⟨rfl, rfl⟩ := pure_run hr
    rw [if_neg (by decide)] at h
    obtain ⟨z4, st4, -, h⟩ := bind_run h
    obtain ⟨z5, st5, -, h⟩ := bind_run h
    obtain ⟨z6, st6, h6, -⟩ := bind_run h
    exact h1 _ (lift_run h6).1
  | m + 1, st, z, st', hmd, h => by
    unfold loop at h
    obtain ⟨z1, st1, hm, h⟩ := bind_run h
    exact loop_dead1 h1 m _ _ _ hmd hm

theorem OpT.dead1 {T : ℕ → List (PowerSeries ℝ × Bool)} {k : Bool} {c : PowerSeries ℝ} {v : ℝ} {X : Prop} {m : PM S (List S)}
    (h : ∀ st z st', st.mode = E.md → m st ≠ (.ok z, st')) : OpT E T k c v X m :=
  fun _ _ _ _ st hst z st' hz => absurd hz (h st z st' hst.mode)

theorem log_spec (hE : E.Ok) {k : Bool} {c : PowerSeries ℝ} {v : ℝ} {x : List S} (hx : Sem E k c v x)
    (hd : E.s < 2 ∨ k = true → 0 < coeff 0 c) :
    OpT E (ctr logD c k) k (cps logD c) (Real.log v) (0 < coeff 0 c ∧ (E.md = 2 → 0 < v)) (log x) := by
  unfold log
  refine OpT.bind_lift fun a ha => OpT.bind_lift fun r hr => OpT.bind_get fun st hst => ?_
  rw [hst]
  have hc := hx.head hE ha
  refine OpT.bind_pre (range_spec hE hx rfl) fun range hrange => ?_
  have hm1 : mem (-1) (Scal.ofC (lit (-1) : D) : S) := ofC_mem Interval.is_neg_one
  have hw0 : 0 ≤ coeff 0 c := un_ok (f := .log) hr hc
  by_cases hc0 : coeff 0 c = 0
  · -- the first division fails
    have h2 : ¬ E.s < 2 ∧ k = false := by
      by_contra hn
      have : 0 < coeff 0 c := hd (by
        by_cases h : E.s < 2
        · exact Or.inl h
        · right; cases k
          · exact absurd ⟨h, rfl⟩ hn
          · rfl)
      linarith
    have hlen : x.length - 1 = (E.s - 2) + 1 := by
      have h1 := hx.len
      rw [h2.2] at h1
      have := h2.1
      simp at h1; omega
    refine OpT.dead1 fun st z st' hmd hz => ?_
    unfold taylor at hz
    rw [get_bind] at hz
    obtain ⟨old, st1, ho, hz⟩ := bind_run hz
    obtain ⟨y, st2, hl, hz⟩ := bind_run hz
    rw [hlen] at hl
    by_cases hm2 : E.md = 2
    · refine loop_dead (fun z hz => ?_) (fun st z st' hz => ?_) _ _ _ _ hl
      · obtain ⟨w, hw, -⟩ := bind_ok.1 hz
        exact (negDiv_mem hw hm1 hc).1 hc0
      · obtain ⟨hz, -⟩ := lift_run hz
        obtain ⟨w, hw, -⟩ := bind_ok.1 hz
        exact (negDiv_mem hw hm1 (hrange hm2 (coeff 0 c) Set.left_mem_uIcc)).1 hc0
    · refine loop_dead1 (fun z hz => ?_) _ _ _ _ ?_ hl
      · obtain ⟨w, hw, -⟩ := bind_ok.1 hz
        exact (negDiv_mem hw hm1 hc).1 hc0
      · have : st1 = st := by
          unfold oldSize at ho
          rw [get_bind] at ho
          by_cases hu : st.use = true
          · rw [if_pos hu] at ho
            generalize st.hist = H at ho
            cases H with
            | nil => exact absurd (lift_run ho).1 (fun hh => by cases hh)
            | cons a t => exact (pure_run ho).2
          · rw [if_neg hu] at ho
            exact (pure_run ho).2
        rw [this, hmd]; exact hm2
  have hc1 : 0 < coeff 0 c := lt_of_le_of_ne hw0 (Ne.symm hc0)
  refine ((taylor_spec hE hx (κ := 1) (g := v - coeff 0 c) (a := tcf logD (coeff 0 c))
    (Kinv := fun i κ => mem ((-1) ^ (i + 1) / coeff 0 c ^ i) κ.1 ∧
      (E.md = 2 → ∀ ξ ∈ Set.uIcc (coeff 0 c) v, mem ((-1) ^ (i + 1) / ξ ^ i) κ.2)) (Extra := 0 < v) one_ne_zero (by simp)
    (by simp) (fun hk => ⟨rfl, ?_, ?_, ?_⟩) ?_ ?_ ?_).imp fun h => ⟨hc1, fun h2 => ?_⟩)
  · rintro hl ⟨⟩
    subst hk
    exact center_sem hE hx
  · rintro i ⟨y, y2⟩ ⟨y', y2'⟩ z hi ⟨hy, hy2⟩ hz
    obtain ⟨w, hw, hz⟩ := bind_ok.1 hz
    obtain ⟨w2, hw2, hz⟩ := bind_ok.1 hz
    obtain ⟨q, hq, hz⟩ := bind_ok.1 hz
    cases hz
    have e : ∀ t : ℝ, -((-1) ^ (i + 1) / t ^ i) / t = (-1) ^ (i + 1 + 1) / t ^ (i + 1) := fun t => by
      rw [pow_succ t i, ← div_div]; ring
    have m1 := (negDiv_mem hw hy hc).2
    rw [e] at m1
    refine ⟨⟨m1, fun h2 ξ hξ => ?_⟩, ?_⟩
    · rw [upd2, if_pos h2] at hw2
      have m2 := (negDiv_mem hw2 (hy2 h2 ξ hξ) (hrange h2 ξ hξ)).2
      rwa [e] at m2
    · have m3 := (binC_mem hq m1 (is_nat hE hi)).2
      rw [tcf_log]
      convert m3 using 1
      simp only [Bin.real]
      congr 2
      ring
  · rintro h2 ⟨y, y2⟩ ⟨-, hy2⟩ u r TU TP
    refine Tri.lift fun z st hz hst => ⟨hst, ?_⟩
    obtain ⟨w, hw, hz⟩ := bind_ok.1 hz
    have hne : ∀ ξ ∈ Set.uIcc (coeff 0 c) v, ξ ≠ 0 := fun ξ hξ => (negDiv_mem hw (hy2 h2 ξ hξ) (hrange h2 ξ hξ)).1
    obtain ⟨ξ, hξ, e⟩ := lagrange' (F := logD) (fun k t ht => logD_hasDeriv k (hne t ht)) (E.s - 1) (c := coeff 0 c) (v := v)
    have hs2 := (hE.two h2).1
    refine ⟨tcf logD ξ (E.s - 1), ?_, by rw [← e]; rfl, ?_⟩
    · have m1 := (negDiv_mem hw (hy2 h2 ξ hξ) (hrange h2 ξ hξ)).2
      have m3 := (binC_mem hz m1 (is_nat hE (show E.s - 1 < E.s by omega))).2
      have es : E.s - 1 = (E.s - 2) + 1 := by omega
      rw [es] at m3 ⊢
      rw [tcf_log]
      convert m3 using 1
      simp only [Bin.real]
      congr 1
      rw [pow_succ ξ (E.s - 2), ← div_div]; ring
    · by_contra hv
      refine hne 0 ?_ rfl
      rw [Set.mem_uIcc]; right; constructor <;> linarith
  · intro hk
    simp only [tcf, logD, Nat.factorial_zero, Nat.cast_one, div_one]
    rw [hx.con0 hk]
  · simp only [tcf, logD, Nat.factorial_zero, Nat.cast_one, div_one]
    exact un_mem (f := .log) hr hc hc1
  · intro _
    refine ⟨by simpa using hm1, fun h2 ξ hξ => by simpa using hm1⟩
  · cases k with
    | false => exact h rfl h2
    | true => rw [← hx.con0 rfl]; exact hc1

end Psa
end Kv
