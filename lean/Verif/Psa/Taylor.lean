import Verif.Psa.Ops

/-! # Power series arithmetic: the loop of the elementary functions -/

namespace Kv
open RopSem
open Rop (lit)

namespace Psa
open PM ScalSem PowerSeries
set_option linter.unusedSectionVars false

/-! ## composition of formal power series -/

/-- the series `∑ aᵢ hⁱ` for a series `h` without constant term -/
noncomputable def comp (a : ℕ → ℝ) (h : PowerSeries ℝ) : PowerSeries ℝ :=
  PowerSeries.mk fun k => ∑ i ∈ Finset.range (k + 1), a i * coeff k (h ^ i)

theorem coeff_pow_lt {h : PowerSeries ℝ} (h0 : coeff 0 h = 0) {k i : ℕ} (hk : k < i) : coeff k (h ^ i) = 0 := by
  have : (X : PowerSeries ℝ) ∣ h := by
    rw [X_dvd_iff, ← coeff_zero_eq_constantCoeff_apply]; exact h0
  exact X_pow_dvd_iff.1 (pow_dvd_pow_of_dvd this i) k hk

/-- the partial sums `∑_{i ≤ n} bᵢ Gⁱ` -/
noncomputable def psum (b : ℕ → ℝ) (G : PowerSeries ℝ) (n : ℕ) : PowerSeries ℝ := ∑ i ∈ Finset.range (n + 1), C (b i) * G ^ i

theorem psum_succ (b : ℕ → ℝ) (G : PowerSeries ℝ) (n : ℕ) : psum b G (n + 1) = psum b G n + C (b (n + 1)) * G ^ (n + 1) := by
  unfold psum; rw [Finset.sum_range_succ]

theorem coeff_psum {a : ℕ → ℝ} {h : PowerSeries ℝ} (h0 : coeff 0 h = 0) {k n : ℕ} (hk : k ≤ n) :
    coeff k (psum a h n) = coeff k (comp a h) := by
  unfold psum comp
  rw [map_sum, coeff_mk]
  simp only [PowerSeries.coeff_C_mul]
  refine (Finset.sum_subset (Finset.range_mono (by omega)) fun i _ hi => ?_).symm
  rw [Finset.mem_range, not_lt] at hi
  rw [coeff_pow_lt h0 (by omega), mul_zero]

theorem psum_scale {a b : ℕ → ℝ} {h G : PowerSeries ℝ} {κ : ℝ} (hκ : κ ≠ 0) (hG : G = C κ⁻¹ * h)
    (hb : ∀ i, b i = a i * κ ^ i) (n : ℕ) : psum b G n = psum a h n := by
  unfold psum
  refine Finset.sum_congr rfl fun i _ => ?_
  rw [hG, hb, mul_pow, ← mul_assoc, ← map_pow, ← map_mul]
  congr 2
  rw [inv_pow, mul_assoc, mul_inv_cancel₀ (pow_ne_zero i hκ), mul_one]

/-! ## recorded results of a loop -/

/-- the three results recorded in pass `i` -/
noncomputable def seg (b : ℕ → ℝ) (G : PowerSeries ℝ) (i : ℕ) : List (PowerSeries ℝ × Bool) :=
  [(G ^ i, false), (C (b i) * G ^ i, false), (psum b G i, false)]

/-- passes `i+1, ..., i+n` -/
noncomputable def segs (b : ℕ → ℝ) (G : PowerSeries ℝ) : ℕ → ℕ → List (PowerSeries ℝ × Bool)
  | _, 0 => []
  | i, n + 1 => seg b G (i + 1) ++ segs b G (i + 1) n

theorem segs_right (b : ℕ → ℝ) (G : PowerSeries ℝ) : ∀ (n i : ℕ), segs b G i (n + 1) = segs b G i n ++ seg b G (i + n + 1)
  | 0, i => by simp [segs]
  | n + 1, i => by
    rw [segs, segs_right b G n (i + 1), segs]
    simp [show i + 1 + n + 1 = i + (n + 1) + 1 by omega]

/-- all results recorded by a function applied to a series of size `m` -/
noncomputable def trT (b : ℕ → ℝ) (G : PowerSeries ℝ) (k : Bool) (res : PowerSeries ℝ) (m : ℕ) : List (PowerSeries ℝ × Bool) :=
  (if k then [] else segs b G 0 (m - 1)) ++ [(res, k)]

variable {S : Type} [ScalSem S] {E : Env S}

/-- `h = x; h.v(0) = 0.` -/
theorem center_sem (hE : E.Ok) {k c v} {x : List S} (hx : Sem E k c v x) :
    Sem E k (c - C (coeff 0 c)) (v - coeff 0 c) (center x) := by
  obtain ⟨p, hp, hr⟩ := hx.rep
  cases x with
  | nil =>
    have := hx.pos hE
    simp at this
  | cons a t =>
    refine ⟨by simpa [center] using hx.len, fun hk => ?_, fun i => if i = 0 then 0 else p i, ?_, ?_, ?_, ?_⟩
    · rw [hx.con hk]; simp
    · rw [Mem.cons] at hp
      rw [center, Mem.cons]
      exact ⟨by simpa using zero_mem, by simpa using hp.2⟩
    · intro i hi
      by_cases h0 : i = 0
      · subst h0; simp
      · simp only [h0, if_false]
        rw [hr.low i hi, map_sub]
        simp [PowerSeries.coeff_C, h0]
    · intro hm
      rw [hr.val hm, ← hr.low 0 hE.l_pos]
      have e : E.s = (E.s - 1) + 1 := by have := hE.s_pos; omega
      rw [e, Finset.sum_range_succ', Finset.sum_range_succ']
      simp
    · intro hk i hi
      have : i ≠ 0 := by omega
      simp only [this, if_false]
      exact hr.con hk i hi

theorem At.use_off {u r : Bool} {TU TP} {st : PSt S} (h : At E u r TU TP st) : At E false r TU TP { st with use := false } :=
  ⟨h.mode, h.domain, rfl, h.record, h.inv⟩

theorem useOff_spec {u u0 r : Bool} {TU TP} {old j : ℕ} (hu : u = (u0 && decide (j < E.m))) (ho : u0 = true → old = E.m) :
    Tri (S := S) (At E u r TU TP) (useOff old (j + 1)) (fun _ st => At E (u0 && decide (j + 1 < E.m)) r TU TP st) := by
  intro st hst z st' hz
  unfold useOff at hz
  rw [get_bind, hst.use] at hz
  subst hu
  cases u0 with
  | false =>
    simp only [Bool.false_and, Bool.false_eq_true, if_false] at hz
    obtain ⟨-, rfl⟩ := pure_run hz
    simpa using hst
  | true =>
    rw [ho rfl] at hz
    simp only [Bool.true_and] at hz hst ⊢
    by_cases h1 : j < E.m
    · by_cases h2 : E.m ≤ j + 1
      · simp only [h1, h2, decide_true, Bool.and_self, if_true, setUse] at hz
        cases hz
        have e : decide (j + 1 < E.m) = false := by simpa using h2
        rw [e]
        exact hst.use_off
      · simp only [h1, h2, decide_true, decide_false, Bool.and_false, Bool.false_eq_true, if_false] at hz
        obtain ⟨-, rfl⟩ := pure_run hz
        have e : decide (j + 1 < E.m) = decide (j < E.m) := by simp [h1]; omega
        rw [e]; exact hst
    · simp only [h1, decide_false, Bool.false_and, Bool.false_eq_true, if_false] at hz
      obtain ⟨-, rfl⟩ := pure_run hz
      have e : decide (j + 1 < E.m) = decide (j < E.m) := by
        have h3 : ¬ (j + 1 < E.m) := by omega
        simp [h1, h3]
      rw [e]; exact hst

theorem recOff_spec {u r : Bool} {TU TP} {n i : ℕ} :
    Tri (S := S) (At E u r TU TP) (recOff n i) (fun b st => At E u (r && !b) TU TP st ∧ (b = true ↔ E.md = 2 ∧ i = n - 1)) := by
  intro st hst z st' hz
  unfold recOff at hz
  rw [get_bind, hst.mode] at hz
  split_ifs at hz with h
  · obtain ⟨_, st1, h1, hz⟩ := bind_run hz
    obtain ⟨rfl, rfl⟩ := pure_run hz
    simp only [setRec] at h1
    cases h1
    exact ⟨⟨hst.mode, hst.domain, hst.use, by simp, hst.inv⟩, by simp [h]⟩
  · obtain ⟨rfl, rfl⟩ := pure_run hz
    exact ⟨by simpa using hst, by simp only [Bool.false_eq_true, false_iff]; exact h⟩

/-- the arithmetic of one pass -/
theorem pass_spec (hE : E.Ok) {K : Type} {kh kr : Bool} {ch cr cg : PowerSeries ℝ} {vh vr vg β : ℝ} {hn rr hl : List S}
    (hh : Sem E kh ch vh hn) (hr : Sem E kr cr vr rr) (hg : Sem E false cg vg hl) {u r TU TP} {coef : PM S (K × S)}
    {Q : K → Prop} (hc : ∀ TU TP, Tri (At E u r TU TP) coef (fun z st => At E u r TU TP st ∧ (mem β z.2 ∧ Q z.1))) :
    Tri (At E u r (popT u [(ch * cg, false), (C β * (ch * cg), false), (cr + C β * (ch * cg), false)] TU) TP)
      (do
        let hn ← mul hn hl
        let z ← coef
        let r ← add rr (← sMul z.2 hn)
        return (hn, r, z.1))
      (fun z st => At E u r TU (pushT r TP [(ch * cg, false), (C β * (ch * cg), false), (cr + C β * (ch * cg), false)]) st ∧
        (Sem E false (ch * cg) (vh * vg) z.1 ∧ Sem E false (cr + C β * (ch * cg)) (vr + β * (vh * vg)) z.2.1 ∧ Q z.2.2)) := by
  have e1 : popT u [(ch * cg, false), (C β * (ch * cg), false), (cr + C β * (ch * cg), false)] TU =
      popT u [(ch * cg, false)] (popT u [(C β * (ch * cg), false)] (popT u [(cr + C β * (ch * cg), false)] TU)) := by
    rw [← popT_append, ← popT_append]; rfl
  have e2 : pushT r TP [(ch * cg, false), (C β * (ch * cg), false), (cr + C β * (ch * cg), false)] =
      pushT r (pushT r (pushT r TP [(ch * cg, false)]) [(C β * (ch * cg), false)]) [(cr + C β * (ch * cg), false)] := by
    rw [← pushT_append, ← pushT_append]; rfl
  rw [e1, e2]
  have m1 := mul_spec hE hh hg u r (popT u [(C β * (ch * cg), false)] (popT u [(cr + C β * (ch * cg), false)] TU)) TP
  simp only [Bool.and_false] at m1
  refine m1.bind fun h1 => Tri.pure_pre fun s1 => ?_
  refine (hc _ _).bind fun z => Tri.pure_pre fun hz => ?_
  refine (sMul_spec hE s1 hz.1 u r _ _).bind fun h2 => Tri.pure_pre fun s2 => ?_
  have m3 := add_spec hE hr s2 u r TU (pushT r (pushT r TP [(ch * cg, false)]) [(C β * (ch * cg), false)])
  simp only [Bool.and_false] at m3
  exact m3.bind fun h3 => Tri.pure_pre fun s3 => Tri.pure fun st hst => ⟨hst, s1, s3, hz.2⟩

/-- an entry to be used may be exchanged for one with the same series below `l` -/
theorem At.change {u r : Bool} {c c' : PowerSeries ℝ} {k : Bool} (hc : ∀ i < E.l, coeff i c = coeff i c')
    {TU TP} {st : PSt S} (h : At E u r (popT u [(c, k)] TU) TP st) : At E u r (popT u [(c', k)] TU) TP st := by
  refine ⟨h.mode, h.domain, h.use, h.record, ?_⟩
  cases u with
  | false => simpa [popT] using h.inv
  | true =>
    have hi := h.inv
    simp only [popT, if_true] at hi ⊢
    obtain ⟨U, P, hh, hU, hP⟩ := hi
    refine ⟨U, P, hh, ?_, hP⟩
    cases hU with
    | cons a b => exact .cons ⟨fun i x hi hx => by show mem (coeff i c') x; rw [← hc i hi]; exact a.mem i x hi hx, a.len, a.con⟩ b

/-- a parameter bundle for the loop -/
structure LoopHyp (E : Env S) (n : ℕ) {K : Type} (hs : Res (List S)) (stp : ℕ → K → Res (K × S)) (lst : ℕ → K → PM S S)
    (b : ℕ → ℝ) (G : PowerSeries ℝ) (g fv : ℝ) (Kinv : ℕ → K → Prop) (Extra : Prop) : Prop where
  size : n = E.s
  step : ∀ hl, hs = .ok hl → Sem E false G g hl
  stp_ok : ∀ i κ κ' z, i + 1 < E.s → Kinv i κ → stp (i + 1) κ = .ok (κ', z) → Kinv (i + 1) κ' ∧ mem (b (i + 1)) z
  lst_ok : E.md = 2 → ∀ κ, Kinv (E.s - 2) κ → ∀ u r TU TP, Tri (At E u r TU TP) (lst (E.s - 1) κ) (fun z st => At E u r TU TP st ∧
    ∃ β, mem β z ∧ fv = ∑ i ∈ Finset.range (E.s - 1), b i * g ^ i + β * g ^ (E.s - 1) ∧ Extra)

/-- what is known after `j` passes -/
def LoopPost (E : Env S) {K : Type} (b : ℕ → ℝ) (G : PowerSeries ℝ) (g fv : ℝ) (Kinv : ℕ → K → Prop) (Extra : Prop) (j : ℕ)
    (z : List S × List S × K) : Prop :=
  if E.md = 2 ∧ j = E.s - 1 then
    (∃ β, Sem E false (psum b G (E.s - 2) + C β * G ^ (E.s - 1)) fv z.2.1) ∧ Extra
  else Sem E (decide (j = 0)) (G ^ j) (g ^ j) z.1 ∧
    Sem E (decide (j = 0)) (psum b G j) (∑ i ∈ Finset.range (j + 1), b i * g ^ i) z.2.1 ∧ Kinv j z.2.2

theorem loop_spec (hE : E.Ok) {n : ℕ} {K : Type} {hs : Res (List S)} {stp : ℕ → K → Res (K × S)} {lst : ℕ → K → PM S S}
    {b : ℕ → ℝ} {G : PowerSeries ℝ} {g fv : ℝ} {Kinv : ℕ → K → Prop} {Extra : Prop}
    (H : LoopHyp E n hs stp lst b G g fv Kinv Extra) (hG0 : coeff 0 G = 0) {old : ℕ} {r0 : S} {κ0 : K} (hr0 : mem (b 0) r0) (hκ : Kinv 0 κ0)
    (u r : Bool) (TU TP) (ho : u = true → old = E.m) : ∀ j, j < E.s →
    Tri (At E u r (popT u (segs b G 0 (E.m - 1)) TU) TP) (loop n old hs stp lst j [r0] κ0)
      (fun z st => At E (u && decide (j < E.m)) (r && decide (j < E.l)) (popT u (segs b G j (E.m - 1 - j)) TU)
        (pushT r TP (segs b G 0 (min j (E.l - 1)))) st ∧ LoopPost E b G g fv Kinv Extra j z)
  | 0, hj => by
    unfold loop
    refine Tri.pure fun st hst => ⟨?_, ?_⟩
    · have h1 : (0 < E.m) := hE.one_le
      have h2 : (0 < E.l) := hE.l_pos
      simpa [h1, h2, segs, pushT_nil] using hst
    · have h0 : ¬ (E.md = 2 ∧ 0 = E.s - 1) := by
        rintro ⟨h2, h3⟩
        have := (hE.two h2).1; omega
      rw [LoopPost, if_neg h0]
      refine ⟨?_, ?_, hκ⟩
      · simpa using sem_const hE one_mem
      · simpa [psum] using sem_const hE hr0
  | j + 1, hj => by
    have IH := loop_spec hE H hG0 hr0 hκ u r TU TP ho j (by omega)
    unfold loop
    refine IH.bind fun z => Tri.pure_pre fun hz => ?_
    have h0 : ¬ (E.md = 2 ∧ j = E.s - 1) := by omega
    rw [LoopPost, if_neg h0] at hz
    obtain ⟨hh, hr, hK⟩ := hz
    obtain ⟨hn, rr, κ⟩ := z
    simp only at hh hr hK ⊢
    unfold body
    refine (useOff_spec rfl ho).bind fun _ => ?_
    refine recOff_spec.bind fun lastp => Tri.pure_pre fun hl => ?_
    rw [H.size] at hl
    have hpop : popT u (segs b G j (E.m - 1 - j)) TU =
        popT (u && decide (j + 1 < E.m)) (seg b G (j + 1)) (popT u (segs b G (j + 1) (E.m - 1 - (j + 1))) TU) := by
      by_cases h : j + 1 < E.m
      · have e : E.m - 1 - j = (E.m - 1 - (j + 1)) + 1 := by omega
        rw [e, segs, popT_append]
        simp [h]
      · have e1 : E.m - 1 - j = 0 := by omega
        have e2 : E.m - 1 - (j + 1) = 0 := by omega
        rw [e1, e2]
        simp [segs, h, popT]
    cases lastp with
    | true =>
      obtain ⟨h2, hlast⟩ := hl.1 rfl
      obtain ⟨hs2, hls, -⟩ := hE.two h2
      have hl2 : j = E.s - 2 := by omega
      simp only [if_true, Bool.not_true, Bool.and_false]
      refine Tri.bind_lift fun hl hhl => ?_
      have hg := H.step hl hhl
      -- the recorded entries of the last pass belong to another coefficient; they agree below `l`
      have z1 : ∀ i < E.l, coeff i (G ^ (j + 1)) = 0 := fun i hi => coeff_pow_lt hG0 (by omega)
      rw [hpop]
      generalize hu' : (u && decide (j + 1 < E.m)) = u'
      generalize hV : popT u (segs b G (j + 1) (E.m - 1 - (j + 1))) TU = V
      generalize hW : pushT r TP (segs b G 0 (min j (E.l - 1))) = W
      have e1 : popT u' (seg b G (j + 1)) V = popT u' [(G ^ (j + 1), false)] (popT u' [(C (b (j + 1)) * G ^ (j + 1), false)]
          (popT u' [(psum b G (j + 1), false)] V)) := by
        rw [← popT_append, ← popT_append]; rfl
      rw [e1]
      have m1 := mul_spec hE hh hg u' false (popT u' [(C (b (j + 1)) * G ^ (j + 1), false)] (popT u' [(psum b G (j + 1), false)] V)) W
      simp only [Bool.and_false] at m1
      rw [← pow_succ] at m1
      refine m1.bind fun h1 => Tri.pure_pre fun s1 => ?_
      have hlo := H.lst_ok h2 κ (by rw [← hl2]; exact hK)
      rw [← hlast] at hlo
      refine (hlo _ _ _ _).bind fun c => Tri.pure_pre fun hc => ?_
      obtain ⟨β, hβ, hfv, hex⟩ := hc
      have m2 := sMul_spec hE s1 hβ u' false (popT u' [(psum b G (j + 1), false)] V) W
      refine (m2.pre fun st hst => ?_).bind fun h2' => Tri.pure_pre fun s2 => ?_
      · have := At.change (c := C (b (j + 1)) * G ^ (j + 1)) (c' := C β * G ^ (j + 1)) (fun i hi => by
          rw [PowerSeries.coeff_C_mul, PowerSeries.coeff_C_mul, z1 i hi, mul_zero, mul_zero]) hst
        simpa only [pushT, Bool.false_eq_true, if_false] using this
      have m3 := add_spec hE hr s2 u' false V W
      simp only [Bool.and_false] at m3
      refine (m3.pre fun st hst => ?_).bind fun h3 => Tri.pure_pre fun s3 => Tri.pure fun st hst => ⟨?_, ?_⟩
      · have := At.change (c := psum b G (j + 1)) (c' := psum b G j + C β * G ^ (j + 1)) (fun i hi => by
          rw [psum_succ, map_add, map_add, PowerSeries.coeff_C_mul, PowerSeries.coeff_C_mul, z1 i hi, mul_zero, mul_zero]) hst
        simpa only [pushT, Bool.false_eq_true, if_false] using this
      · have e1 : ¬ (j + 1 < E.l) := by omega
        have e2 : min (j + 1) (E.l - 1) = min j (E.l - 1) := by omega
        rw [e2, hW]
        simpa [e1, pushT] using hst
      · rw [LoopPost, if_pos ⟨h2, hlast⟩]
        refine ⟨⟨β, ?_⟩, hex⟩
        have e : (j + 1) = E.s - 1 := hlast
        refine s3.congr (fun i _ => ?_) (fun _ => ?_) (fun h => by cases h)
        · rw [← hl2, e]
        · rw [hfv, ← pow_succ, e]
    | false =>
      have hnl : ¬ (E.md = 2 ∧ j + 1 = E.s - 1) := fun h => by have := hl.2 h; cases this
      simp only [Bool.false_eq_true, if_false, Bool.not_false, Bool.and_true]
      refine Tri.bind_lift fun hl hhl => ?_
      have hg := H.step hl hhl
      rw [hpop]
      have hjl : j + 1 < E.l := by
        rcases hE.cases' with h | h
        · omega
        · have := h.1; omega
      have hjl' : j < E.l := by omega
      simp only [hjl', decide_true, Bool.and_true]
      have P := pass_spec (K := K) (β := b (j + 1)) hE hh hr hg (u := (u && decide (j + 1 < E.m))) (r := r)
        (TU := popT u (segs b G (j + 1) (E.m - 1 - (j + 1))) TU) (TP := pushT r TP (segs b G 0 (min j (E.l - 1))))
        (coef := lift (stp (j + 1) κ)) (Q := Kinv (j + 1))
        (fun TU TP => Tri.lift fun z st hz hst => ⟨hst, by
          obtain ⟨h1, h2⟩ := H.stp_ok j κ z.1 z.2 hj hK hz
          exact ⟨h2, h1⟩⟩)
      rw [← pow_succ, ← psum_succ] at P
      refine P.post fun z st hz => ⟨?_, ?_⟩
      · have e : min (j + 1) (E.l - 1) = min j (E.l - 1) + 1 := by omega
        have e' : min j (E.l - 1) = j := by omega
        rw [e, segs_right, pushT_append, e']
        have hst := hz.1
        rw [e'] at hst
        simpa [hjl, seg] using hst
      · rw [LoopPost, if_neg hnl]
        refine ⟨by simpa [pow_succ] using hz.2.1, ?_, hz.2.2.2⟩
        have := hz.2.2.1
        rw [← pow_succ, ← Finset.sum_range_succ (fun i => b i * g ^ i)] at this
        simpa using this

/-- the specification of an operation with several recorded results (`T m` for size `m`); on success also `X` is known -/
def OpT (E : Env S) (T : ℕ → List (PowerSeries ℝ × Bool)) (k : Bool) (c : PowerSeries ℝ) (v : ℝ) (X : Prop) (m : PM S (List S)) : Prop :=
  ∀ u r TU TP, Tri (At E u r (popT u (T E.m) TU) TP) m (fun z st => At E u r TU (pushT r TP (T E.l)) st ∧ (Sem E k c v z ∧ X))

theorem setUse_spec {u u' r : Bool} {TU TP} : Tri (S := S) (At E u' r TU TP) (setUse u) (fun _ st => At E u r TU TP st) := by
  intro st hst z st' hz
  simp only [setUse] at hz
  cases hz
  exact ⟨hst.mode, hst.domain, rfl, hst.record, hst.inv⟩

theorem setRec_spec {u r r' : Bool} {TU TP} : Tri (S := S) (At E u r' TU TP) (setRec r) (fun _ st => At E u r TU TP st) := by
  intro st hst z st' hz
  simp only [setRec] at hz
  cases hz
  exact ⟨hst.mode, hst.domain, hst.use, rfl, hst.inv⟩

theorem oldSize_spec {u r : Bool} {c : PowerSeries ℝ} {k : Bool} {TU' TU TP} :
    Tri (S := S) (At E u r (popT u ((c, k) :: TU') TU) TP) oldSize
      (fun z st => At E u r (popT u ((c, k) :: TU') TU) TP st ∧ (k = false → u = true → z = E.m)) := by
  intro st hst z st' hz
  unfold oldSize at hz
  rw [get_bind, hst.use] at hz
  cases u with
  | false =>
    simp only [Bool.false_eq_true, if_false] at hz
    obtain ⟨-, rfl⟩ := pure_run hz
    exact ⟨hst, fun _ h => by cases h⟩
  | true =>
    simp only [if_true] at hz
    obtain ⟨e, h', hh, hm, -⟩ := Inv.uncons (by simpa [popT] using hst.inv)
    rw [hh] at hz
    obtain ⟨rfl, rfl⟩ := pure_run hz
    exact ⟨hst, fun hk _ => hm.len hk⟩

/-- the trace of a function starts with an entry of the kind `k` -/
theorem trT_cons (b : ℕ → ℝ) (G : PowerSeries ℝ) (k : Bool) (res : PowerSeries ℝ) (m : ℕ) :
    ∃ c l, trT b G k res m = (c, k) :: l := by
  unfold trT
  cases k with
  | true => exact ⟨res, [], rfl⟩
  | false =>
    rcases h : m - 1 with _ | n
    · exact ⟨res, [], rfl⟩
    · exact ⟨_, _, rfl⟩

theorem taylor_spec (hE : E.Ok) {k : Bool} {c : PowerSeries ℝ} {v : ℝ} {x : List S} (hx : Sem E k c v x)
    {K : Type} {hs : Res (List S)} {stp : ℕ → K → Res (K × S)} {lst : ℕ → K → PM S S}
    {a b : ℕ → ℝ} {G : PowerSeries ℝ} {κ g fv : ℝ} {Kinv : ℕ → K → Prop} {Extra : Prop} {r0 : S} {κ0 : K}
    (hκ : κ ≠ 0) (hG : G = C κ⁻¹ * (c - C (coeff 0 c))) (hb : ∀ i, b i = a i * κ ^ i)
    (H : k = false → LoopHyp E E.s hs stp lst b G g fv Kinv Extra) (hcon : k = true → fv = a 0)
    (hr0 : mem (a 0) r0) (hK : k = false → Kinv 0 κ0) :
    OpT E (trT b G k (comp a (c - C (coeff 0 c)))) k (comp a (c - C (coeff 0 c))) fv (k = false → E.md = 2 → Extra)
      (taylor x hs r0 κ0 stp lst) := by
  intro u r TU TP
  have h0 : coeff 0 (c - C (coeff 0 c)) = 0 := by simp
  have hb0 : b 0 = a 0 := by rw [hb]; simp
  unfold taylor
  refine Tri.bind_get fun st0 hst0 => Tri.pre (P := At E u r (popT u (trT b G k (comp a (c - C (coeff 0 c))) E.m) TU) TP)
    ?_ (by rintro _ rfl; exact hst0)
  rw [hst0.use, hst0.record]
  -- the end: `r * 1.`
  have fin : ∀ rr, Sem E k (comp a (c - C (coeff 0 c))) fv rr → ∀ P u' r',
      Tri (At E u' r' (popT u [(comp a (c - C (coeff 0 c)), k)] TU) P) (do
        setUse u
        setRec r
        mulC rr (lit 1)) (fun z st => At E u r TU (pushT r P [(comp a (c - C (coeff 0 c)), k)]) st ∧
          Sem E k (comp a (c - C (coeff 0 c))) fv z) := by
    intro rr hrr P u' r'
    refine setUse_spec.bind fun _ => setRec_spec.bind fun _ => ?_
    have := mulC_spec hE hrr Interval.is_one u r TU P
    simpa using this
  obtain ⟨c1, l1, e1⟩ := trT_cons b G k (comp a (c - C (coeff 0 c))) E.m
  rw [e1]
  refine oldSize_spec.bind fun old => Tri.pure_pre fun hold => ?_
  rw [← e1]
  cases k with
  | true =>
    have hl : x.length = 1 := by simpa using hx.len
    rw [hl]
    have hc := hx.con rfl
    have hres : comp a (c - C (coeff 0 c)) = C fv := by
      have e : c - C (coeff 0 c) = 0 := by rw [hc]; simp
      rw [e]
      ext i
      rw [comp, coeff_mk, Finset.sum_eq_single 0]
      · rw [hcon rfl, pow_zero, PowerSeries.coeff_one, PowerSeries.coeff_C]; simp
      · intro j _ hj; rw [zero_pow hj]; simp
      · intro h; simp at h
    simp only [loop, Nat.sub_self, trT, if_true, List.nil_append]
    refine (Tri.pure (Q := fun z st => At E u r (popT u [(comp a (c - C (coeff 0 c)), true)] TU) TP st ∧ z = ([one], [r0], κ0))
      fun st hst => ⟨hst, rfl⟩).bind fun z => Tri.pure_pre fun hz => ?_
    subst hz
    refine (fin [r0] ?_ TP u r).post fun z st hz => ⟨hz.1, hz.2, fun h => by cases h⟩
    rw [hres]
    have := sem_const hE hr0
    rwa [← hcon rfl] at this
  | false =>
    have hl : x.length = E.s := by simpa using hx.len
    rw [hl]
    have H := H rfl
    simp only [trT, Bool.false_eq_true, if_false]
    rw [popT_append]
    have L := loop_spec hE H (by rw [hG, PowerSeries.coeff_C_mul, h0, mul_zero]) (old := old) (r0 := r0) (κ0 := κ0) (by rw [hb0]; exact hr0) (hK rfl) u r
      (popT u [(comp a (c - C (coeff 0 c)), false)] TU) TP (hold rfl) (E.s - 1) (by have := hE.s_pos; omega)
    refine L.bind fun z => Tri.pure_pre fun hz => ?_
    have em : segs b G (E.s - 1) (E.m - 1 - (E.s - 1)) = [] := by
      have : E.m - 1 - (E.s - 1) = 0 := by have := hE.le; omega
      rw [this]; rfl
    have el : min (E.s - 1) (E.l - 1) = E.l - 1 := by have := hE.l_le; omega
    rw [em, el, popT_nil]
    have hpost : Sem E false (comp a (c - C (coeff 0 c))) fv z.2.1 ∧ (E.md = 2 → Extra) := by
      unfold LoopPost at hz
      split_ifs at hz with h2
      · obtain ⟨⟨β, hz⟩, hex⟩ := hz
        refine ⟨hz.congr (fun i hi => ?_) (fun _ => rfl) (fun h => by cases h), fun _ => hex⟩
        obtain ⟨hs2, hls, -⟩ := hE.two h2.1
        rw [psum_scale hκ hG hb, map_add, PowerSeries.coeff_C_mul, coeff_psum h0 (by omega), coeff_pow_lt ?_ (by omega)]
        · simp
        · rw [hG, PowerSeries.coeff_C_mul, h0, mul_zero]
      · have h1 : E.md ≠ 2 := fun h => h2 ⟨h, rfl⟩
        refine ⟨?_, fun h => absurd h h1⟩
        obtain ⟨-, hz, -⟩ := hz
        rw [psum_scale hκ hG hb] at hz
        obtain ⟨hm1, hls⟩ := hE.one h1
        obtain ⟨p, hp, hr⟩ := hz.rep
        refine ⟨?_, fun h => (by cases h), p, hp, fun i hi => ?_, fun h => absurd h h1, fun h => (by cases h)⟩
        · have := hz.len
          by_cases e : E.s - 1 = 0
          · have : E.s = 1 := by have := hE.s_pos; omega
            simp_all
          · simpa [e] using this
        · rw [hr.low i hi, coeff_psum h0 (by omega)]
    refine (fin z.2.1 hpost.1 _ _ _).post fun y st hy => ⟨?_, hy.2, fun _ => hpost.2⟩
    rw [pushT_append]
    exact hy.1

end Psa
end Kv
