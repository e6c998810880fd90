import Verif.Conv.ReadNum

/-!
# `stringtod`: the whole function
-/

namespace Kv
namespace Conv
open Rop (lit)

theorem neg_up {m : D} {X : ℚ} (h : UpOf m X) : DnOf (Rop.neg m) (-X) := by
  rcases m with _ | _ | _ | ⟨q, hq⟩
  · exact h.elim
  · trivial
  · exact h.elim
  · exact neg_le_neg (show X ≤ q from h)

theorem neg_dn {m : D} {X : ℚ} (h : DnOf m X) : UpOf (Rop.neg m) (-X) := by
  rcases m with _ | _ | _ | ⟨q, hq⟩
  · exact h.elim
  · exact h.elim
  · trivial
  · exact neg_le_neg (show q ≤ X from h)

/-- the sign is put back -/
theorem signed_spec {mode : RMode} {neg : Bool} {m : D} {X : ℚ} (hg : Grow mode neg → UpOf m X) (hs : Shrink mode neg → DnOf m X) :
    (mode = .up → UpOf (signed neg m) ((if neg then -1 else 1) * X)) ∧
    (mode = .down → DnOf (signed neg m) ((if neg then -1 else 1) * X)) := by
  cases neg
  · simp only [signed, Bool.false_eq_true, if_false, one_mul]
    exact ⟨fun h => hg (Or.inl ⟨h, rfl⟩), fun h => hs (Or.inl ⟨h, rfl⟩)⟩
  · simp only [signed, if_true, neg_mul, one_mul]
    exact ⟨fun h => neg_dn (hs (Or.inr ⟨h, rfl⟩)), fun h => neg_up (hg (Or.inr ⟨h, rfl⟩))⟩

/-- the absolute value of what was parsed -/
def Parsed.abs (p : Parsed) : ℚ :=
  ((vBE 10 p.num1 : ℚ) + fv 10 p.num2) * 10 ^ (if p.eneg then -(atoi p.nume : ℤ) else atoi p.nume)

def Parsed.Digits (p : Parsed) : Prop := (∀ d ∈ p.num1, d < 10) ∧ (∀ d ∈ p.num2, d < 10)

theorem pow10_lt (n : ℕ) : 10 ^ n ≤ 2 ^ (4 * n) := by
  rw [pow_mul]; exact Nat.pow_le_pow_left (by norm_num) n

/-- the decimal point is put at its place -/
theorem table_spec {p : Parsed} (hp : p.Digits) {e10 : ℤ} (he : e10 = if p.eneg then -(atoi p.nume : ℤ) else atoi p.nume)
    {n1 n2 all ip fp : List ℕ} (h1 : n1 = p.num1.dropWhile (· = 0)) (h2 : n2 = p.num2.rdropWhile (· = 0))
    (hall : all = n1 ++ n2 ++ List.replicate (e10 - n2.length : ℤ).toNat 0)
    (hip : ip = all.take ((n1.length - 1 + e10 : ℤ) + 1).toNat)
    (hfp : fp = List.replicate (-1 - (n1.length - 1 + e10 : ℤ)).toNat 0 ++ all.drop ((n1.length - 1 + e10 : ℤ) + 1).toNat) :
    (vBE 10 ip : ℚ) + fv 10 fp = p.abs ∧ (∀ d ∈ ip, d < 10) ∧ (∀ d ∈ fp, d < 10) := by
  have hd : ∀ d ∈ all, d < 10 := by
    intro d hd
    rw [hall] at hd
    rcases List.mem_append.1 hd with hd | hd
    · rcases List.mem_append.1 hd with hd | hd
      · exact hp.1 d (mem_dropWhile (h1 ▸ hd))
      · exact hp.2 d (mem_rdropWhile (h2 ▸ hd))
    · rw [List.eq_of_mem_replicate hd]; norm_num
  have hlen : (n1.length : ℤ) + e10 ≤ all.length := by
    rw [hall, List.length_append, List.length_append, List.length_replicate]; push_cast; omega
  refine ⟨?_, fun d h => hd d (List.mem_of_mem_take (hip ▸ h)), ?_⟩
  · have h3 := split_point (b := 10) (by norm_num) all (n1.length + e10) hlen
    rw [hip, hfp, show (n1.length - 1 + e10 : ℤ) + 1 = n1.length + e10 by ring,
      show -1 - (n1.length - 1 + e10 : ℤ) = -(n1.length + e10) by ring, h3, hall, fv_append (by norm_num), fv_replicate, zero_div,
      add_zero, fv_append (by norm_num), Parsed.abs, ← he]
    rw [← vBE_dropWhile, ← h1, ← fv_rdropWhile (b := 10) (by norm_num) p.num2, ← h2, ← fv_eq (by norm_num)]
    push_cast
    rw [zpow_add₀ (by norm_num), zpow_natCast]
    field_simp
  · intro d h
    rw [hfp] at h
    rcases List.mem_append.1 h with h | h
    · rw [List.eq_of_mem_replicate h]; norm_num
    · exact hd d (List.mem_of_mem_drop h)

theorem inv_init {X : ℚ} {ip fp : List ℕ} (hX : (vBE 10 ip : ℚ) + fv 10 fp = X) (hip : ∀ d ∈ ip, d < 10) {r1 : List ℕ}
    (hr : r1 = intLoop 10 2 mBin (4 * ip.length) ip) :
    Inv X r1.reverse ⟨if r1 = [] then none else some (r1.length - 1), 0, []⟩ (fv 10 fp) := by
  have hv : vBE 10 ip < 2 ^ (4 * ip.length) := lt_of_lt_of_le (vBE_lt hip) (pow10_lt _)
  have h1 := intLoop_val (b := 10) (B := 2) (by norm_num) mBin_pos hv
  rw [← hr] at h1
  refine ⟨?_, le_rfl, by simp, ?_, ?_, ?_⟩
  · rw [← hX]
    simp only [List.append_nil, vBE_reverse, h1, zpow_zero, mul_one]
  · intro h
    refine ⟨rfl, ?_⟩
    by_cases h0 : r1 = []
    · rw [h0]; rfl
    · simp [h0] at h
  · intro mx h
    by_cases h0 : r1 = []
    · simp [h0] at h
    · simp only [h0, if_false, Option.some.injEq] at h
      simp only [List.append_nil, List.length_reverse]
      omega
  · intro mx h _
    by_cases h0 : r1 = []
    · simp [h0] at h
    · simp only [h0, if_false, Option.some.injEq] at h
      simp only [List.length_reverse]
      omega

theorem Inv.scaled {X f : ℚ} {r1 : List ℕ} {st : BinSt} (h : Inv X r1 st f) {mx : ℤ} (hm : st.max = some mx) :
    X = (fv 2 (r1 ++ st.bits) + f / 2 ^ (r1 ++ st.bits).length) * 2 ^ (mx + 1) := by
  have h1 := h.some' mx hm
  have h2 := fv_eq (b := 2) (by norm_num) (r1 ++ st.bits)
  have h3 : (2 : ℚ) ^ (mx + 1) = 2 ^ (r1 ++ st.bits).length * 2 ^ st.min := by
    rw [← zpow_natCast, ← zpow_add₀ (by norm_num)]; congr 1; omega
  rw [h.val, h3, ← h2]
  push_cast
  field_simp

theorem maxQ_lt : binary64.maxQ ≤ 2 ^ (1024 : ℤ) := by
  unfold Format.maxQ
  have : (2 : ℚ) ^ (1024 : ℤ) = 2 ^ 53 * 2 ^ (971 : ℤ) := by
    rw [show (1024 : ℤ) = (53 : ℕ) + 971 by norm_num, zpow_add₀ (by norm_num), zpow_natCast]
  rw [this]
  apply mul_le_mul_of_nonneg_right _ (zpow_nonneg (by norm_num) _)
  show (2 : ℚ) ^ 53 - 1 ≤ 2 ^ 53
  linarith

theorem rep_minQ : binary64.Rep (2 ^ (-1074 : ℤ)) := by
  have := rep64 (K := 1) (e := -1074) (n := 1) (mx := -1074) (by norm_num) (by norm_num) (by norm_num) (by norm_num) (by norm_num)
  simpa using this

theorem rep_zero64 : binary64.Rep 0 := by
  have := rep64 (K := 0) (e := 0) (n := 1) (mx := 0) (by norm_num) (by norm_num) (by norm_num) (by norm_num) (by norm_num)
  simpa using this

/-- the last part of `stringtod`, conv-double.hpp:578-626 -/
def finish (neg : Bool) (mode : RMode) (mx : ℤ) (bits : List ℕ) : D :=
  if mx > 1023 then
    if away mode neg 5 then signed neg Fl.pinf else signed neg (Fl.fin binary64.maxQ Format.maxQ_rep)
  else if mx < -1075 then
    if away mode neg 0 then signed neg (lit (2 ^ (-1074 : ℤ))) else signed neg (lit 0)
  else signed neg (accum neg mode mx bits mx (lit 0))

theorem finish_spec {neg : Bool} {mode : RMode} {X f : ℚ} {r1 : List ℕ} {st : BinSt} {mx : ℤ} (h : Inv X r1 st f)
    (hr1 : ∀ d ∈ r1, d < 2) (hm : st.max = some mx) (hf0 : 0 ≤ f) (hf1 : f < 1) (hfull : f = 0 ∨ 53 ≤ mx - st.min)
    (hbig : 1023 < mx → (2 : ℚ) ^ mx ≤ X) :
    (mode = .up → UpOf (finish neg mode mx (r1 ++ st.bits)) ((if neg then -1 else 1) * X)) ∧
    (mode = .down → DnOf (finish neg mode mx (r1 ++ st.bits)) ((if neg then -1 else 1) * X)) := by
  have hd : ∀ d ∈ r1 ++ st.bits, d < 2 := by
    intro d hd
    rcases List.mem_append.1 hd with hd | hd
    · exact hr1 d hd
    · exact h.bit d hd
  have hsc := h.scaled hm
  have hy := rest_bounds hd hf0 hf1
  have hpos : (0 : ℚ) < 2 ^ (mx + 1) := zpow_pos (by norm_num) _
  have hX0 : 0 ≤ X := by rw [hsc]; exact mul_nonneg hy.1 hpos.le
  unfold finish
  by_cases h1 : mx > 1023
  · rw [if_pos h1]
    by_cases ha : away mode neg 5 = true
    · rw [if_pos ha]
      refine signed_spec (fun _ => trivial) fun hs => ?_
      rw [away_of_shrink hs] at ha; simp at ha
    · rw [if_neg ha]
      refine signed_spec (fun hg => absurd (away_of_grow hg 5) ha) fun hs => ?_
      show binary64.maxQ ≤ X
      refine maxQ_lt.trans (le_trans ?_ (hbig h1))
      exact zpow_le_zpow_right₀ (by norm_num) (by omega)
  · rw [if_neg h1]
    by_cases h2 : mx < -1075
    · rw [if_pos h2]
      have hlt : X ≤ 2 ^ (-1074 : ℤ) := by
        have : (2 : ℚ) ^ (mx + 1) ≤ 2 ^ (-1074 : ℤ) := zpow_le_zpow_right₀ (by norm_num) (by omega)
        rw [hsc]
        nlinarith [hy.2]
      by_cases ha : away mode neg 0 = true
      · rw [if_pos ha, lit_fin rep_minQ]
        refine signed_spec (fun _ => hlt) fun hs => ?_
        rw [away_of_shrink hs] at ha; simp at ha
      · rw [if_neg ha, lit_fin rep_zero64]
        exact signed_spec (fun hg => absurd (away_of_grow hg 0) ha) fun hs => hX0
    · rw [if_neg h2, lit_fin rep_zero64]
      have hlen := h.some' mx hm
      obtain ⟨a1, a2⟩ := accum_spec (mode := mode) (neg := neg) (X := X) (mx := mx) (by omega) hf0 hf1 hd (i := mx) (n := 0) (K := 0)
        (by simp) (by norm_num) (by omega) (by norm_num) (by simp) rep_zero64 (by rw [zero_add]; exact hsc) (by
          rcases hfull with h | h
          · exact Or.inl h
          · right; omega)
      exact signed_spec a1 a2

/-- the parts of `convert` -/
theorem convert_eq {p : Parsed} {mode : RMode} (hs : atoi p.nume + p.num1.length + p.num2.length ≤ 100000000)
    {e10 : ℤ} (he : e10 = if p.eneg then -(atoi p.nume : ℤ) else atoi p.nume)
    {n1 n2 all ip fp r1 : List ℕ} (h1 : n1 = p.num1.dropWhile (· = 0)) (h2 : n2 = p.num2.rdropWhile (· = 0))
    (hall : all = n1 ++ n2 ++ List.replicate (e10 - n2.length : ℤ).toNat 0)
    (hip : ip = all.take ((n1.length - 1 + e10 : ℤ) + 1).toNat)
    (hfp : fp = List.replicate (-1 - (n1.length - 1 + e10 : ℤ)).toNat 0 ++ all.drop ((n1.length - 1 + e10 : ℤ) + 1).toNat)
    (hr : r1 = intLoop 10 2 mBin (4 * ip.length) ip) :
    convert p mode = (do
      let st ← binLoop (fp.length + 60) fp ⟨if r1 = [] then none else some (r1.length - 1), 0, []⟩
      match st.max with
      | none => if st.min < 0 then .error .undefined else .ok (signed p.neg (lit 0))
      | some mx => .ok (finish p.neg mode mx (r1.reverse ++ st.bits))) := by
  unfold convert
  dsimp only
  rw [if_neg (by omega), ← he, ← h1, ← h2, ← hall, ← hip, ← hfp, ← hr]
  congr 1
  funext st
  cases st.max with
  | none => rfl
  | some mx =>
    dsimp only [finish]
    split_ifs <;> rfl

theorem binLoop_ends {fp : List ℕ} (hfp : ∀ d ∈ fp, d < 10) {st : BinSt} (h0 : st.min = 0) (hm : ∀ mx, st.max = some mx → 0 ≤ mx) :
    ∃ st', binLoop (fp.length + 60) fp st = .ok st' := by
  cases h : st.max with
  | some mx =>
    have := hm mx h
    exact binLoop_some h (by omega)
  | none =>
    refine binLoop_none (j := fp.length) hfp h ?_ (by omega)
    have h1 := fv_eq (b := 10) (by norm_num) fp
    by_cases h2 : vBE 10 fp = 0
    · left
      rw [h2] at h1
      have : ((10 : ℕ) : ℚ) ^ fp.length ≠ 0 := by positivity
      simpa [this] using h1
    · right
      push_cast at h1
      rw [h1]
      exact_mod_cast Nat.pos_of_ne_zero h2

/-- `stringtod` on parsed digits: when it gives a number, and that the number is rounded in the right direction -/
theorem convert_spec {p : Parsed} (hp : p.Digits) {mode : RMode} :
    (∀ r, convert p mode = .ok r →
      (mode = .up → UpOf r ((if p.neg then -1 else 1) * p.abs)) ∧ (mode = .down → DnOf r ((if p.neg then -1 else 1) * p.abs))) ∧
    (atoi p.nume + p.num1.length + p.num2.length ≤ 100000000 →
      ((p.abs ≠ 0 ∨ p.eneg = false ∨ atoi p.nume = 0) ∧ ∃ r, convert p mode = .ok r) ∨
      (p.abs = 0 ∧ p.eneg = true ∧ atoi p.nume ≠ 0 ∧ convert p mode = .error .undefined)) := by
  by_cases hs : atoi p.nume + p.num1.length + p.num2.length ≤ 100000000
  swap
  · refine ⟨fun r h => ?_, fun h => absurd h hs⟩
    unfold convert at h
    dsimp only at h
    rw [if_pos (by omega)] at h
    simp at h
  obtain ⟨e10, he⟩ : ∃ e10 : ℤ, e10 = if p.eneg then -(atoi p.nume : ℤ) else atoi p.nume := ⟨_, rfl⟩
  obtain ⟨n1, h1⟩ : ∃ n1, n1 = p.num1.dropWhile (· = 0) := ⟨_, rfl⟩
  obtain ⟨n2, h2⟩ : ∃ n2, n2 = p.num2.rdropWhile (· = 0) := ⟨_, rfl⟩
  obtain ⟨all, hall⟩ : ∃ all, all = n1 ++ n2 ++ List.replicate (e10 - n2.length : ℤ).toNat 0 := ⟨_, rfl⟩
  obtain ⟨ip, hip⟩ : ∃ ip, ip = all.take ((n1.length - 1 + e10 : ℤ) + 1).toNat := ⟨_, rfl⟩
  obtain ⟨fp, hfp⟩ : ∃ fp, fp = List.replicate (-1 - (n1.length - 1 + e10 : ℤ)).toNat 0 ++ all.drop ((n1.length - 1 + e10 : ℤ) + 1).toNat := ⟨_, rfl⟩
  obtain ⟨r1, hr⟩ : ∃ r1, r1 = intLoop 10 2 mBin (4 * ip.length) ip := ⟨_, rfl⟩
  rw [convert_eq hs he h1 h2 hall hip hfp hr]
  obtain ⟨hX, hipd, hfpd⟩ := table_spec hp he h1 h2 hall hip hfp
  have hinit := inv_init hX hipd hr
  have hr1d : ∀ d ∈ r1.reverse, d < 2 := by
    intro d hd
    rw [hr] at hd
    exact intLoop_digits (by norm_num) d (List.mem_reverse.1 hd)
  have hbig : ∀ mx : ℤ, (r1.length : ℤ) = mx + 1 → 1023 < mx → (2 : ℚ) ^ mx ≤ p.abs := by
    intro mx hl hmx
    have hv : vBE 10 ip < 2 ^ (4 * ip.length) := lt_of_lt_of_le (vBE_lt hipd) (pow10_lt _)
    have h3 := intLoop_big hv (by rw [← hr]; omega)
    rw [← hr] at h3
    have h4 : ((2 : ℚ) ^ (r1.length - 1)) ≤ vBE 10 ip := by exact_mod_cast h3
    have h5 := fv_nonneg (b := 10) fp
    have h6 : (2 : ℚ) ^ mx = 2 ^ (r1.length - 1) := by
      rw [← zpow_natCast]; congr 1; omega
    rw [h6, ← hX]; linarith
  obtain ⟨st, hst⟩ := binLoop_ends hfpd (st := ⟨if r1 = [] then none else some (r1.length - 1), 0, []⟩) rfl (by
    intro mx h
    have := hinit.some' mx h
    have h0 : r1 ≠ [] := by rintro rfl; simp at h
    have := List.length_pos_iff.2 h0
    simp only [List.append_nil, List.length_reverse] at *
    omega)
  obtain ⟨f, hf0, hf1, hinv, hfull⟩ := binLoop_spec hfpd hinit hst
  have hzero : p.abs = 0 → n1 = [] ∧ n2 = [] := by
    intro h0
    rw [Parsed.abs, mul_eq_zero] at h0
    have h0' := h0.resolve_right (zpow_ne_zero _ (by norm_num))
    have a1 : (0 : ℚ) ≤ (vBE 10 p.num1 : ℕ) := Nat.cast_nonneg _
    have a2 := fv_nonneg (b := 10) p.num2
    have a3 : vBE 10 p.num1 = 0 := by
      have : ((vBE 10 p.num1 : ℕ) : ℚ) = 0 := by linarith
      exact_mod_cast this
    constructor
    · rw [← vBE_dropWhile, ← h1] at a3
      cases hn : n1 with
      | nil => rfl
      | cons d t =>
        have hd : d ≠ 0 := dropWhile_head (h1.symm.trans hn)
        rw [hn] at a3
        have := vBE_cons_ge (t := t) hd
        have := Nat.one_le_pow t.length 10 (by norm_num)
        omega
    · rw [h2]
      apply rdrop_nil
      rw [fv_rdropWhile (by norm_num)]
      linarith
  have factU : p.abs = 0 ∧ p.eneg = true ∧ atoi p.nume ≠ 0 → st.max = none ∧ st.min < 0 := by
    rintro ⟨u1, u2, u3⟩
    obtain ⟨z1, z2⟩ := hzero u1
    rw [u2, if_pos rfl] at he
    have eall : all = [] := by
      rw [hall, z1, z2]; simp; omega
    have eip : ip = [] := by rw [hip, eall]; simp
    have er1 : r1 = [] := by rw [hr, eip, intLoop_nil]
    have efp : fp = List.replicate (atoi p.nume) 0 := by
      rw [hfp, eall, z1, he]
      simp
    obtain ⟨st', s1, s2, s3⟩ := binLoop_zeros (fuel := fp.length + 58) (fs := fp) (st := ⟨none, 0, []⟩) rfl
      (by rw [efp]; intro h; exact u3 (by simpa using congrArg List.length h)) (by rw [efp, fv_replicate])
    rw [er1, if_pos rfl, show fp.length + 60 = fp.length + 58 + 2 from rfl, s1] at hst
    cases hst
    exact ⟨s2, by rw [s3]; norm_num⟩
  have factN : ¬ (p.abs = 0 ∧ p.eneg = true ∧ atoi p.nume ≠ 0) → st.max = none → st.min = 0 := by
    intro hN hm
    obtain ⟨b1, b2⟩ := hinv.none' hm
    have hf : f = 0 := by
      rcases hfull with h | ⟨m, h1, -⟩
      · exact h
      · rw [hm] at h1; simp at h1
    have hX0 : p.abs = 0 := by rw [hinv.val, b1, b2, hf]; simp [vBE]
    obtain ⟨z1, z2⟩ := hzero hX0
    have he0 : 0 ≤ e10 := by
      by_contra hc
      apply hN
      refine ⟨hX0, ?_, ?_⟩
      · by_contra h
        rw [if_neg h] at he; omega
      · intro h
        rw [h] at he; simp at he; omega
    have efp : fp = [] := by
      rw [hfp, hall, z1, z2]
      simp
      omega
    rw [efp, binLoop, if_pos rfl] at hst
    cases hst
    rfl
  rw [hst]
  simp only [bind, Except.bind]
  by_cases hU : p.abs = 0 ∧ p.eneg = true ∧ atoi p.nume ≠ 0
  · obtain ⟨u1, u2⟩ := factU hU
    rw [u1]
    dsimp only
    rw [if_pos u2]
    exact ⟨fun r h => by simp at h, fun _ => Or.inr ⟨hU.1, hU.2.1, hU.2.2, rfl⟩⟩
  have hN : p.abs ≠ 0 ∨ p.eneg = false ∨ atoi p.nume = 0 := by
    by_contra hc
    push Not at hc
    exact hU ⟨hc.1, by simpa using hc.2.1, hc.2.2⟩
  cases hm : st.max with
  | some mx =>
    have hfull' : f = 0 ∨ 53 ≤ mx - st.min := by
      rcases hfull with h | ⟨m, h1, h2⟩
      · exact Or.inl h
      · rw [hm] at h1; cases h1; exact Or.inr h2
    have hfin := finish_spec (neg := p.neg) (mode := mode) hinv hr1d hm hf0 hf1 hfull'
      (fun h => hbig mx (by have := hinv.top mx hm (by omega); simpa using this) h)
    refine ⟨fun r h => ?_, fun _ => Or.inl ⟨hN, _, rfl⟩⟩
    simp only [Except.ok.injEq] at h
    rw [← h]; exact hfin
  | none =>
    obtain ⟨b1, b2⟩ := hinv.none' hm
    have hf : f = 0 := by
      rcases hfull with h | ⟨m, h1, -⟩
      · exact h
      · rw [hm] at h1; simp at h1
    have hX0 : p.abs = 0 := by rw [hinv.val, b1, b2, hf]; simp [vBE]
    have hmin := factN hU hm
    dsimp only
    rw [if_neg (by omega)]
    refine ⟨fun r h => ?_, fun _ => Or.inl ⟨hN, _, rfl⟩⟩
    simp only [Except.ok.injEq] at h
    rw [← h, hX0, lit_fin rep_zero64]
    exact signed_spec (fun _ => le_refl (0 : ℚ)) fun _ => le_refl (0 : ℚ)

end Conv
end Kv
