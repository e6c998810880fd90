import Verif.Conv.Model
import Mathlib.Data.Nat.Digits.Defs
import Mathlib.Tactic.Linarith
import Mathlib.Tactic.Ring
import Mathlib.Tactic.FieldSimp
import Mathlib.Tactic.Positivity

/-!
# Base conversion: the loops keep the value
-/

namespace Kv
namespace Conv

/-- value of digits, most significant first -/
def vBE (b : ℕ) : List ℕ → ℕ
  | [] => 0
  | d :: t => d * b ^ t.length + vBE b t

/-- value of the digits after the point, most significant first -/
def fv (b : ℕ) : List ℕ → ℚ
  | [] => 0
  | d :: t => (d + fv b t) / b

variable {b B pm : ℕ}

theorem vBE_lt {ds : List ℕ} (h : ∀ d ∈ ds, d < b) : vBE b ds < b ^ ds.length := by
  induction ds with
  | nil => simp [vBE]
  | cons d t ih =>
    have h1 := ih fun x hx => h x (List.mem_cons_of_mem _ hx)
    have h2 := h d List.mem_cons_self
    simp only [vBE, List.length_cons, pow_succ]
    calc d * b ^ t.length + vBE b t < d * b ^ t.length + b ^ t.length := by omega
      _ = (d + 1) * b ^ t.length := by ring
      _ ≤ b * b ^ t.length := Nat.mul_le_mul_right _ h2
      _ = _ := by ring

theorem vBE_append (u v : List ℕ) : vBE b (u ++ v) = vBE b u * b ^ v.length + vBE b v := by
  induction u with
  | nil => simp [vBE]
  | cons d t ih => simp only [List.cons_append, vBE, ih, List.length_append, pow_add]; ring

theorem vBE_replicate (n : ℕ) : vBE b (List.replicate n 0) = 0 := by
  induction n with
  | zero => rfl
  | succ n ih => simp [List.replicate_succ, vBE, ih]

theorem vBE_dropWhile (ds : List ℕ) : vBE b (ds.dropWhile (· = 0)) = vBE b ds := by
  induction ds with
  | nil => rfl
  | cons d t ih =>
    by_cases h : d = 0
    · subst h; simp [vBE, ih]
    · simp [h]

theorem vBE_reverse (ds : List ℕ) : vBE b ds.reverse = Nat.ofDigits b ds := by
  induction ds with
  | nil => rfl
  | cons d t ih =>
    rw [List.reverse_cons, vBE_append, ih, Nat.ofDigits_cons]
    simp [vBE]; ring

theorem divPass_length (ds : List ℕ) (c : ℕ) : (divPass b pm ds c).1.length = ds.length := by
  induction ds generalizing c with
  | nil => rfl
  | cons d t ih => simp [divPass, ih]

theorem divPass_val (ds : List ℕ) (c : ℕ) :
    c * b ^ ds.length + vBE b ds = pm * vBE b (divPass b pm ds c).1 + (divPass b pm ds c).2 := by
  induction ds generalizing c with
  | nil => simp [divPass, vBE]
  | cons d t ih =>
    have h := ih ((c * b + d) % pm)
    have h2 := Nat.div_add_mod (c * b + d) pm
    simp only [divPass, vBE, List.length_cons, divPass_length, pow_succ]
    calc c * (b ^ t.length * b) + (d * b ^ t.length + vBE b t) = (c * b + d) * b ^ t.length + vBE b t := by ring
      _ = (pm * ((c * b + d) / pm) + (c * b + d) % pm) * b ^ t.length + vBE b t := by rw [h2]
      _ = pm * ((c * b + d) / pm) * b ^ t.length + ((c * b + d) % pm * b ^ t.length + vBE b t) := by ring
      _ = _ := by rw [h]; ring

theorem divPass_rem (hp : 0 < pm) (ds : List ℕ) {c : ℕ} (hc : c < pm) : (divPass b pm ds c).2 < pm := by
  induction ds generalizing c with
  | nil => exact hc
  | cons d t ih => exact ih (Nat.mod_lt _ hp)

theorem divPass_digits (hp : 0 < pm) {ds : List ℕ} (h : ∀ d ∈ ds, d < b) {c : ℕ} (hc : c < pm) :
    ∀ d ∈ (divPass b pm ds c).1, d < b := by
  induction ds generalizing c with
  | nil => simp [divPass]
  | cons d t ih =>
    intro x hx
    simp only [divPass, List.mem_cons] at hx
    rcases hx with rfl | hx
    · rw [Nat.div_lt_iff_lt_mul hp]
      have h2 := h d List.mem_cons_self
      calc c * b + d < c * b + b := by omega
        _ = (c + 1) * b := by ring
        _ ≤ pm * b := Nat.mul_le_mul_right _ hc
        _ = b * pm := by ring
    · exact ih (fun x hx => h x (List.mem_cons_of_mem _ hx)) (Nat.mod_lt _ hp) x hx

theorem digitsLE_length (m r : ℕ) : (digitsLE B m r).length = m := by
  induction m generalizing r with
  | zero => rfl
  | succ m ih => simp [digitsLE, ih]

theorem digitsLE_val {m r : ℕ} (h : r < B ^ m) : Nat.ofDigits B (digitsLE B m r) = r := by
  induction m generalizing r with
  | zero => simp at h; simp [digitsLE, h]
  | succ m ih =>
    rw [digitsLE, Nat.ofDigits_cons, ih]
    · exact Nat.mod_add_div _ _
    · rw [pow_succ] at h
      exact Nat.div_lt_of_lt_mul (by rwa [mul_comm])

theorem digitsLE_digits (hB : 0 < B) (m r : ℕ) : ∀ d ∈ digitsLE B m r, d < B := by
  induction m generalizing r with
  | zero => simp [digitsLE]
  | succ m ih =>
    intro x hx
    simp only [digitsLE, List.mem_cons] at hx
    rcases hx with rfl | hx
    · exact Nat.mod_lt _ hB
    · exact ih _ x hx

theorem mem_dropWhile {p : ℕ → Bool} {ds : List ℕ} {x : ℕ} (h : x ∈ ds.dropWhile p) : x ∈ ds :=
  (List.dropWhile_suffix p).subset h

theorem mem_rdropWhile {p : ℕ → Bool} {ds : List ℕ} {x : ℕ} (h : x ∈ ds.rdropWhile p) : x ∈ ds :=
  (List.rdropWhile_prefix p _).subset h

theorem intLoop_val (hB : 2 ≤ B) {mOf : ℕ → ℕ} (hm : ∀ n, 1 ≤ mOf n) {fuel : ℕ} {ds : List ℕ}
    (h : vBE b ds < 2 ^ fuel) : Nat.ofDigits B (intLoop b B mOf fuel ds) = vBE b ds := by
  induction fuel generalizing ds with
  | zero => simp at h; simp [intLoop, h]
  | succ fuel ih =>
    rw [intLoop]
    by_cases h0 : ds = []
    · subst h0; simp [vBE]
    rw [if_neg h0]
    have hp : 2 ≤ B ^ mOf (ds.length - 1) := by
      calc 2 ≤ B := hB
        _ = B ^ 1 := by simp
        _ ≤ _ := Nat.pow_le_pow_right (by omega) (hm _)
    generalize hmm : mOf (ds.length - 1) = m at hp ⊢
    have h1 := divPass_val (b := b) (pm := B ^ m) ds 0
    have h2 := divPass_rem (b := b) (pm := B ^ m) (by omega) ds (c := 0) (by omega)
    rw [zero_mul, zero_add] at h1
    rw [Nat.ofDigits_append, digitsLE_val h2, digitsLE_length, ih, vBE_dropWhile, h1]
    · ring
    · rw [vBE_dropWhile]
      rw [pow_succ] at h
      have : 2 * vBE b (divPass b (B ^ m) ds 0).1 ≤ B ^ m * vBE b (divPass b (B ^ m) ds 0).1 := Nat.mul_le_mul_right _ hp
      omega

theorem intLoop_digits (hB : 0 < B) {mOf : ℕ → ℕ} {fuel : ℕ} {ds : List ℕ} :
    ∀ d ∈ intLoop b B mOf fuel ds, d < B := by
  induction fuel generalizing ds with
  | zero => simp [intLoop]
  | succ fuel ih =>
    rw [intLoop]
    by_cases h0 : ds = []
    · simp [h0]
    rw [if_neg h0]
    intro x hx
    rcases List.mem_append.1 hx with hx | hx
    · exact digitsLE_digits hB _ _ x hx
    · exact ih x hx

/-! ## fractions -/

theorem fv_nonneg (ds : List ℕ) : 0 ≤ fv b ds := by
  induction ds with
  | nil => exact le_rfl
  | cons d t ih => simp only [fv]; positivity

theorem fv_lt {ds : List ℕ} (h : ∀ d ∈ ds, d < b) : fv b ds < 1 := by
  induction ds with
  | nil => simp [fv]
  | cons d t ih =>
    have h1 := ih fun x hx => h x (List.mem_cons_of_mem _ hx)
    have h2 := h d List.mem_cons_self
    have h3 : ((d + 1 : ℕ) : ℚ) ≤ b := by exact_mod_cast h2
    push_cast at h3
    have hb : (0 : ℚ) < b := lt_of_lt_of_le (by positivity) h3
    simp only [fv]
    rw [div_lt_one hb]
    linarith

theorem fv_append (hb : 0 < b) (u v : List ℕ) : fv b (u ++ v) = fv b u + fv b v / (b : ℚ) ^ u.length := by
  have hb' : (b : ℚ) ≠ 0 := by positivity
  induction u with
  | nil => simp [fv]
  | cons d t ih =>
    simp only [List.cons_append, fv, ih, List.length_cons, pow_succ]
    field_simp
    ring

theorem fv_replicate (n : ℕ) : fv b (List.replicate n 0) = 0 := by
  induction n with
  | zero => rfl
  | succ n ih => simp [List.replicate_succ, fv, ih]

theorem fv_rdropWhile (hb : 0 < b) (ds : List ℕ) : fv b (ds.rdropWhile (· = 0)) = fv b ds := by
  induction ds using List.reverseRecOn with
  | nil => rfl
  | append_singleton l a ih =>
    by_cases h : a = 0
    · subst h
      rw [List.rdropWhile_concat_pos _ _ _ (by simp), ih, fv_append hb]
      simp [fv]
    · rw [List.rdropWhile_concat_neg _ _ _ (by simpa using h)]

/-- digits after the point as an integer -/
theorem fv_eq (hb : 0 < b) (ds : List ℕ) : fv b ds * (b : ℚ) ^ ds.length = vBE b ds := by
  have hb' : (b : ℚ) ≠ 0 := by positivity
  induction ds with
  | nil => simp [fv, vBE]
  | cons d t ih =>
    simp only [fv, vBE, List.length_cons, pow_succ]
    push_cast
    rw [← ih]
    field_simp

theorem mulPass_length (ds : List ℕ) : (mulPass b pm ds).1.length = ds.length := by
  induction ds with
  | nil => rfl
  | cons d t ih => simp [mulPass, ih]

theorem mulPass_val (hb : 0 < b) (ds : List ℕ) :
    pm * fv b ds = (mulPass b pm ds).2 + fv b (mulPass b pm ds).1 := by
  have hb' : (b : ℚ) ≠ 0 := by positivity
  induction ds with
  | nil => simp [mulPass, fv]
  | cons d t ih =>
    have h2 := Nat.div_add_mod (d * pm + (mulPass b pm t).2) b
    have h3 : (b : ℚ) * ((d * pm + (mulPass b pm t).2) / b : ℕ) + ((d * pm + (mulPass b pm t).2) % b : ℕ)
        = d * pm + (mulPass b pm t).2 := by exact_mod_cast h2
    simp only [mulPass, fv]
    field_simp
    rw [← sub_eq_zero] at h3 ih ⊢
    linear_combination ih - h3

theorem mulPass_digits (hb : 0 < b) (ds : List ℕ) : ∀ d ∈ (mulPass b pm ds).1, d < b := by
  induction ds with
  | nil => simp [mulPass]
  | cons d t ih =>
    intro x hx
    simp only [mulPass, List.mem_cons] at hx
    rcases hx with rfl | hx
    · exact Nat.mod_lt _ hb
    · exact ih x hx

theorem mulPass_carry (hp : 0 < pm) {ds : List ℕ} (h : ∀ d ∈ ds, d < b) : (mulPass b pm ds).2 < pm := by
  cases ds with
  | nil => exact hp
  | cons d t =>
    have hb : 0 < b := lt_of_le_of_lt (Nat.zero_le _) (h d List.mem_cons_self)
    have h1 := mulPass_val (pm := pm) hb (d :: t)
    have h2 := fv_lt h
    have h3 := fv_nonneg (b := b) (mulPass b pm (d :: t)).1
    have h4 : (0 : ℚ) < pm := by exact_mod_cast hp
    have : ((mulPass b pm (d :: t)).2 : ℚ) < pm := by nlinarith
    exact_mod_cast this

theorem digitsBE_length (m c : ℕ) : (digitsBE B m c).length = m := by
  induction m generalizing c with
  | zero => rfl
  | succ m ih => simp [digitsBE, ih]

theorem digitsBE_val {m c : ℕ} : vBE B (digitsBE B m c) = if m = 0 then 0 else c := by
  induction m generalizing c with
  | zero => rfl
  | succ m ih =>
    simp only [digitsBE, vBE, digitsBE_length, ih]
    by_cases h : m = 0
    · subst h; simp
    · simp only [h, if_false]
      exact Nat.div_add_mod' c (B ^ m)

theorem digitsBE_digits (hB : 0 < B) {m c : ℕ} (h : c < B ^ m) : ∀ d ∈ digitsBE B m c, d < B := by
  induction m generalizing c with
  | zero => simp [digitsBE]
  | succ m ih =>
    intro x hx
    simp only [digitsBE, List.mem_cons] at hx
    rcases hx with rfl | hx
    · rw [Nat.div_lt_iff_lt_mul (by positivity)]
      rw [pow_succ] at h
      rwa [mul_comm]
    · exact ih (Nat.mod_lt _ (by positivity)) x hx

theorem digitsBE_fv (hB : 0 < B) {m c : ℕ} (h : c < B ^ m) : fv B (digitsBE B m c) = c / (B : ℚ) ^ m := by
  have h1 := fv_eq hB (digitsBE B m c)
  rw [digitsBE_length, digitsBE_val] at h1
  rw [eq_div_iff (by positivity), h1]
  by_cases hm : m = 0
  · subst hm; simp at h; simp [h]
  · simp [hm]

/-- a multiplication by an even number makes the lowest bit zero, so the fraction gets shorter -/
theorem mulPass_shorter {ds : List ℕ} (h0 : ds ≠ []) (hp : b ∣ pm) :
    ((mulPass b pm ds).1.rdropWhile (· = 0)).length < ds.length := by
  have hlast : ∀ (ds : List ℕ), ds ≠ [] → ∃ l, (mulPass b pm ds).1 = l ++ [0] := by
    intro ds
    induction ds with
    | nil => intro h; exact absurd rfl h
    | cons d t ih =>
      intro _
      by_cases ht : t = []
      · subst ht
        refine ⟨[], ?_⟩
        simp only [mulPass, List.nil_append, List.cons.injEq, and_true, add_zero]
        exact Nat.mod_eq_zero_of_dvd (Dvd.dvd.mul_left hp d)
      · obtain ⟨l, hl⟩ := ih ht
        exact ⟨((d * pm + (mulPass b pm t).2) % b) :: l, by simp [mulPass, hl]⟩
  obtain ⟨l, hl⟩ := hlast ds h0
  have h1 := mulPass_length (b := b) (pm := pm) ds
  rw [hl] at h1 ⊢
  rw [List.rdropWhile_concat_pos _ _ _ (by simp)]
  have := (List.rdropWhile_prefix (p := fun x : ℕ => decide (x = 0)) (l := l)).length_le
  simp at h1
  omega

theorem fracLoop_spec {fuel : ℕ} {bs : List ℕ} (h : bs.length ≤ fuel) (hd : ∀ d ∈ bs, d < 2) :
    fv 10 (fracLoop fuel bs) = fv 2 bs ∧ ∀ d ∈ fracLoop fuel bs, d < 10 := by
  induction fuel generalizing bs with
  | zero =>
    have : bs = [] := List.length_eq_zero_iff.1 (by omega)
    subst this; simp [fracLoop, fv]
  | succ fuel ih =>
    rw [fracLoop]
    by_cases h0 : bs = []
    · subst h0; simp [fv]
    rw [if_neg h0]
    have hm : 1 ≤ min 8 bs.length := by
      have := List.length_pos_iff.2 h0
      omega
    generalize min 8 bs.length = m at hm ⊢
    have hdvd : (2 : ℕ) ∣ 10 ^ m := dvd_pow (by norm_num) (by omega)
    have h1 := mulPass_val (b := 2) (pm := 10 ^ m) (by norm_num) bs
    have h2 := mulPass_carry (b := 2) (pm := 10 ^ m) (by positivity) hd
    have h3 := mulPass_shorter (b := 2) (pm := 10 ^ m) h0 hdvd
    have h4 := mulPass_digits (b := 2) (pm := 10 ^ m) (by norm_num) bs
    obtain ⟨i1, i2⟩ := ih (bs := (mulPass 2 (10 ^ m) bs).1.rdropWhile (· = 0)) (by omega)
      (fun d hd => h4 d (mem_rdropWhile hd))
    refine ⟨?_, ?_⟩
    · rw [fv_append (by norm_num), digitsBE_length, digitsBE_fv (by norm_num) h2, i1, fv_rdropWhile (by norm_num)]
      push_cast at h1 ⊢
      rw [← add_div, ← h1]
      field_simp
    · intro x hx
      rcases List.mem_append.1 hx with hx | hx
      · exact digitsBE_digits (by norm_num) h2 x hx
      · exact i2 x hx

end Conv
end Kv
