import Verif.Ode.Formal
import Verif.Ode.ModeInv
import Verif.Ode.Picard
import Verif.Props.Psa

/-! # One Picard step in power series arithmetic -/

namespace Kv
open PowerSeries Psa PM
open Rop (lit)
set_option linter.unusedVariables false

/-! ## vectors of computations -/

section
variable {S α : Type}

theorem vec_inv {J : PSt S → Prop} : ∀ {n : ℕ} {f : Fin n → PM S α} {Q : Fin n → α → Prop},
    (∀ i, Tri J (f i) (fun a st => J st ∧ Q i a)) → Tri J (vec f) (fun z st => J st ∧ ∀ i, Q i (z i))
  | 0, _, _, _ => Tri.pure fun st h => ⟨h, fun i => i.elim0⟩
  | _ + 1, f, Q, h => (h 0).bind fun a => Tri.pure_pre fun ha => (vec_inv (Q := fun i => Q i.succ) fun i => h i.succ).bind fun z =>
      Tri.pure_pre fun hz => Tri.pure fun st hst => ⟨hst, fun i => Fin.cases ha hz i⟩

theorem vec_lift {n : ℕ} {r : Fin n → Res α} {z : Fin n → α} {st st' : PSt S} (h : vec (fun i => lift (r i)) st = (.ok z, st')) :
    st' = st ∧ ∀ i, r i = .ok (z i) :=
  vec_inv (J := fun s => s = st) (Q := fun i a => r i = .ok a)
    (fun i => Tri.lift fun a s ha hs => ⟨hs, ha⟩) st rfl z st' h

variable [ScalSem S]

theorem vec_opT {E : Env S} : ∀ {n : ℕ} {f : Fin n → PM S (List S)} {T : Fin n → ℕ → List (PowerSeries ℝ × Bool)} {k : Fin n → Bool}
    {c : Fin n → PowerSeries ℝ} {v : Fin n → ℝ} {X : Fin n → Prop}, (∀ i, OpT E (T i) (k i) (c i) (v i) (X i) (f i)) →
    ∀ u r TU TP, Tri (At E u r (popT u (List.ofFn fun i => T i E.m).flatten TU) TP) (vec f) (fun z st =>
      At E u r TU (pushT r TP (List.ofFn fun i => T i E.l).flatten) st ∧ ∀ i, Sem E (k i) (c i) (v i) (z i) ∧ X i)
  | 0, _, _, _, _, _, _, _, u, r, TU, TP => Tri.pure fun st h => ⟨by simpa [popT_nil, pushT_nil] using h, fun i => i.elim0⟩
  | n + 1, f, T, k, c, v, X, h, u, r, TU, TP => by
    simp only [List.ofFn_succ, List.flatten_cons, popT_append, pushT_append]
    exact (h 0 u r _ TP).bind fun a => Tri.pure_pre fun ha =>
      (vec_opT (T := fun i => T i.succ) (fun i => h i.succ) u r TU _).bind fun z =>
      Tri.pure_pre fun hz => Tri.pure fun st hst => ⟨hst, fun i => Fin.cases ha hz i⟩

end

/-! ## integration -/

/-- the remainder of an antiderivative -/
theorem anti_poly {T : ℝ} {N : ℕ} {f F : ℝ → ℝ} {b : ℕ → ℝ} {R : (ℕ → ℝ) → Prop} (hF0 : F 0 = 0)
    (hF : ∀ t ∈ Set.Icc 0 T, HasDerivWithinAt F (f t) (Set.Icc 0 T) t)
    (hf : ∀ s ∈ Set.Icc 0 T, ∃ r, R r ∧ (∀ k < N, r k = b k) ∧ f s = ∑ k ∈ Finset.range (N + 1), r k * s ^ k)
    {t : ℝ} (ht : t ∈ Set.Icc 0 T) :
    ∃ r, R r ∧ (∀ k < N, r k = b k) ∧ F t = ∑ k ∈ Finset.range (N + 2), antiCo r k * t ^ k := by
  rcases ht.1.eq_or_lt with rfl | ht0
  · obtain ⟨r, h1, h2, -⟩ := hf 0 ht
    refine ⟨r, h1, h2, ?_⟩
    rw [hF0, Finset.sum_eq_single 0]
    · simp [antiCo]
    · intro k _ hk; rw [zero_pow hk, mul_zero]
    · intro h; exact absurd (Finset.mem_range.2 (by omega)) h
  have hd : ∀ u ∈ Set.Icc 0 t, u ∈ Set.Icc 0 T := fun u hu => ⟨hu.1, hu.2.trans ht.2⟩
  let P : ℝ → ℝ := fun u => ∑ k ∈ Finset.range N, b k / (k + 1 : ℕ) * u ^ (k + 1)
  let p : ℝ → ℝ := fun u => ∑ k ∈ Finset.range N, b k * u ^ k
  have hP : ∀ u, HasDerivAt P (p u) u := fun u => by
    refine HasDerivAt.fun_sum fun k _ => ?_
    refine ((hasDerivAt_pow (k + 1) u).const_mul (b k / (k + 1 : ℕ))).congr_deriv ?_
    rw [Nat.add_sub_cancel]
    have : ((k + 1 : ℕ) : ℝ) ≠ 0 := by positivity
    field_simp
  have hcont : ContinuousOn F (Set.Icc 0 t) := fun u hu => ((hF u (hd u hu)).continuousWithinAt).mono fun w hw => hd w hw
  have hcP : Continuous P := continuous_iff_continuousAt.2 fun u => (hP u).continuousAt
  have hder : ∀ u ∈ Set.Ioo 0 t, HasDerivAt (fun w => F w - P w) (f u - p u) u :=
    fun u hu => ((hF u (hd u ⟨hu.1.le, hu.2.le⟩)).hasDerivAt
      (Filter.mem_of_superset (Icc_mem_nhds hu.1 hu.2) hd)).sub (hP u)
  have hpw : ∀ u : ℝ, HasDerivAt (fun w : ℝ => w ^ (N + 1)) ((N + 1 : ℕ) * u ^ N) u := fun u => by
    simpa using hasDerivAt_pow (N + 1) u
  have P0 : P 0 = 0 := by simp [P]
  obtain ⟨s, hs, e⟩ := exists_ratio_hasDerivAt_eq_ratio_slope (fun w => F w - P w) (fun u => f u - p u) ht0
    (hcont.sub hcP.continuousOn) hder (fun w => w ^ (N + 1)) (fun u => (N + 1 : ℕ) * u ^ N) (by fun_prop) (fun u _ => hpw u)
  have hs0 : s ≠ 0 := hs.1.ne'
  have hse : (F t - P t) * ((N + 1 : ℕ) * s ^ N) = t ^ (N + 1) * (f s - p s) := by
    simp only [hF0, P0, zero_pow (Nat.succ_ne_zero N)] at e
    linarith
  obtain ⟨r, h1, h2, h3⟩ := hf s (hd s ⟨hs.1.le, hs.2.le⟩)
  refine ⟨r, h1, h2, ?_⟩
  have hps : f s - p s = r N * s ^ N := by
    rw [h3, Finset.sum_range_succ]
    have : ∑ k ∈ Finset.range N, r k * s ^ k = p s :=
      Finset.sum_congr rfl fun k hk => by rw [h2 k (Finset.mem_range.1 hk)]
    rw [this]; ring
  rw [hps] at hse
  have hsN : s ^ N ≠ 0 := pow_ne_zero _ hs0
  have hn : ((N + 1 : ℕ) : ℝ) ≠ 0 := by positivity
  have hFP : F t - P t = r N / (N + 1 : ℕ) * t ^ (N + 1) := by
    have : (F t - P t) * (N + 1 : ℕ) * s ^ N = t ^ (N + 1) * r N * s ^ N := by rw [← mul_assoc] at hse; rw [hse]; ring
    have := mul_right_cancel₀ hsN this
    field_simp
    linarith
  rw [Finset.sum_range_succ, Finset.sum_range_succ']
  simp only [antiCo, zero_mul, add_zero]
  have hPt : ∑ k ∈ Finset.range N, r k / (k + 1 : ℕ) * t ^ (k + 1) = P t :=
    Finset.sum_congr rfl fun k hk => by rw [h2 k (Finset.mem_range.1 hk)]
  rw [hPt, ← hFP]; ring

end Kv
