import Verif.Ode.OdeQr
import Verif.Props.Vleq
import Verif.Solver.AllsolLemmas
import Mathlib.Analysis.Calculus.MeanValue
import Mathlib.Analysis.Calculus.Deriv.MeanValue
import Mathlib.Analysis.Calculus.Deriv.Comp
import Mathlib.Analysis.Calculus.FDeriv.Pi
import Mathlib.Topology.Algebra.Module.Basic

/-!
# C94: `odelong_qr` encloses the flow
-/

namespace Kv
open Rop (lit)
open PM LA Qr

variable {n : ℕ}

/-- `φ a b p` is the value at time `b` of the solution which is `p` at time `a` -/
abbrev Flow (n : ℕ) := ℝ → ℝ → (Fin n → ℝ) → Fin n → ℝ

/-- `φ` is the flow of a differential equation; `dom a b p`: the solution which is `p` at time `a` exists up to the time `b` -/
structure IsFlow (φ : Flow n) (dom : ℝ → ℝ → (Fin n → ℝ) → Prop) : Prop where
  refl : ∀ a p, dom a a p ∧ φ a a p = p
  trans : ∀ a b c p, dom a b p → dom b c (φ a b p) → dom a c p ∧ φ a c p = φ b c (φ a b p)

/-- the points of the box `x` -/
def inBox (x : Vec n (Interval D)) : Set (Fin n → ℝ) := {q | ∀ i, q i ∈ x i}

/-- What the loop relies on in the solvers of a single step: the first returns a time up to which all solutions from the box exist and a matrix which contains the derivative of the flow at every point of the box, and the time is the end asked for if
it returns 2; the second returns an enclosure of the flow. -/
structure Qr.ToolsOk (T : Tools n) (φ : Flow n) (dom : ℝ → ℝ → (Fin n → ℝ) → Prop) : Prop where
  A : ∀ x t stop st Dm t1 r st', T.A x t stop st = (.ok (some (Dm, t1, r)), st') → (r = 2 → t1 = stop) ∧ (r ≠ 2 → ∃ b : ℝ, b ∈ t1) ∧
    ∀ a b : ℝ, a ∈ t → b ∈ t1 → ∀ q ∈ inBox x, dom a b q ∧ ∃ J : Fin n → Fin n → ℝ, (∀ i j, J i j ∈ Dm i j) ∧
      ∀ i, HasFDerivWithinAt (fun q => φ a b q i) (∑ j, J i j • (ContinuousLinearMap.proj j : (Fin n → ℝ) →L[ℝ] ℝ)) (inBox x) q
  C : ∀ c t t1 st fc st', T.C c t t1 st = (.ok fc, st') → ∀ a b : ℝ, a ∈ t → b ∈ t1 → ∀ q ∈ inBox c, φ a b q ∈ inBox fc

/-- a step without overflow -/
def Qr.Good (s : Step n) : Prop := (∀ i j, FinD (s.Q i j)) ∧ (∀ i j, Bd (s.QAQ i j)) ∧ (∀ i, Bd (s.y2 i)) ∧ ∀ i, Bd (s.fc i)

namespace Qr

theorem is_of_fin {x : D} (h : FinD x) : Is x (dbl x) := is_dbl' h

theorem mem_conv {X : Interval D} {p q s : ℝ} (hp : p ∈ X) (hq : q ∈ X) (h0 : 0 ≤ s) (h1 : s ≤ 1) : p + s * (q - p) ∈ X := by
  rcases le_total p q with h | h
  · refine ⟨⟨hp.1.1, hp.1.2.trans ?_⟩, hq.2.1, le_trans ?_ hq.2.2⟩ <;> exact_mod_cast (by nlinarith)
  · refine ⟨⟨hq.1.1, hq.1.2.trans ?_⟩, hp.2.1, le_trans ?_ hp.2.2⟩ <;> exact_mod_cast (by nlinarith)

/-- the mean value theorem in a box, for every component -/
theorem mean_value {x : Vec n (Interval D)} {Dm : Mat n n (Interval D)} {g : (Fin n → ℝ) → Fin n → ℝ}
    (hg : ∀ q ∈ inBox x, ∃ J : Fin n → Fin n → ℝ, (∀ i j, J i j ∈ Dm i j) ∧
      ∀ i, HasFDerivWithinAt (fun q => g q i) (∑ j, J i j • (ContinuousLinearMap.proj j : (Fin n → ℝ) →L[ℝ] ℝ)) (inBox x) q)
    {p q : Fin n → ℝ} (hp : p ∈ inBox x) (hq : q ∈ inBox x) :
    ∃ J : Fin n → Fin n → ℝ, (∀ i j, J i j ∈ Dm i j) ∧ ∀ i, g q i = g p i + ∑ j, J i j * (q j - p j) := by
  have key : ∀ i, ∃ r : Fin n → ℝ, (∀ j, r j ∈ Dm i j) ∧ g q i = g p i + ∑ j, r j * (q j - p j) := by
    intro i
    choose! J hJ1 hJ2 using hg
    let l : ℝ → Fin n → ℝ := fun s => p + s • (q - p)
    have hl : ∀ s ∈ Set.Icc (0 : ℝ) 1, l s ∈ inBox x := fun s hs j => by
      have := mem_conv (hp j) (hq j) hs.1 hs.2
      simpa [l] using this
    have hd : ∀ s : ℝ, HasDerivAt l (q - p) s := fun s => by
      simpa [l] using ((hasDerivAt_id s).smul_const (q - p)).const_add p
    have hw : ∀ s ∈ Set.Icc (0 : ℝ) 1, HasDerivWithinAt (fun s => g (l s) i) (∑ j, J (l s) i j * (q j - p j)) (Set.Icc 0 1) s := by
      intro s hs
      have := (hJ2 (l s) (hl s hs) i).comp_hasDerivWithinAt s (hd s).hasDerivWithinAt (s := Set.Icc 0 1) (fun u hu => hl u hu)
      have e : (∑ j, J (l s) i j • (ContinuousLinearMap.proj j : (Fin n → ℝ) →L[ℝ] ℝ)) (q - p) = ∑ j, J (l s) i j * (q j - p j) := by
        simp
      rw [e] at this
      exact this
    obtain ⟨s, hs, e⟩ := exists_hasDerivAt_eq_slope (fun s => g (l s) i) (fun s => ∑ j, J (l s) i j * (q j - p j)) one_pos
      (fun s hs => (hw s hs).continuousWithinAt) (fun s hs => (hw s (Set.Ioo_subset_Icc_self hs)).hasDerivAt (Icc_mem_nhds hs.1 hs.2))
    refine ⟨J (l s) i, fun j => hJ1 _ (hl s (Set.Ioo_subset_Icc_self hs)) i j, ?_⟩
    have e0 : l 0 = p := by simp [l]
    have e1 : l 1 = q := by simp [l]
    simp only [e0, e1, sub_zero, div_one] at e
    linarith
  choose J h1 h2 using key
  exact ⟨J, h1, h2⟩

/-- one step -/
theorem step_mem {T : Tools n} {Dm : Mat n n (Interval D)} {fc : Vec n (Interval D)} {Q : Mat n n D} {y : Vec n (Interval D)} {s : Step n}
    (h : step T Dm fc Q y = some s) (hG : Good s) {Qr : Fin n → Fin n → ℝ} (hQ : ∀ i j, Is (Q i j) (Qr i j)) (h0 : ∀ i, (0 : ℝ) ∈ y i)
    {u₀ : Fin n → ℝ} (hu₀ : ∀ i, u₀ i ∈ fc i) {J₀ : Fin n → Fin n → ℝ} (hJ₀ : ∀ i j, J₀ i j ∈ Dm i j) :
    ∃ (Q' : Fin n → Fin n → ℝ) (c' : Fin n → ℝ), (∀ i j, Is (s.Q i j) (Q' i j)) ∧ (∀ i, c' i ∈ s.c i) ∧ (∀ i, (0 : ℝ) ∈ s.y i) ∧
      (∀ η : Fin n → ℝ, (∀ i, η i ∈ s.y i) → ∀ i, ∑ j, Q' i j * η j + c' i ∈ s.x i) ∧
      ∀ u : Fin n → ℝ, (∀ i, u i ∈ fc i) → ∀ J : Fin n → Fin n → ℝ, (∀ i j, J i j ∈ Dm i j) → ∀ η : Fin n → ℝ, (∀ i, η i ∈ y i) →
        ∃ η' : Fin n → ℝ, (∀ i, η' i ∈ s.y i) ∧ ∀ i, ∑ j, Q' i j * η' j + c' i = u i + ∑ j, J i j * ∑ k, Qr j k * η k := by
  rcases Nat.eq_zero_or_pos n with hn | hn
  · subst hn
    refine ⟨fun i => i.elim0, fun i => i.elim0, fun i => i.elim0, fun i => i.elim0, fun i => i.elim0, fun _ _ i => i.elim0, fun _ _ _ _ _ _ => ⟨fun i => i.elim0, fun i => i.elim0, fun i => i.elim0⟩⟩
  unfold step at h
  dsimp only at h
  split at h
  · cases h
  rename_i Q2 hq
  split at h
  · cases h
  rename_i QAQ hv
  split at h
  · cases h
  rename_i y2 hv2
  cases h
  obtain ⟨g1, g2, g3, g4⟩ := hG
  dsimp only at g1 g2 g3 g4 ⊢
  have hQ2 : ∀ i j, Is (Q2 i j) (dbl (Q2 i j)) := fun i j => is_of_fin (g1 i j)
  have hc : ∀ i, FinD (Interval.mid (fc i)) ∧ dbl (Interval.mid (fc i)) ∈ fc i := fun i => mid_bd (g4 i) ⟨_, hu₀ i⟩
  have hcp : ∀ i, dbl (Interval.mid (fc i)) ∈ (pointV (midV fc)) i := fun i => Interval.point_mem (is_of_fin (hc i).1)
  have hQi : ∀ i j, dbl (Q2 i j) ∈ Interval.point (Q2 i j) := fun i j => Interval.point_mem (hQ2 i j)
  obtain ⟨hdet, hV⟩ := C27_partial hv hn g2 hQi
  obtain ⟨-, hW⟩ := C27_vector_partial hv2 g3 hQi
  have zero_mem_y2 : ∀ i, (0 : ℝ) ∈ y2 i := by
    obtain ⟨z, ⟨h1, h2⟩, -⟩ := hW (fun _ => 0) fun i => by
      have := Interval.sub_mem (hc i).2 (hcp i)
      rwa [sub_self] at this
    have hz : z = 0 := Matrix.eq_zero_of_mulVec_eq_zero hdet (by ext i; simpa [Matrix.mulVec, dotProduct] using h1 i)
    intro i
    have := h2 i
    rwa [hz] at this
  have hprod : ∀ J : Fin n → Fin n → ℝ, (∀ i j, J i j ∈ Dm i j) → ∀ i j, ∑ k, J i k * Qr k j ∈ sumI fun k => Interval.mulS (Dm i k) (Q k j) :=
    fun J hJ i j => sumI_mem fun k => Interval.mulS_mem (hJ i k) (hQ k j)
  have hmain : ∀ w : Fin n → ℝ, (∀ i, w i ∈ y2 i) → ∀ J : Fin n → Fin n → ℝ, (∀ i j, J i j ∈ Dm i j) → ∀ η : Fin n → ℝ, (∀ i, η i ∈ y i) →
      ∃ η' : Fin n → ℝ, (∀ i, η' i ∈ Interval.add (prodIV QAQ y i) (y2 i)) ∧
        (∀ i, ∑ j, dbl (Q2 i j) * η' j = ∑ j, dbl (Q2 i j) * w j + ∑ j, J i j * ∑ k, Qr j k * η k) ∧ (η = 0 → w = 0 → η' = 0) := by
    intro w hw J hJ η hη
    obtain ⟨Z, ⟨h1, h2⟩, -⟩ := hV _ (hprod J hJ)
    refine ⟨fun i => ∑ k, Z i k * η k + w i, fun i => Interval.add_mem (prodIV_mem (h2 i) hη) (hw i), fun i => ?_, fun e1 e2 => by subst e1 e2; funext i; simp⟩
    have e1 : ∑ j, dbl (Q2 i j) * (∑ k, Z j k * η k + w j) = ∑ j, dbl (Q2 i j) * w j + ∑ k, (∑ j, dbl (Q2 i j) * Z j k) * η k := by
      simp only [mul_add, Finset.sum_add_distrib, Finset.mul_sum, Finset.sum_mul]
      rw [Finset.sum_comm, add_comm]
      simp only [mul_assoc]
    rw [e1]
    simp only [h1]
    congr 1
    simp only [Finset.mul_sum, Finset.sum_mul]
    rw [Finset.sum_comm]
    simp only [mul_assoc]
  refine ⟨fun i j => dbl (Q2 i j), fun i => dbl (Interval.mid (fc i)), hQ2, hcp, ?_, ?_, ?_⟩
  · obtain ⟨η', h1, -, h2⟩ := hmain 0 zero_mem_y2 J₀ hJ₀ 0 h0
    rw [h2 rfl rfl] at h1
    exact h1
  · intro η hη i
    refine Interval.add_mem (sumI_mem fun k => ?_) (hcp i)
    exact Interval.sMul_mem (hη k) (hQ2 i k)
  · intro u hu J hJ η hη
    obtain ⟨w, ⟨h1, h2⟩, -⟩ := hW (fun i => u i - dbl (Interval.mid (fc i))) fun i => Interval.sub_mem (hu i) (hcp i)
    obtain ⟨η', h3, h4, -⟩ := hmain w h2 J hJ η hη
    refine ⟨η', h3, fun i => ?_⟩
    rw [h4 i, h1 i]; ring

theorem loop_steps {T : Tools n} {stop : Interval D} : ∀ {k : ℕ} {x c y : Vec n (Interval D)} {Q : Mat n n D} {M : Mat n n (Interval D)} {t : Interval D} {l : List (Step n)} {st st' : PSt (Interval D)} {R : Result n},
    loop T stop k x c y Q M t l st = (.ok R, st') → ∀ s ∈ l, s ∈ R.steps
  | 0, x, c, y, Q, M, t, l, st, st', R, h => by
    have := (lift_run h).1
    cases this
  | k + 1, x, c, y, Q, M, t, l, st, st', R, h => by
    intro s hs
    unfold loop at h
    obtain ⟨a, s1, h1, h⟩ := bind_run h
    have fin : ∀ {s1 : PSt (Interval D)}, (pure (if l = [] then (⟨0, x, stop, M, l⟩ : Result n) else ⟨1, x, t, M, l⟩) : PM (Interval D) (Result n)) s1 = (.ok R, st') → s ∈ R.steps := by
      intro s1 h
      have := (pure_run h).1
      rw [this]
      split_ifs <;> exact hs
    rcases a with _ | ⟨Dm, t1, r⟩
    · exact fin h
    obtain ⟨fc, s2, h2, h⟩ := bind_run h
    rcases hsg : step T Dm fc Q y with _ | sg
    · simp only [hsg] at h
      exact fin h
    simp only [hsg] at h
    obtain ⟨go, s3, h3, h⟩ := bind_run h
    split_ifs at h
    · have := (pure_run h).1
      rw [this]
      exact List.mem_cons_of_mem _ hs
    · have := (pure_run h).1
      rw [this]
      exact List.mem_cons_of_mem _ hs
    · exact loop_steps h s (List.mem_cons_of_mem _ hs)

/-- the point `p` has the form `Q η + c` -/
def Rep (Qr : Fin n → Fin n → ℝ) (c : Fin n → ℝ) (y : Vec n (Interval D)) (p : Fin n → ℝ) : Prop :=
  ∃ η : Fin n → ℝ, (∀ i, η i ∈ y i) ∧ ∀ i, p i = ∑ j, Qr i j * η j + c i

/-- `J` is the derivative of `g` at `p` in the set `S` -/
def HasJac {m n : ℕ} (g : (Fin m → ℝ) → Fin n → ℝ) (J : Fin n → Fin m → ℝ) (S : Set (Fin m → ℝ)) (p : Fin m → ℝ) : Prop :=
  ∀ i, HasFDerivWithinAt (fun q => g q i) (∑ j, J i j • (ContinuousLinearMap.proj j : (Fin m → ℝ) →L[ℝ] ℝ)) S p

/-- the chain rule -/
theorem HasJac.comp {m n l : ℕ} {g : (Fin m → ℝ) → Fin n → ℝ} {f : (Fin l → ℝ) → Fin m → ℝ} {J : Fin n → Fin m → ℝ} {K : Fin m → Fin l → ℝ} {S : Set (Fin m → ℝ)} {U : Set (Fin l → ℝ)} {p : Fin l → ℝ}
    (hg : HasJac g J S (f p)) (hf : HasJac f K U p) (hm : ∀ q ∈ U, f q ∈ S) : HasJac (fun q => g (f q)) (fun i j => ∑ k, J i k * K k j) U p := by
  intro i
  have h1 : HasFDerivWithinAt f (ContinuousLinearMap.pi fun k => ∑ j, K k j • (ContinuousLinearMap.proj j : (Fin l → ℝ) →L[ℝ] ℝ)) U p := hasFDerivWithinAt_pi.2 hf
  have h2 := (hg i).comp p h1 hm
  have e : (∑ j, J i j • (ContinuousLinearMap.proj j : (Fin m → ℝ) →L[ℝ] ℝ)).comp (ContinuousLinearMap.pi fun k => ∑ j, K k j • (ContinuousLinearMap.proj j : (Fin l → ℝ) →L[ℝ] ℝ)) =
      ∑ j, (∑ k, J i k * K k j) • (ContinuousLinearMap.proj j : (Fin l → ℝ) →L[ℝ] ℝ) := by
    ext v
    simp only [ContinuousLinearMap.comp_apply, sum_apply, smul_apply, ContinuousLinearMap.proj_apply, ContinuousLinearMap.pi_apply, smul_eq_mul, Finset.mul_sum, Finset.sum_mul]
    rw [Finset.sum_comm]
    simp only [mul_assoc]
  rw [e] at h2
  exact h2

theorem HasJac.congr {m n : ℕ} {g g' : (Fin m → ℝ) → Fin n → ℝ} {J : Fin n → Fin m → ℝ} {S : Set (Fin m → ℝ)} {p : Fin m → ℝ} (h : HasJac g J S p) (hp : p ∈ S) (e : ∀ q ∈ S, g' q = g q) : HasJac g' J S p :=
  fun i => (h i).congr (fun q hq => by rw [e q hq]) (by rw [e p hp])

theorem HasJac.id {m : ℕ} {S : Set (Fin m → ℝ)} {p : Fin m → ℝ} : HasJac (fun q => q) (fun i j => if i = j then 1 else 0) S p := by
  intro i
  have e : ∑ j, (if i = j then (1 : ℝ) else 0) • (ContinuousLinearMap.proj j : (Fin m → ℝ) →L[ℝ] ℝ) = ContinuousLinearMap.proj i := by
    simp
  rw [e]
  exact (ContinuousLinearMap.proj i : (Fin m → ℝ) →L[ℝ] ℝ).hasFDerivWithinAt

/-- what is known at the time `b` -/
def At (φ : Flow n) (dom : ℝ → ℝ → (Fin n → ℝ) → Prop) (S : Set (Fin n → ℝ)) (a₀ : ℝ) (x : Vec n (Interval D)) (M : Mat n n (Interval D)) (b : ℝ) : Prop :=
  ∀ p ∈ S, dom a₀ b p ∧ φ a₀ b p ∈ inBox x ∧ ∃ J : Fin n → Fin n → ℝ, (∀ i j, J i j ∈ M i j) ∧ HasJac (φ a₀ b) J S p

theorem loop_mem {T : Tools n} {φ : Flow n} {dom : ℝ → ℝ → (Fin n → ℝ) → Prop} (hφ : IsFlow φ dom) (hT : ToolsOk T φ dom) {stop : Interval D} {a₀ : ℝ} {S : Set (Fin n → ℝ)} :
    ∀ {k : ℕ} {x c y : Vec n (Interval D)} {Q : Mat n n D} {M : Mat n n (Interval D)} {t : Interval D} {l : List (Step n)} {st st' : PSt (Interval D)} {R : Result n},
    loop T stop k x c y Q M t l st = (.ok R, st') → (∀ s ∈ R.steps, Good s) →
    ∀ {Qr : Fin n → Fin n → ℝ} {cr : Fin n → ℝ}, (∀ i j, Is (Q i j) (Qr i j)) → (∀ i, cr i ∈ c i) → (∀ i, (0 : ℝ) ∈ y i) → cr ∈ inBox x →
    (∃ a, a ∈ t ∧ At φ dom S a₀ x M a ∧ ∀ p ∈ S, Rep Qr cr y (φ a₀ a p)) →
    (l ≠ [] → ∀ b : ℝ, b ∈ t → At φ dom S a₀ x M b) →
    R.ret ≠ 0 → (R.ret = 1 ∨ R.ret = 3 ∨ R.ret = 2 ∧ R.stop = stop) ∧ ∀ b : ℝ, b ∈ R.stop → At φ dom S a₀ R.init R.mat b
  | 0, x, c, y, Q, M, t, l, st, st', R, h => by
    have := (lift_run h).1
    cases this
  | k + 1, x, c, y, Q, M, t, l, st, st', R, h => by
    intro hG Qr cr hQ hc h0 hcx hex hall hret
    unfold loop at h
    obtain ⟨v, s1, h1, h⟩ := bind_run h
    have fin : ∀ {s1 : PSt (Interval D)}, (pure (if l = [] then (⟨0, x, stop, M, l⟩ : Result n) else ⟨1, x, t, M, l⟩) : PM (Interval D) (Result n)) s1 = (.ok R, st') →
        (R.ret = 1 ∨ R.ret = 3 ∨ R.ret = 2 ∧ R.stop = stop) ∧ ∀ b : ℝ, b ∈ R.stop → At φ dom S a₀ R.init R.mat b := by
      intro s1 h
      have e := (pure_run h).1
      split_ifs at e with hl
      · rw [e] at hret
        exact absurd rfl hret
      · rw [e]
        exact ⟨.inl rfl, hall hl⟩
    rcases v with _ | ⟨Dm, t1, r⟩
    · exact fin h
    obtain ⟨fc, s2, h2, h⟩ := bind_run h
    rcases hsg : step T Dm fc Q y with _ | sg
    · simp only [hsg] at h
      exact fin h
    simp only [hsg] at h
    obtain ⟨go, s3, h3, h⟩ := bind_run h
    obtain ⟨hr2, hr1, hA⟩ := hT.A _ _ _ _ _ _ _ _ h1
    have hC := hT.C _ _ _ _ _ _ h2
    obtain ⟨a, hat, hAt, hrep⟩ := hex
    have hgood : Good sg := by
      split_ifs at h
      · have e := (pure_run h).1
        rw [e] at hG
        exact hG _ (List.mem_cons_self ..)
      · have e := (pure_run h).1
        rw [e] at hG
        exact hG _ (List.mem_cons_self ..)
      · exact hG _ (loop_steps h _ (List.mem_cons_self ..))
    have hstep : ∀ b₀ : ℝ, b₀ ∈ t1 → ∃ (Q' : Fin n → Fin n → ℝ) (c' : Fin n → ℝ), (∀ i j, Is (sg.Q i j) (Q' i j)) ∧ (∀ i, c' i ∈ sg.c i) ∧ (∀ i, (0 : ℝ) ∈ sg.y i) ∧ c' ∈ inBox sg.x ∧
        ∀ b : ℝ, b ∈ t1 → At φ dom S a₀ sg.x (prodIM Dm M) b ∧ ∀ p ∈ S, Rep Q' c' sg.y (φ a₀ b p) := by
      intro b₀ hb₀
      obtain ⟨J₀, hJ₀, -⟩ := (hA a b₀ hat hb₀ cr hcx).2
      obtain ⟨Q', c', k1, k2, k3, k4, k5⟩ := step_mem hsg hgood hQ h0 (hC a b₀ hat hb₀ cr hc) hJ₀
      have hkey : ∀ b : ℝ, b ∈ t1 → ∀ p ∈ S, dom a₀ b p ∧ φ a₀ b p = φ a b (φ a₀ a p) ∧ Rep Q' c' sg.y (φ a₀ b p) := by
        intro b hb p hp
        obtain ⟨hda, hax, -⟩ := hAt p hp
        obtain ⟨J, hJ, e⟩ := mean_value (fun q hq => (hA a b hat hb q hq).2) hcx hax
        obtain ⟨η, hη, eη⟩ := hrep p hp
        obtain ⟨η', hη', e'⟩ := k5 _ (hC a b hat hb cr hc) J hJ η hη
        obtain ⟨hd, ef⟩ := hφ.trans a₀ a b p hda (hA a b hat hb _ hax).1
        refine ⟨hd, ef, η', hη', fun i => ?_⟩
        rw [e' i, ef, e i]
        simp only [eη, add_sub_cancel_right]
      refine ⟨Q', c', k1, k2, k3, fun i => ?_, fun b hb => ⟨fun p hp => ?_, fun p hp => (hkey b hb p hp).2.2⟩⟩
      · have := k4 0 k3 i
        simpa using this
      · obtain ⟨hda, hax, K, hK, hjK⟩ := hAt p hp
        obtain ⟨hd, ef, η', hη', heq⟩ := hkey b hb p hp
        obtain ⟨J, hJ, hjJ⟩ := (hA a b hat hb _ hax).2
        refine ⟨hd, fun i => by rw [heq i]; exact k4 η' hη' i, fun i j => ∑ k, J i k * K k j, fun i j => sumI_mem fun k => Interval.mul_mem (hJ i k) (hK k j), ?_⟩
        exact (HasJac.comp (g := φ a b) hjJ hjK fun q hq => (hAt q hq).2.1).congr hp fun q hq => (hkey b hb q hq).2.1
    split_ifs at h with hgo hr
    · have e := (pure_run h).1
      rw [e]
      refine ⟨.inr (.inl rfl), fun b hb => ?_⟩
      obtain ⟨_, _, _, _, _, _, k⟩ := hstep b hb
      exact (k b hb).1
    · have e := (pure_run h).1
      rw [e]
      refine ⟨.inr (.inr ⟨rfl, rfl⟩), fun b hb => ?_⟩
      have hb1 : b ∈ t1 := by rw [hr2 hr]; exact hb
      obtain ⟨_, _, _, _, _, _, k⟩ := hstep b hb1
      exact (k b hb1).1
    · obtain ⟨b₀, hb₀⟩ := hr1 hr
      obtain ⟨Q', c', k1, k2, k3, k4, k⟩ := hstep b₀ hb₀
      exact loop_mem hφ hT h hG k1 k2 k3 k4 ⟨b₀, hb₀, k b₀ hb₀⟩ (fun _ b hb => (k b hb).1) hret

end Qr

/-- C94 for calls without overflow (missing: the argument or the results of the inner steps have infinite or NaN entries): if `odelong_qr` does not return 0, then for every starting time in `start`
and every starting point in `init` the solution exists up to every time in the new `end`, its value there is in the new `init`, and its derivative with respect to the starting point is in `*mat`; the
returned value is 1, 3 or, with unchanged `end`, 2.  This does not depend on what the orthogonalisation and the callback return. -/
theorem C94_partial {T : Tools n} {φ : Flow n} {dom : ℝ → ℝ → (Fin n → ℝ) → Prop} (hφ : IsFlow φ dom) (hT : ToolsOk T φ dom) {fuel : ℕ} {init : Vec n (Interval D)} {start stop : Interval D}
    {st st' : PSt (Interval D)} {R : Result n} (h : odelongQr T fuel init start stop st = (.ok R, st')) (hb : ∀ i, Bd (init i)) (hG : ∀ s ∈ R.steps, Qr.Good s) (hret : R.ret ≠ 0)
    {a : ℝ} (ha : a ∈ start) {p : Fin n → ℝ} (hp : p ∈ inBox init) :
    (R.ret = 1 ∨ R.ret = 3 ∨ R.ret = 2 ∧ R.stop = stop) ∧ ∀ b : ℝ, b ∈ R.stop → dom a b p ∧ φ a b p ∈ inBox R.init ∧
      ∃ J : Fin n → Fin n → ℝ, (∀ i j, J i j ∈ R.mat i j) ∧ HasJac (φ a b) J (inBox init) p := by
  have hc : ∀ i, FinD (Interval.mid (init i)) ∧ dbl (Interval.mid (init i)) ∈ init i := fun i => mid_bd (hb i) ⟨_, hp i⟩
  have hcp : ∀ i, dbl (Interval.mid (init i)) ∈ (pointV (midV init)) i := fun i => Interval.point_mem (is_of_fin (hc i).1)
  have key := loop_mem hφ hT h hG (a₀ := a) (S := inBox init) (Qr := fun i j => if i = j then 1 else 0) (cr := fun i => dbl (Interval.mid (init i))) eye_is hcp (fun i => ?_) (fun i => (hc i).2)
    ⟨a, ha, ?_, ?_⟩ (fun hl => absurd rfl hl) hret
  · exact ⟨key.1, fun b hb => key.2 b hb p hp⟩
  · have := Interval.sub_mem (hc i).2 (hcp i)
    rwa [sub_self] at this
  · intro q hq
    refine ⟨(hφ.refl a q).1, ?_, fun i j => if i = j then 1 else 0, fun i j => Interval.point_mem (eye_is i j), HasJac.id.congr hq fun q _ => (hφ.refl a q).2⟩
    rw [(hφ.refl a q).2]; exact hq
  · intro q hq
    rw [(hφ.refl a q).2]
    exact ⟨fun i => q i - dbl (Interval.mid (init i)), fun i => Interval.sub_mem (hq i) (hcp i), fun i => by simp⟩

/-- C94 for `autodif`: let `g` be a function with values in the values of `init` whose derivative at the point `θ` is in the derivatives of `init`; then the new `init` contains the value and the
derivative at `θ` of the solution starting from `g`. -/
theorem C94_ad_partial {m : ℕ} {T : Tools n} {φ : Flow n} {dom : ℝ → ℝ → (Fin n → ℝ) → Prop} (hφ : IsFlow φ dom) (hT : ToolsOk T φ dom) {fuel : ℕ} {init init' : Ad n m} {start stop stop' : Interval D}
    {st st' : PSt (Interval D)} {r : ℤ} {l : List (Step n)} (h : odelongQrAd T fuel init start stop st = (.ok (r, init', stop', l), st')) (hb : ∀ i, Bd (init.v i)) (hG : ∀ s ∈ l, Qr.Good s) (hret : r ≠ 0)
    {a b : ℝ} (ha : a ∈ start) (hb' : b ∈ stop') {S : Set (Fin m → ℝ)} {g : (Fin m → ℝ) → Fin n → ℝ} (hg : ∀ θ ∈ S, g θ ∈ inBox init.v) {θ : Fin m → ℝ} (hθ : θ ∈ S)
    {K : Fin n → Fin m → ℝ} (hK : ∀ i j, K i j ∈ init.d i j) (hgK : HasJac g K S θ) :
    φ a b (g θ) ∈ inBox init'.v ∧ ∃ J : Fin n → Fin m → ℝ, (∀ i j, J i j ∈ init'.d i j) ∧ HasJac (fun θ => φ a b (g θ)) J S θ := by
  unfold odelongQrAd at h
  obtain ⟨R, s1, h1, h⟩ := bind_run h
  split_ifs at h with hr
  · have e := (pure_run h).1
    simp only [Prod.mk.injEq] at e
    exact absurd e.1 hret
  have e := (pure_run h).1
  simp only [Prod.mk.injEq] at e
  obtain ⟨e1, e2, e3, e4⟩ := e
  subst e1 e2 e3 e4
  obtain ⟨-, h2⟩ := C94_partial hφ hT h1 hb hG hret ha (hg θ hθ)
  obtain ⟨-, h3, J, hJ, hj⟩ := h2 b hb'
  exact ⟨h3, _, fun i j => sumI_mem fun k => Interval.mul_mem (hJ i k) (hK k j), HasJac.comp (g := φ a b) hj hgK hg⟩

/-- tools for the equation `x' = 1`, whose flow is `φ a b p = p + (b - a)` -/
def exQrTools : Tools 1 where
  A _ _ stop := pure (some (fun _ _ => Interval.point (lit 1), stop, 2))
  C c t t1 := pure fun i => Interval.add (c i) (Interval.sub t1 t)
  qr _ := some eye
  callback _ _ _ _ := pure true
  inv _ := some eye

def exQrFlow : Flow 1 := fun a b p i => p i + (b - a)

theorem exQrFlow_ok : IsFlow exQrFlow fun _ _ _ => True :=
  ⟨fun a p => ⟨trivial, by funext i; simp [exQrFlow]⟩, fun a b c p _ _ => ⟨trivial, by funext i; simp only [exQrFlow]; ring⟩⟩

theorem exQrTools_ok : ToolsOk exQrTools exQrFlow fun _ _ _ => True := by
  refine ⟨fun x t stop st Dm t1 r st' h => ?_, fun c t t1 st fc st' h a b ha hb q hq i => ?_⟩
  · have e := (pure_run h).1
    simp only [Option.some.injEq, Prod.mk.injEq] at e
    obtain ⟨e1, e2, e3⟩ := e
    subst e1 e2 e3
    refine ⟨fun _ => rfl, fun h => absurd rfl h, fun a b _ _ q _ => ⟨trivial, fun _ _ => 1, fun _ _ => Interval.point_mem Interval.is_one, fun i => ?_⟩⟩
    have : HasFDerivWithinAt (fun q : Fin 1 → ℝ => q i + (b - a)) (ContinuousLinearMap.proj i : (Fin 1 → ℝ) →L[ℝ] ℝ) (inBox x) q :=
      ((ContinuousLinearMap.proj i : (Fin 1 → ℝ) →L[ℝ] ℝ).hasFDerivWithinAt).add_const _
    have e : (∑ j, (1 : ℝ) • (ContinuousLinearMap.proj j : (Fin 1 → ℝ) →L[ℝ] ℝ)) = ContinuousLinearMap.proj i := by
      rw [Subsingleton.elim i 0]; simp
    rw [e]
    exact this
  · have e := (pure_run h).1
    rw [e]
    exact Interval.add_mem (hq i) (Interval.sub_mem hb ha)

instance (s : Step n) : Decidable (Qr.Good s) := by unfold Qr.Good; infer_instance

def exQrRun : Res (Result 1) := (odelongQr exQrTools 1 (fun _ => ⟨lit 0, lit 1⟩) (Interval.point (lit 0)) (Interval.point (lit 1)) ⟨1, Interval.point (lit 0), [], false, false⟩).1

/-- the hypotheses of `C94_partial` are met by the equation `x' = 1` with `init = [0,1]`, `start = 0`, `end = 1`, and the result is the value 2 -/
example : ∃ R, exQrRun = .ok R ∧ R.ret = 2 ∧ (∀ s ∈ R.steps, Qr.Good s) ∧ (0 : ℝ) ∈ Interval.point (lit 0 : D) ∧ ((⟨lit 1, lit 2⟩ : Interval D).subset (R.init 0) ∧ (R.init 0).subset ⟨lit 0.5, lit 3⟩) := by
  have h : (match exQrRun with
      | .ok R => decide (R.ret = 2 ∧ (∀ s ∈ R.steps, Qr.Good s) ∧ (⟨lit 1, lit 2⟩ : Interval D).subset (R.init 0) ∧ (R.init 0).subset ⟨lit 0.5, lit 3⟩)
      | .error _ => false) = true := by
    decide +kernel
  rcases e : exQrRun with _ | R
  · rw [e] at h; cases h
  · rw [e] at h
    have h := of_decide_eq_true h
    exact ⟨R, rfl, h.1, h.2.1, Interval.point_mem Interval.is_zero, h.2.2⟩

end Kv
