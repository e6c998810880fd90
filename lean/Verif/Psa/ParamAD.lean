import Verif.Psa.Param
import Verif.Autodif.Sound

/-! # The rules for `autodif` -/

namespace Kv
open RopSem Psa
open Rop (lit)
attribute [local instance] scalR

section
variable {T : Type} [ScalSem T] {n : ℕ} {x : Fin n → ℝ}

/-- `A` encloses the value and the gradient of `φ` at `x` -/
def Follows (x : Fin n → ℝ) (φ : (Fin n → ℝ) → ℝ) (A : Autodif T) : Prop := ∃ c, AD c φ x A

theorem unary_dom {c : Bool} {φ : (Fin n → ℝ) → ℝ} {u r : Autodif T} {f : Un} (hf : Tame f) (hu : AD c φ x u)
    (h : Autodif.unary f u = .ok r) : f.Dom (φ x) := by
  by_cases h1 : f = .neg
  · subst h1; exact trivial
  by_cases h2 : f = .log
  · subst h2; exact hf.elim
  by_cases h3 : f = .sqrt
  · subst h3
    unfold Autodif.unary at h
    obtain ⟨R, hR, h⟩ := bind_ok.1 h
    exact ScalSem.un_ok (f := .sqrt) hR hu.val
  obtain ⟨hR, s, hs, -⟩ := unary_slope h1 h2 h3 h
  exact (slope_mem hR hu.val hs).1.self_of_nhds

theorem rules_ad {N : ℕ} (hN : N < 2 ^ 31) (h1 : 1 ≤ N) : Rules (S := Autodif T) (nhds x) N (Follows x) where
  bin {o φ ψ A B C} := by
    rintro ⟨c, h⟩ ⟨c', h'⟩ hC
    refine ⟨fun y => o.real (φ y) (ψ y), ?_⟩
    have key : (∀ᶠ y in nhds x, o.Dom (ψ y)) ∧ Follows x (fun y => o.real (φ y) (ψ y)) C := by
      cases o with
      | add => exact ⟨.of_forall fun _ => trivial, _, add_sound h h' hC⟩
      | sub => exact ⟨.of_forall fun _ => trivial, _, sub_sound h h' hC⟩
      | mul => exact ⟨.of_forall fun _ => trivial, _, mul_sound h h' hC⟩
      | div =>
        obtain ⟨h1, h2⟩ := div_sound h h' hC
        exact ⟨h'.continuousAt.eventually_ne h1, _, h2⟩
    exact ⟨key.1.mono fun y hy => if_pos hy, key.2⟩
  binC {o φ k A C} := by
    rintro ⟨c, h⟩ ⟨a, hk⟩ hC
    obtain ⟨h1, h2⟩ := opC_sound h hk hC
    refine ⟨fun y => o.real (φ y) a, .of_forall fun y => ?_, _, h2⟩
    show guardR (o.Dom (dbl k)) (o.real (φ y) (dbl k)) = _
    rw [is_dbl hk]; exact if_pos h1
  cBin {o φ k A C} := by
    rintro ⟨c, h⟩ ⟨a, hk⟩ hC
    obtain ⟨h1, h2⟩ := cOp_sound h hk hC
    have key : ∀ᶠ y in nhds x, o.Dom (φ y) := by
      cases o with
      | add => exact .of_forall fun _ => trivial
      | sub => exact .of_forall fun _ => trivial
      | mul => exact .of_forall fun _ => trivial
      | div => exact h.continuousAt.eventually_ne h1
    refine ⟨fun y => o.real a (φ y), key.mono fun y hy => ?_, _, h2⟩
    show guardR (o.Dom (φ y)) (o.real (dbl k) (φ y)) = _
    rw [is_dbl hk]; exact if_pos hy
  un {f φ A C} := by
    rintro hf ⟨c, h⟩ hC
    obtain ⟨h1, h2⟩ := unary_ad h (fun _ => unary_dom hf h hC) hC
    exact ⟨fun y => f.real (φ y), h1.mono fun y hy => if_pos hy, _, h2⟩
  ofC {k} := by
    rintro ⟨a, hk⟩
    refine ⟨true, ?_, fun _ => ⟨rfl, fun _ => rfl⟩, fun h => by cases h⟩
    show ScalSem.mem (dbl k) (Scal.ofC k : T)
    rw [is_dbl hk]; exact ScalSem.ofC_mem hk
  small := hN
  pos := h1

theorem Follows.lift {a : ℝ} {A : T} (h : ScalSem.mem a A) : Follows x (fun _ => a) (Autodif.lift A) :=
  ⟨true, h, fun _ => ⟨rfl, fun _ => rfl⟩, fun h => by cases h⟩

theorem Follows.init {X : Fin n → T} (h : ∀ i, ScalSem.mem (x i) (X i)) (i : Fin n) : Follows x (fun y => y i) (Autodif.init X i) := by
  refine ⟨false, h i, fun h => (by cases h), fun _ => ⟨i.pos, fun j => if i = j then 1 else 0, fun j => Scal.ofC (if i = j then lit 1 else lit 0), ?_, rfl, fun j => ?_⟩⟩
  · have : lin (fun j => if i = j then (1 : ℝ) else 0) = ContinuousLinearMap.proj i := by
      ext y; rw [lin_apply]; simp
    rw [this]; exact (ContinuousLinearMap.proj (R := ℝ) (φ := fun _ : Fin n => ℝ) i).hasFDerivAt
  · dsimp only
    split_ifs
    · exact ScalSem.ofC_mem Interval.is_one
    · exact ScalSem.ofC_mem Interval.is_zero

end
end Kv
