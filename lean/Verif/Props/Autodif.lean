import Verif.Autodif.Inst

/-!
# C26: forward automatic differentiation

A template function is an expression (`Expr`); `Expr.real` is the real function it denotes, `Expr.Dom`
says where that function is defined.  `lin g` is the linear form with coefficients `g`, so
`HasFDerivAt φ (lin g) x` says that `g` is the gradient of `φ` at `x`.

`FinCst`: the double constants written in the text are finite and integer exponents are proper `int`s.
`ConstDom`: functions applied to constant subexpressions are defined there.
-/

namespace Kv
open RopSem Kv.Interval
open Rop (lit)

variable {fuel n : ℕ} {p : ℕ → Interval D} {X : Fin n → Interval D} {ρ : ℕ → ℝ} {x : Fin n → ℝ} {e : Expr n}

/-- C26 (values): evaluating a template function with intervals encloses its value at every point of
the box at which it is defined. -/
theorem C26_value {Z : Interval D} (hc : e.FinCst) (hp : ∀ i, ρ i ∈ p i) (hx : ∀ i, x i ∈ X i) (hd : e.Dom ρ x)
    (h : evalI fuel p X e = .ok Z) : e.real ρ x ∈ Z :=
  @eval_mem _ (semI fuel) n p X ρ x hp hx e Z hc hd h

/-- C26: the function is defined and differentiable at every point of the box, and its value and its
partial derivatives lie in the computed intervals. -/
theorem C26_gradient {r : Autodif (Interval D)} (hc : e.FinCst) (hk : e.ConstDom ρ) (hv : e.closed = false)
    (hp : ∀ i, ρ i ∈ p i) (hx : ∀ i, x i ∈ X i) (h : evalA fuel p X e = .ok r) :
    e.Dom ρ x ∧ e.real ρ x ∈ r.v ∧
    ∃ (g : Fin n → ℝ) (A : Fin n → Interval D), HasFDerivAt (fun y => e.real ρ y) (lin g) x ∧ r.d = List.ofFn A ∧ ∀ j, g j ∈ A j := by
  let _ := semI fuel
  obtain ⟨h1, h2⟩ := @evalAD_sound _ (semI fuel) n p X ρ x hp hx e r hc hk h
  exact ⟨h1, h2.val, (h2.grad hv).2⟩

/-- C26 (constants): an expression without variables has an empty gradient. -/
theorem C26_constant {r : Autodif (Interval D)} (hc : e.FinCst) (hk : e.ConstDom ρ) (hv : e.closed = true)
    (hp : ∀ i, ρ i ∈ p i) (hx : ∀ i, x i ∈ X i) (h : evalA fuel p X e = .ok r) :
    e.Dom ρ x ∧ e.real ρ x ∈ r.v ∧ r.d = [] := by
  let _ := semI fuel
  obtain ⟨h1, h2⟩ := @evalAD_sound _ (semI fuel) n p X ρ x hp hx e r hc hk h
  exact ⟨h1, h2.val, (h2.con hv).1⟩

/-- C26 (`split`): the rows of the matrix contain the rows of the Jacobian matrix; the row of a
constant component is zero. -/
theorem C26_split {m : ℕ} {e : Fin m → Expr n} {r : Fin m → Autodif (Interval D)} (hc : ∀ i, (e i).FinCst)
    (hk : ∀ i, (e i).ConstDom ρ) (hp : ∀ i, ρ i ∈ p i) (hx : ∀ i, x i ∈ X i) (h : ∀ i, evalA fuel p X (e i) = .ok (r i)) :
    ∃ J : Fin m → Fin n → ℝ, (∀ i, HasFDerivAt (fun y => (e i).real ρ y) (lin (J i)) x) ∧
      ∀ i j, J i j ∈ @Autodif.row _ (scalI fuel) n (r i) j := by
  choose J hJ using fun i => (@AD.row _ (semI fuel) n _ _ _ _ (@evalAD_sound _ (semI fuel) n p X ρ x hp hx (e i) (r i) (hc i) (hk i) (h i)).2)
  exact ⟨J, fun i => (hJ i).1, fun i j => (hJ i).2 j⟩

/-- C26 (`split`): the matrix has `n` columns if some component depends on a variable, and no columns
at all if every component is constant. -/
theorem C26_split_columns {m : ℕ} {e : Fin m → Expr n} {r : Fin m → Autodif (Interval D)} (hc : ∀ i, (e i).FinCst)
    (hk : ∀ i, (e i).ConstDom ρ) (hp : ∀ i, ρ i ∈ p i) (hx : ∀ i, x i ∈ X i) (h : ∀ i, evalA fuel p X (e i) = .ok (r i)) :
    Autodif.splitCols r = if ∃ i, (e i).closed = false then n else 0 := by
  have hl : ∀ i, (r i).d.length = if (e i).closed = false then n else 0 := by
    intro i
    have hs := (@evalAD_sound _ (semI fuel) n p X ρ x hp hx (e i) (r i) (hc i) (hk i) (h i)).2
    by_cases hcl : (e i).closed = false
    · rw [if_pos hcl]
      exact @GradIn.length _ (semI fuel) _ _ _ _ (@AD.grad _ (semI fuel) _ _ _ _ _ hs hcl).2
    · rw [if_neg hcl, (@AD.con _ (semI fuel) _ _ _ _ _ hs (by simpa using hcl)).1]; rfl
  unfold Autodif.splitCols
  split_ifs with hex
  · obtain ⟨i, hi⟩ := hex
    apply le_antisymm
    · refine foldr_max_le fun a ha => ?_
      obtain ⟨k, rfl⟩ := (List.mem_ofFn' _ _).1 ha
      dsimp only
      rw [hl]; split_ifs <;> omega
    · refine le_foldr_max ?_
      rw [List.mem_ofFn']
      exact ⟨i, by dsimp only; rw [hl, if_pos hi]⟩
  · apply Nat.le_zero.1
    refine foldr_max_le fun a ha => ?_
    obtain ⟨k, rfl⟩ := (List.mem_ofFn' _ _).1 ha
    dsimp only
    rw [hl, if_neg (fun hh => hex ⟨k, hh⟩)]

/-- C26 (over a field): in exact arithmetic the value and the gradient are exact. -/
theorem C26_exact {e : Expr n} {r : Autodif ℝ} (hc : e.FinCst) (hk : e.ConstDom ρ) (hv : e.closed = false)
    (h : @Expr.eval _ (@Autodif.instScal _ scalR) n (fun i => Autodif.lift (ρ i)) (@Autodif.init _ scalR n x) e = .ok r) :
    r.v = e.real ρ x ∧ ∃ g : Fin n → ℝ, HasFDerivAt (fun y => e.real ρ y) (lin g) x ∧ r.d = List.ofFn g := by
  let _ := semR
  obtain ⟨-, h2⟩ := @evalAD_sound _ semR n ρ x ρ x (fun _ => rfl) (fun _ => rfl) e r hc hk h
  refine ⟨h2.val.symm, ?_⟩
  obtain ⟨g, A, hg, e1, hA⟩ := (h2.grad hv).2
  refine ⟨g, hg, ?_⟩
  rw [e1, show A = g from funext fun j => (hA j).symm]

/-- C26 (`compress`, `expand`): differentiate `e` with respect to fresh variables at the values of
`ψ₁ … ψₙ`, then multiply by the saved gradients: this encloses the value and the gradient of the
composition.  The `ψᵢ` are template functions of `m` variables, evaluated over the box `Y`. -/
theorem C26_expand {m : ℕ} {Y : Fin m → Interval D} {y : Fin m → ℝ} {ψ : Fin n → Expr m} {u : Fin n → Autodif (Interval D)}
    {w r : Autodif (Interval D)} (hψ : ∀ i, (ψ i).FinCst ∧ (ψ i).ConstDom ρ) (hp : ∀ i, ρ i ∈ p i) (hy : ∀ j, y j ∈ Y j)
    (hu : ∀ i, evalA fuel p Y (ψ i) = .ok (u i)) (hc : e.FinCst) (hk : e.ConstDom ρ) (hv : e.closed = false)
    (hw : @Expr.eval _ (@Autodif.instScal _ (scalI fuel)) n (fun i => Autodif.lift (p i)) (@Autodif.compress _ (scalI fuel) n u) e = .ok w)
    (hr : @Autodif.expand _ (scalI fuel) n m w (@Autodif.save _ (scalI fuel) n m u) = .ok r) :
    e.real ρ (fun i => (ψ i).real ρ y) ∈ r.v ∧ ∃ (g : Fin m → ℝ) (A : Fin m → Interval D),
      HasFDerivAt (fun s => e.real ρ fun i => (ψ i).real ρ s) (lin g) y ∧ r.d = List.ofFn A ∧ ∀ j, g j ∈ A j := by
  let _ := semI fuel
  have h1 := fun i => (@evalAD_sound _ (semI fuel) m p Y ρ y hp hy (ψ i) (u i) (hψ i).1 (hψ i).2 (hu i)).2
  obtain ⟨-, h2⟩ := @evalAD_sound _ (semI fuel) n p (fun i => (u i).v) ρ (fun i => (ψ i).real ρ y) hp
    (fun i => @AD.val _ (semI fuel) _ _ _ _ _ (h1 i)) e w hc hk hw
  exact @expand_sound _ (semI fuel) n m (fun z => e.real ρ z) (fun i s => (ψ i).real ρ s) y w r u _ h1 h2.val (h2.grad hv).2 hr

/-- C26 (functions of one variable): `split` gives value and derivative. -/
theorem C26_split1 {X : Fin 1 → Interval D} {e : Expr 1} {r : Autodif (Interval D)} {a b : Interval D} {t : ℝ} (hc : e.FinCst)
    (hk : e.ConstDom ρ) (hv : e.closed = false) (hp : ∀ i, ρ i ∈ p i) (ht : t ∈ X 0) (h : evalA fuel p X e = .ok r)
    (hs : Autodif.split1 r = .ok (a, b)) : e.real ρ (fun _ => t) ∈ a ∧ ∃ c, HasDerivAt (fun s => e.real ρ fun _ => s) c t ∧ c ∈ b := by
  obtain ⟨-, h2, g, A, hg, hd, hA⟩ := C26_gradient (x := fun _ => t) hc hk hv hp (fun i => by rw [Subsingleton.elim i 0]; exact ht) h
  unfold Autodif.split1 at hs
  rw [hd, List.ofFn_succ] at hs
  cases hs
  refine ⟨h2, g 0, ?_, hA 0⟩
  have h3 : HasDerivAt (fun s : ℝ => (fun _ : Fin 1 => s)) (fun _ => 1) t := hasDerivAt_pi.2 fun _ => hasDerivAt_id t
  have h4 := HasFDerivAt.comp_hasDerivAt t (f := fun s : ℝ => (fun _ : Fin 1 => s)) hg h3
  rw [lin_apply] at h4
  simp only [Finset.univ_unique, Fin.default_eq_zero, Finset.sum_singleton, mul_one] at h4
  exact h4

/-- Boundary of C26: for a constant function `split` (one variable) reads an element that does not
exist, and so does `expand`. -/
theorem C26_constant_undefined {m : ℕ} {r : Autodif (Interval D)} {c : Fin (n + 1) → Fin (m + 1) → Interval D} (hd : r.d = []) :
    Autodif.split1 r = .error .undefined ∧ @Autodif.expand _ (scalI fuel) (n + 1) (m + 1) r c = .error .undefined := by
  constructor
  · unfold Autodif.split1; rw [hd]
  · unfold Autodif.expand Autodif.seq
    rw [hd]
    simp only [List.ofFn_succ]
    rfl

/-! Concrete cases. -/

/-- `x₀ * x₁ / (x₁ + 2) - p₀` -/
def exE : Expr 2 := .bin .sub (.bin .div (.bin .mul (.var 0) (.var 1)) (.binC .add (.var 1) (lit 2))) (.par 0)
def exX : Fin 2 → Interval D := fun i => if i = 0 then ⟨lit 1, lit 2⟩ else ⟨lit 3, lit 4⟩

theorem exE_hyp (ρ : ℕ → ℝ) : exE.FinCst ∧ exE.ConstDom ρ ∧ exE.closed = false := by
  refine ⟨⟨⟨⟨trivial, trivial⟩, trivial, ?_⟩, trivial⟩, by simp [exE, Expr.ConstDom], rfl⟩
  rw [is_dbl is_two]; exact is_two

theorem exE_ok : (evalA 100 (fun _ => ⟨lit 0, lit 1⟩) exX exE).isOk = true := by decide +kernel

/-- the hypotheses of `C26_gradient` are met: a gradient is enclosed at `(3/2, 10/3)` -/
example : ∃ r, evalA 100 (fun _ => ⟨lit 0, lit 1⟩) exX exE = .ok r ∧ ∃ (g : Fin 2 → ℝ) (A : Fin 2 → Interval D),
    HasFDerivAt (fun y => exE.real (fun _ => 1 / 2) y) (lin g) ![3 / 2, 10 / 3] ∧ r.d = List.ofFn A ∧ ∀ j, g j ∈ A j := by
  cases h : evalA 100 (fun _ => ⟨lit 0, lit 1⟩) exX exE with
  | error => have := exE_ok; rw [h] at this; cases this
  | ok r =>
    have i3 : Is (lit 3 : D) 3 := by simpa using Is.lit_int (T := D) 3 (by norm_num)
    have i4 : Is (lit 4 : D) 4 := by simpa using Is.lit_int (T := D) 4 (by norm_num)
    obtain ⟨c1, c2, c3⟩ := exE_hyp (fun _ => 1 / 2)
    refine ⟨r, rfl, (C26_gradient c1 c2 c3 (fun _ => ?_) ?_ h).2.2⟩
    · exact ⟨⟨is_zero.1, by rw [is_zero.2]; exact_mod_cast (by norm_num : (0 : ℝ) ≤ 1 / 2)⟩,
        ⟨is_one.1, by rw [is_one.2]; exact_mod_cast (by norm_num : (1 / 2 : ℝ) ≤ 1)⟩⟩
    · refine Fin.forall_fin_two.2 ⟨?_, ?_⟩
      · show (3 / 2 : ℝ) ∈ (⟨lit 1, lit 2⟩ : Interval D)
        exact ⟨⟨is_one.1, by rw [is_one.2]; exact_mod_cast (by norm_num : (1 : ℝ) ≤ 3 / 2)⟩,
          ⟨is_two.1, by rw [is_two.2]; exact_mod_cast (by norm_num : (3 / 2 : ℝ) ≤ 2)⟩⟩
      · show (10 / 3 : ℝ) ∈ (⟨lit 3, lit 4⟩ : Interval D)
        exact ⟨⟨i3.1, by rw [i3.2]; exact_mod_cast (by norm_num : (3 : ℝ) ≤ 10 / 3)⟩,
          ⟨i4.1, by rw [i4.2]; exact_mod_cast (by norm_num : (10 / 3 : ℝ) ≤ 4)⟩⟩

set_option maxRecDepth 100000 in
/-- elementary functions are differentiated too -/
example : (evalA 100 (fun _ => ⟨lit 0, lit 1⟩) exX (.pow (.un .exp (.var 0)) (.un .log (.var 1)))).isOk = true := by
  decide +kernel

/-- `atan` over a box containing 0 in its interior: the derivative `1/(1+x·x)` is computed with a
product of two equal intervals, so the division by an interval containing 0 throws although the
function is differentiable everywhere. -/
theorem C26_atan_throws : evalA 100 (fun _ => ⟨lit 0, lit 1⟩) (fun _ : Fin 1 => ⟨lit (-1), lit 1⟩) (.un .atan (.var 0))
    = .error .domainError := by
  set_option maxRecDepth 100000 in decide +kernel

end Kv
