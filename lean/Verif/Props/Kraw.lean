import Verif.Solver.KrawLemmas

/-!
# C28: the Krawczyk test

`f` is a real function with enclosures computed by `P` (`Prog.Sound`: interval evaluation and automatic
differentiation enclose the values and the derivatives of `f`; `exprProg_sound` proves this for all
template functions).  `inv` is an arbitrary approximate inverse.  `krawczykApprox inv P c k = .ok (some (I, K))`
means that `krawczyk_approx(f, c, K, k)` returns true; `I` is the candidate box.

As stated C28 is false: if the candidate box is unbounded, `true` may be returned for a function without
zeros (`C28_violated`).  It holds whenever the returned box is bounded.
-/

namespace Kv
open RopSem Kv.Interval
open Rop (lit)
open LA

variable {n : ℕ} {inv : Inverter n} {P : Prog n} {dom : (Fin n → ℝ) → Prop} {f : (Fin n → ℝ) → Fin n → ℝ} {c : Vec n D} {k : ℕ}
  {I K : Vec n (Interval D)}

/-- C28 for a bounded result (missing: unbounded results, where it is false): `f` is defined on the
candidate box `I`, has exactly one zero in it, and this zero lies in the returned box `K ⊆ I`.  The derivative of `f` is
nonsingular everywhere in `I`. -/
theorem C28_partial (hP : P.Sound dom f) (h : krawczykApprox inv P c k = .ok (some (I, K))) (hb : ∀ i, Bd (K i)) :
    (∀ x : Fin n → ℝ, (∀ i, x i ∈ K i) → ∀ i, x i ∈ I i) ∧ (∀ x : Fin n → ℝ, (∀ i, x i ∈ I i) → dom x) ∧
    (∃ z, (∀ i, z i ∈ K i) ∧ f z = 0 ∧ ∀ y, (∀ i, y i ∈ I i) → f y = 0 → y = z) ∧
    ∀ x : Fin n → ℝ, (∀ i, x i ∈ I i) → ∃ A : Fin n → Fin n → ℝ, (∀ i, HasFDerivAt (fun y => f y i) (lin (A i)) x) ∧ (Matrix.of A).det ≠ 0 := by
  obtain ⟨c2, -, h⟩ := Kraw.krawczykApprox_some h
  obtain ⟨fc, fdc, R, fi, fdi, h1, -, hI, h2, hK, hp⟩ := Kraw.verify_some h
  have hfin := fun i => Kraw.boxK_fin (hK ▸ (hb i).1)
  have hc : ∀ i, dbl (c2 i) ∈ I i := fun i => by rw [hI]; exact Kraw.inflate_mem (hfin i).1 _
  have hc' : ∀ i, dbl (c2 i) ∈ pointV c2 i := fun i => point_mem (is_dbl' (hfin i).1)
  have hfc := (hP.der h1 hc').2.1
  have hmem : ∀ A : Fin n → Fin n → ℝ, (∀ i j, A i j ∈ fdi i j) → ∀ x : Fin n → ℝ, (∀ i, x i ∈ I i) → ∀ i,
      (dbl (c2 i) - ∑ k, rv (R i k) * f (fun i => dbl (c2 i)) k) + ∑ j, kG (fun i k => rv (R i k)) A i j * (x j - dbl (c2 j)) ∈ K i := by
    intro A hA x hx i
    rw [hK]
    exact add_mem (sub_mem (hc' i) (prodSV_mem (hfin i).2 hfc))
      (prodIV_mem (G := kG (fun i k => rv (R i k)) A) (fun j => Kraw.matM_mem hA (fun i => (hfin i).2) i j) fun j => sub_mem (hx j) (hc' j))
  obtain ⟨h3, -, z, h4, h5, h6⟩ := Kraw.test_sound hP h2 hc hmem hb hp
  refine ⟨fun x hx i => ?_, fun x hx => (hP.der h2 hx).1, ⟨z, h4, h5, h6⟩, fun x hx => ?_⟩
  · obtain ⟨⟨n1, n2, n3, n4⟩, l1, l2, -⟩ := properSubset_iff.1 (allV_iff.1 hp i)
    exact ⟨⟨n3, l1.trans (hx i).1.2⟩, n4, (hx i).2.2.trans l2⟩
  · obtain ⟨-, -, A, hA, hd⟩ := hP.der h2 hx
    exact ⟨A, hd, h3 A hA⟩

/-- C28 for template functions. -/
theorem C28_template_partial {fuel : ℕ} {p : ℕ → Interval D} {e : Fin n → Expr n} {ρ : ℕ → ℝ} (hc : ∀ i, (e i).FinCst)
    (hk : ∀ i, (e i).ConstDom ρ) (hp : ∀ i, ρ i ∈ p i) (h : krawczykApprox inv (exprProg fuel p e) c k = .ok (some (I, K)))
    (hb : ∀ i, Bd (K i)) :
    (∀ x : Fin n → ℝ, (∀ i, x i ∈ I i) → ∀ i, (e i).Dom ρ x) ∧
    ∃ z : Fin n → ℝ, (∀ i, z i ∈ K i) ∧ (∀ i, (e i).real ρ z = 0) ∧
      ∀ y : Fin n → ℝ, (∀ i, y i ∈ I i) → (∀ i, (e i).real ρ y = 0) → y = z := by
  obtain ⟨-, h1, ⟨z, h2, h3, h4⟩, -⟩ := C28_partial (exprProg_sound hc hk hp) h hb
  exact ⟨h1, z, h2, fun i => congrFun h3 i, fun y hy h0 => h4 y hy (funext h0)⟩

/-! Concrete cases. -/

/-- `x₀² - 2` -/
def sqE : Fin 1 → Expr 1 := fun _ => .binC .sub (.bin .mul (.var 0) (.var 0)) (lit 2)

theorem sqE_hyp (ρ : ℕ → ℝ) : (∀ i, (sqE i).FinCst) ∧ ∀ i, (sqE i).ConstDom ρ := by
  refine ⟨fun i => ⟨⟨trivial, trivial⟩, ?_⟩, fun i => by simp [sqE, Expr.ConstDom]⟩
  rw [is_dbl is_two]; exact is_two

/-- a run which returns true with bounded boxes -/
def okBd (r : Res (Option (Vec 1 (Interval D) × Vec 1 (Interval D)))) : Bool :=
  match r with
  | .ok (some (_, K)) => decide (Bd (K 0))
  | _ => false

set_option maxRecDepth 100000 in
theorem sqE_ok : okBd (krawczykApprox inv1 (exprProg 0 (fun _ => Interval.point (lit 0)) sqE) (fun _ => lit (3 / 2)) 2) = true := by
  decide +kernel

/-- the hypotheses of `C28_template_partial` are met for `x² - 2`, started at 1.5 -/
example : ∃ I K, krawczykApprox inv1 (exprProg 0 (fun _ => Interval.point (lit 0)) sqE) (fun _ => lit (3 / 2)) 2 = .ok (some (I, K)) ∧
    ∀ i, Bd (K i) := by
  have h := sqE_ok
  unfold okBd at h
  split at h
  · rename_i I K heq
    refine ⟨I, K, heq, fun i => ?_⟩
    rw [Subsingleton.elim i 0]
    exact of_decide_eq_true h
  · cases h

/-! Violation: `f(x) = tanh(2⁻¹⁰²² (x - 2¹⁰²³)) - 3/2` has no zero, but the test succeeds. -/

def tanhE : Fin 1 → Expr 1 := fun _ =>
  .binC .sub (.un .tanh (.binC .mul (.binC .sub (.var 0) (lit (2 ^ 1023))) (lit (2 ^ (-1022 : ℤ))))) (lit (3 / 2))

theorem tanhE_real (ρ : ℕ → ℝ) (x : Fin 1 → ℝ) : (tanhE 0).real ρ x ≠ 0 := by
  have h0 : Is (lit (3 / 2) : D) (3 / 2) := by
    have := is_cst (q := 3 / 2) 3 (-1) (by norm_num) (by norm_num) (by norm_num) (by norm_num)
    push_cast at this; exact this
  have h1 : (tanhE 0).real ρ x = Real.tanh ((x 0 - dbl (lit (2 ^ 1023))) * dbl (lit (2 ^ (-1022 : ℤ)))) - dbl (lit (3 / 2)) := rfl
  have h2 := Real.tanh_lt_one ((x 0 - dbl (lit (2 ^ 1023))) * dbl (lit (2 ^ (-1022 : ℤ))))
  rw [h1, is_dbl h0]
  intro h
  linarith

set_option maxRecDepth 100000 in
theorem tanhE_ok : (match krawczykApprox inv1 (exprProg 200 (fun _ => Interval.point (lit 0)) tanhE) (fun _ => lit (2 ^ 1023)) 0 with
    | .ok (some _) => true | _ => false) = true := by
  decide +kernel

theorem tanhE_hyp (ρ : ℕ → ℝ) : (∀ i, (tanhE i).FinCst) ∧ ∀ i, (tanhE i).ConstDom ρ := by
  refine ⟨fun i => ⟨⟨⟨trivial, ?_⟩, ?_⟩, ?_⟩, fun i => by simp [tanhE, Expr.ConstDom, Expr.closed]⟩
  all_goals exact is_dbl' (isFinD_iff.1 (by decide +kernel))

/-- C28 is violated: `krawczyk_approx` returns true for a function (with correct enclosures) that has no zero. -/
theorem C28_violated : ∃ (P : Prog 1) (dom : (Fin 1 → ℝ) → Prop) (f : (Fin 1 → ℝ) → Fin 1 → ℝ) (c : Vec 1 D) (I K : Vec 1 (Interval D)),
    P.Sound dom f ∧ (∀ x, dom x ∧ f x ≠ 0) ∧ krawczykApprox inv1 P c 0 = .ok (some (I, K)) := by
  have h := tanhE_ok
  split at h
  · rename_i r heq
    refine ⟨_, _, _, _, r.1, r.2, exprProg_sound (fuel := 200) (p := fun _ => Interval.point (lit 0)) (ρ := fun _ => 0) (tanhE_hyp fun _ => 0).1 (tanhE_hyp fun _ => 0).2
      (fun _ => point_mem is_zero), fun x => ⟨fun i => ?_, fun h0 => tanhE_real _ x (congrFun h0 0)⟩, heq⟩
    exact (by simp [tanhE, Expr.Dom, Un.Dom, Bin.Dom])
  · cases h

end Kv
