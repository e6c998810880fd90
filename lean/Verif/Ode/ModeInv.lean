import Verif.Ode.HighDeriv

/-! # Evaluations do not change the mode of the power series arithmetic, even if they throw -/

namespace Kv
open Psa PM
open Rop (lit)
set_option linter.unusedSectionVars false
set_option linter.unusedTactic false
set_option linter.unreachableTactic false
set_option linter.unnecessarySeqFocus false

/-- the mode is the same after the computation, whatever its outcome -/
structure KeepsMode {S α : Type} (m : PM S α) : Prop where
  run : ∀ st, (m st).2.mode = st.mode

namespace KeepsMode
variable {S α β : Type}

theorem bind {m : PM S α} {k : α → PM S β} (h1 : KeepsMode m) (h2 : ∀ a, KeepsMode (k a)) : KeepsMode (m >>= k) := by
  refine ⟨fun st => ?_⟩
  rw [PM.bind_eq]
  have := h1.run st
  rcases hm : m st with ⟨r, st1⟩
  rw [hm] at this
  cases r with
  | ok a => exact ((h2 a).run st1).trans this
  | error e => exact this

theorem lift (r : Res α) : KeepsMode (PM.lift r : PM S α) := ⟨fun _ => rfl⟩
theorem pure (a : α) : KeepsMode (Pure.pure a : PM S α) := ⟨fun _ => rfl⟩
theorem get : KeepsMode (PM.get : PM S (PSt S)) := ⟨fun _ => rfl⟩
theorem setUse (b : Bool) : KeepsMode (PM.setUse b : PM S Unit) := ⟨fun _ => rfl⟩
theorem setRec (b : Bool) : KeepsMode (PM.setRec b : PM S Unit) := ⟨fun _ => rfl⟩
theorem setDomain (d : S) : KeepsMode (PM.setDomain d : PM S Unit) := ⟨fun _ => rfl⟩
theorem setHist (l : List (List S)) : KeepsMode (PM.setHist l : PM S Unit) := ⟨fun _ => rfl⟩

end KeepsMode

/-- walks through the definition of a computation -/
macro "keeps" : tactic => `(tactic| repeat' first
  | exact KeepsMode.lift _
  | exact KeepsMode.pure _
  | exact KeepsMode.get
  | exact KeepsMode.setUse _
  | exact KeepsMode.setRec _
  | exact KeepsMode.setDomain _
  | exact KeepsMode.setHist _
  | assumption
  | with_reducible refine KeepsMode.bind ?_ ?_
  | intro _
  | split
  | dsimp only)

section
variable {S : Type} [Scal S]

theorem keeps_evalrange (x : List S) : KeepsMode (evalrange x) := by unfold evalrange; keeps
theorem keeps_fill (n : ℕ) (f e : ℕ → Res S) : KeepsMode (fill n f e) := by unfold fill; keeps
theorem keeps_pop : KeepsMode (pop (S := S)) := by unfold pop; keeps
theorem keeps_push (x : List S) : KeepsMode (push x) := by unfold push; keeps
theorem keeps_finish (x : List S) : KeepsMode (finish x) := by unfold finish; have := keeps_pop (S := S); have := keeps_push x; keeps
theorem keeps_both (o : Bin) (a b : List S) : KeepsMode (both o a b) := by
  unfold both; keeps <;> first | exact keeps_fill _ _ _ | exact keeps_finish _
theorem keeps_add (a b : List S) : KeepsMode (add a b) := by
  unfold add; keeps <;> first | exact keeps_both _ _ _ | exact keeps_finish _
theorem keeps_sub (a b : List S) : KeepsMode (sub a b) := by
  unfold sub; keeps <;> first | exact keeps_both _ _ _ | exact keeps_finish _
theorem keeps_mul (a b : List S) : KeepsMode (mul a b) := by
  unfold mul; keeps <;> first | exact keeps_fill _ _ _ | exact keeps_finish _
theorem keeps_mulC (a : List S) (k : D) : KeepsMode (mulC a k) := by
  unfold mulC; keeps <;> first | exact keeps_fill _ _ _ | exact keeps_finish _
theorem keeps_cMul (k : D) (a : List S) : KeepsMode (cMul k a) := by
  unfold cMul; keeps <;> first | exact keeps_fill _ _ _ | exact keeps_finish _
theorem keeps_sMul (k : S) (a : List S) : KeepsMode (sMul k a) := by
  unfold sMul; keeps <;> first | exact keeps_fill _ _ _ | exact keeps_finish _
theorem keeps_useOff (o i : ℕ) : KeepsMode (useOff (S := S) o i) := by unfold useOff; keeps
theorem keeps_recOff (n i : ℕ) : KeepsMode (recOff (S := S) n i) := by unfold recOff; keeps
theorem keeps_body {K : Type} (n old : ℕ) (hs : Res (List S)) (stp : ℕ → K → Res (K × S)) (lst : ℕ → K → PM S S)
    (hl : ∀ i κ, KeepsMode (lst i κ)) (i : ℕ) (hn r : List S) (κ : K) : KeepsMode (body n old hs stp lst i hn r κ) := by
  unfold body
  keeps <;> first
    | exact keeps_useOff _ _ | exact keeps_recOff _ _ | exact keeps_mul _ _ | exact keeps_add _ _ | exact keeps_sMul _ _
    | exact hl _ _
theorem keeps_loop {K : Type} (n old : ℕ) (hs : Res (List S)) (stp : ℕ → K → Res (K × S)) (lst : ℕ → K → PM S S)
    (hl : ∀ i κ, KeepsMode (lst i κ)) : ∀ (m : ℕ) (r : List S) (κ : K), KeepsMode (loop n old hs stp lst m r κ)
  | 0, _, _ => by unfold loop; keeps
  | m + 1, r, κ => by
    unfold loop
    exact KeepsMode.bind (keeps_loop n old hs stp lst hl m r κ) fun _ => keeps_body _ _ _ _ _ hl _ _ _ _
theorem keeps_oldSize : KeepsMode (oldSize (S := S)) := by unfold oldSize; keeps
theorem keeps_taylor {K : Type} (x : List S) (hs : Res (List S)) (r0 : S) (κ0 : K) (stp : ℕ → K → Res (K × S))
    (lst : ℕ → K → PM S S) (hl : ∀ i κ, KeepsMode (lst i κ)) : KeepsMode (taylor x hs r0 κ0 stp lst) := by
  unfold taylor
  keeps <;> first | exact keeps_oldSize | exact keeps_loop _ _ _ _ _ hl _ _ _ | exact keeps_mulC _ _

/-- the same with the functions treated so far -/
macro "keeps1" : tactic => `(tactic| repeat' first
  | exact KeepsMode.lift _
  | exact KeepsMode.pure _
  | exact KeepsMode.get
  | exact KeepsMode.setUse _
  | exact KeepsMode.setRec _
  | exact KeepsMode.setDomain _
  | exact keeps_evalrange _
  | exact keeps_mul _ _
  | exact keeps_mulC _ _
  | exact keeps_cMul _ _
  | refine keeps_taylor _ _ _ _ _ _ ?_
  | with_reducible refine KeepsMode.bind ?_ ?_
  | intro _
  | split
  | dsimp only)

theorem keeps_inv (x : List S) : KeepsMode (inv x) := by unfold inv; keeps1
theorem keeps_factLast (x : List S) (t : ℕ → S → Res S) (i : ℕ) (f : S) : KeepsMode (factLast x t i f) := by unfold factLast; keeps1
theorem keeps_sin (x : List S) : KeepsMode (Psa.sin x) := by unfold Psa.sin; keeps1; exact keeps_factLast _ _ _ _
theorem keeps_cos (x : List S) : KeepsMode (Psa.cos x) := by unfold Psa.cos; keeps1; exact keeps_factLast _ _ _ _
theorem keeps_exp (x : List S) : KeepsMode (Psa.exp x) := by unfold Psa.exp; keeps1; exact keeps_factLast _ _ _ _
theorem keeps_sqrt (x : List S) : KeepsMode (Psa.sqrt x) := by unfold Psa.sqrt; keeps1
theorem keeps_log (x : List S) : KeepsMode (Psa.log x) := by unfold Psa.log; keeps1
theorem keeps_sinh (x : List S) : KeepsMode (Psa.sinh x) := by unfold Psa.sinh; keeps1; exact keeps_factLast _ _ _ _
theorem keeps_cosh (x : List S) : KeepsMode (Psa.cosh x) := by unfold Psa.cosh; keeps1; exact keeps_factLast _ _ _ _
theorem keeps_div (a b : List S) : KeepsMode (Psa.div a b) := by unfold Psa.div; keeps1; exact keeps_inv _
theorem keeps_cDiv (k : D) (b : List S) : KeepsMode (cDiv k b) := by unfold cDiv; keeps1; exact keeps_inv _
theorem keeps_tan (x : List S) : KeepsMode (Psa.tan x) := by
  unfold Psa.tan; keeps1
  · exact keeps_sin _
  · exact keeps_cos _
  · exact keeps_div _ _
theorem keeps_tanh (x : List S) : KeepsMode (Psa.tanh x) := by
  unfold Psa.tanh; keeps1
  · exact keeps_sinh _
  · exact keeps_cosh _
  · exact keeps_div _ _
theorem keeps_pow (x y : List S) : KeepsMode (Psa.pow x y) := by
  unfold Psa.pow; keeps1
  · exact keeps_log _
  · exact keeps_exp _
theorem keeps_powLoop (k : ℕ) (r x : List S) : KeepsMode (powLoop k r x) := by
  induction k using Nat.strong_induction_on generalizing r x with
  | _ k ih =>
    unfold powLoop
    split
    · keeps1
    · keeps1
      exact ih _ (by omega) _ _
theorem keeps_powI (x : List S) (y : ℤ) : KeepsMode (powI x y) := by
  unfold powI; keeps1
  · exact keeps_powLoop _ _ _
  · exact keeps_cDiv _ _
theorem keeps_setorder (x : List S) (n : ℤ) : KeepsMode (setorder x n) := by unfold setorder; keeps1
theorem keeps_unitSeries (x : List S) : KeepsMode (unitSeries x) := by unfold unitSeries; keeps1; exact keeps_setorder _ _
theorem keeps_invFn (fn : S → Res S) (g : List S → PM S (List S)) (hg : ∀ t, KeepsMode (g t)) (x : List S) :
    KeepsMode (invFn fn g x) := by
  unfold invFn; keeps1
  all_goals first | exact keeps_unitSeries _ | exact hg _
theorem keeps_cSubSq (k : D) (t : List S) : KeepsMode (cSubSq k t) := by unfold cSubSq; keeps1

theorem keeps_un (f : Un) (x : List S) : KeepsMode (Psa.un f x) := by
  cases f with
  | neg => exact KeepsMode.lift _
  | exp => exact keeps_exp x
  | log => exact keeps_log x
  | sqrt => exact keeps_sqrt x
  | sin => exact keeps_sin x
  | cos => exact keeps_cos x
  | tan => exact keeps_tan x
  | sinh => exact keeps_sinh x
  | cosh => exact keeps_cosh x
  | tanh => exact keeps_tanh x
  | asin => refine keeps_invFn _ _ (fun t => ?_) x; keeps1 <;> first | exact keeps_cSubSq _ _ | exact keeps_sqrt _ | exact keeps_cDiv _ _
  | acos => refine keeps_invFn _ _ (fun t => ?_) x; keeps1 <;> first | exact keeps_cSubSq _ _ | exact keeps_sqrt _ | exact keeps_cDiv _ _
  | atan => refine keeps_invFn _ _ (fun t => ?_) x; keeps1 <;> first | exact keeps_cSubSq _ _ | exact keeps_sqrt _ | exact keeps_cDiv _ _
  | asinh => refine keeps_invFn _ _ (fun t => ?_) x; keeps1 <;> first | exact keeps_cSubSq _ _ | exact keeps_sqrt _ | exact keeps_cDiv _ _
  | acosh => refine keeps_invFn _ _ (fun t => ?_) x; keeps1 <;> first | exact keeps_cSubSq _ _ | exact keeps_sqrt _ | exact keeps_cDiv _ _
  | atanh => refine keeps_invFn _ _ (fun t => ?_) x; keeps1 <;> first | exact keeps_cSubSq _ _ | exact keeps_sqrt _ | exact keeps_cDiv _ _

theorem Expr.keeps_evalP {n : ℕ} (p : ℕ → S) (x : Fin n → List S) : ∀ e : Expr n, KeepsMode (e.evalP p x)
  | .var _ => KeepsMode.pure _
  | .par _ => KeepsMode.pure _
  | .cst _ => KeepsMode.pure _
  | .un f a => KeepsMode.bind (Expr.keeps_evalP p x a) fun _ => keeps_un _ _
  | .bin o a b => KeepsMode.bind (Expr.keeps_evalP p x a) fun _ => KeepsMode.bind (Expr.keeps_evalP p x b) fun _ => by
      cases o
      · exact keeps_add _ _
      · exact keeps_sub _ _
      · exact keeps_mul _ _
      · exact keeps_div _ _
  | .binC o a k => KeepsMode.bind (Expr.keeps_evalP p x a) fun _ => by
      cases o
      · exact KeepsMode.lift _
      · exact KeepsMode.lift _
      · exact keeps_mulC _ _
      · exact KeepsMode.lift _
  | .cBin o k b => KeepsMode.bind (Expr.keeps_evalP p x b) fun _ => by
      cases o
      · exact KeepsMode.lift _
      · exact KeepsMode.lift _
      · exact keeps_cMul _ _
      · exact keeps_cDiv _ _
  | .powI a y => KeepsMode.bind (Expr.keeps_evalP p x a) fun _ => keeps_powI _ _
  | .pow a b => KeepsMode.bind (Expr.keeps_evalP p x a) fun _ => KeepsMode.bind (Expr.keeps_evalP p x b) fun _ => keeps_pow _ _

theorem keeps_vec {α : Type} : ∀ {n : ℕ} {f : Fin n → PM S α}, (∀ i, KeepsMode (f i)) → KeepsMode (PM.vec f)
  | 0, _, _ => KeepsMode.pure _
  | _ + 1, _, h => KeepsMode.bind (h 0) fun _ => KeepsMode.bind (keeps_vec fun i => h i.succ) fun _ => KeepsMode.pure _

end
end Kv
