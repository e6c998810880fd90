import Verif.Ode.HighDeriv
import Verif.Props.Psa

/-!
# C46, C56: `highderiv`; the static members of `psa` after `highderiv` and `ode`
-/

namespace Kv
open PowerSeries Psa PM
open Rop (lit)
open scoped Nat

/-! ## derivatives -/

section
variable {S : Type} [ScalSem S] {e : Expr 1} {ρ : ℕ → ℝ} {p : ℕ → S} {x : S} {x0 : ℝ} {n : ℕ} {b : Bool}
  {st st' : PSt S} {v : List S}

theorem highderiv_memS (he : e.FinCst) (hn : n + 1 < 2 ^ 31) (hp : ∀ i, ScalSem.mem (ρ i) (p i)) (hx : ScalSem.mem x0 x)
    (hl : e.LDom (n = 0) ρ fun _ => x0) (h : highderiv e p x n b st = (.ok v, st')) :
    v.length = n + 1 ∧ e.SDom ρ (fun _ => x0) ∧
      ∀ k A, v[k]? = some A → ScalSem.mem (if b then iteratedDeriv k (fun t => e.real ρ fun _ => t) x0 / k ! else
        iteratedDeriv k (fun t => e.real ρ fun _ => t) x0) A := by
  obtain ⟨q, r, r', st1, hq, hr, ⟨st2, hr'⟩, hv, -⟩ := highderivF_run h
  have hq0 : Psa.Mem (S := S) (idCo x0) [x, Psa.one] := by
    intro k A hA
    match k with
    | 0 => simp at hA; subst hA; exact hx
    | 1 => simp at hA; subst hA; exact ScalSem.ofC_mem (S := S) Interval.is_one
    | k + 2 => simp at hA
  obtain ⟨-, hql, hqm⟩ := setorder1 (S := S) rfl hq0 hq
  have e0 : (fun _ : Fin 1 => coeff 0 (Psa.idPs x0)) = fun _ => x0 := by
    funext i; rw [idCo_idPs]; rfl
  obtain ⟨hS, hM, hz, hres⟩ := run1 (S := S) (c := fun _ => Psa.idPs x0) he (m := n + 1) (by omega) hn
    (by rfl) (by rfl) hp (fun _ => hql) (fun _ k A hA => by
      have := hqm k A hA
      change ScalSem.mem (if k < 2 then idCo x0 k else 0) A at this
      show ScalSem.mem (coeff k (Psa.idPs x0)) A
      rw [idCo_idPs]
      match k with
      | 0 => exact this
      | 1 => exact this
      | k + 2 => rwa [if_neg (by omega)] at this) (by rw [e0]; exact hl.mono fun h => by omega) hr
  rw [e0] at hS
  have hsm := real_smooth hS
  have hT : HasT (n + 1) (fun t => e.real ρ fun _ => x0 + t) (fun k => coeff k (e.ps ρ fun _ => Psa.idPs x0)) :=
    Expr.hasP (by omega) (x := fun _ t => x0 + t) (fun _ => HasP.idPs (n + 1) x0) (by rw [e0]; exact hS)
  obtain ⟨-, hl', hm'⟩ := setorder1 (S := S) (by rw [hres.1]) hM hr'
  obtain ⟨hvl, hvm⟩ := factors_mem (S := S) (by omega) hm' b hv
  refine ⟨by omega, hS, fun k A hA => ?_⟩
  have hk : k < n + 1 := by have := getElem?_lt hA; omega
  have hd := iteratedDeriv_of_hasT hsm (g := fun t => e.real ρ fun _ => t) hT hk
  have hc : (if k < r.length then coeff k (e.ps ρ fun _ => Psa.idPs x0) else 0) = coeff k (e.ps ρ fun _ => Psa.idPs x0) := by
    split_ifs with hkr
    · rfl
    · rcases hz with hz | ⟨hz, hz0⟩
      · omega
      · rw [hz0 k (by omega)]
  have := hvm k A hA
  change ScalSem.mem (if b then (if k < r.length then coeff k (e.ps ρ fun _ => Psa.idPs x0) else 0) else
    (if k < r.length then coeff k (e.ps ρ fun _ => Psa.idPs x0) else 0) * k !) A at this
  rw [hc] at this
  rw [hd]
  cases b with
  | true =>
    simp only [if_true] at this ⊢
    rwa [mul_div_assoc, div_self (by positivity), mul_one]
  | false => exact this

end

section
variable {fuel : ℕ} {e : Expr 1} {ρ : ℕ → ℝ} {p : ℕ → Interval D} {x : Interval D} {x0 : ℝ} {n : ℕ} {b : Bool}
  {st st' : PSt (Interval D)} {v : List (Interval D)}

theorem highderiv_mem (he : e.FinCst) (hn : n + 1 < 2 ^ 31) (hp : ∀ i, ρ i ∈ p i) (hx : x0 ∈ x) (hl : e.LDom (n = 0) ρ fun _ => x0)
    (h : (letI := scalI fuel; highderiv e p x n b) st = (.ok v, st')) :
    v.length = n + 1 ∧ (∀ᶠ t in nhds x0, ContDiffAt ℝ (⊤ : ℕ∞) (fun t => e.real ρ fun _ => t) t) ∧
      ∀ k A, v[k]? = some A → (if b then iteratedDeriv k (fun t => e.real ρ fun _ => t) x0 / k ! else
        iteratedDeriv k (fun t => e.real ρ fun _ => t) x0) ∈ A :=
  have := @highderiv_memS _ (semI fuel) e ρ p x x0 n b st st' v he hn hp hx hl h
  ⟨this.1, real_smooth this.2.1, this.2.2⟩

/-- C56: `highderiv(f, x, n)` returns `n + 1` intervals which contain the derivatives of `f` up to order `n` at every point of
`x`; `f` is smooth there.  Arguments of logarithms must be
positive; for `n ≥ 1` this is needed for constant arguments only. -/
theorem C56 (he : e.FinCst) (hn : n + 1 < 2 ^ 31) (hp : ∀ i, ρ i ∈ p i) (hx : x0 ∈ x) (hl : e.LDom (n = 0) ρ fun _ => x0)
    (h : (letI := scalI fuel; highderiv e p x n false) st = (.ok v, st')) :
    v.length = n + 1 ∧ ContDiffAt ℝ (⊤ : ℕ∞) (fun t => e.real ρ fun _ => t) x0 ∧
      ∀ k A, v[k]? = some A → iteratedDeriv k (fun t => e.real ρ fun _ => t) x0 ∈ A := by
  obtain ⟨h1, h2, h3⟩ := highderiv_mem he hn hp hx hl h
  exact ⟨h1, h2.self_of_nhds, fun k A hA => by simpa using h3 k A hA⟩

/-- C56: with `divfact` the Taylor coefficients -/
theorem C56_divfact (he : e.FinCst) (hn : n + 1 < 2 ^ 31) (hp : ∀ i, ρ i ∈ p i) (hx : x0 ∈ x) (hl : e.LDom (n = 0) ρ fun _ => x0)
    (h : (letI := scalI fuel; highderiv e p x n true) st = (.ok v, st')) :
    v.length = n + 1 ∧ ContDiffAt ℝ (⊤ : ℕ∞) (fun t => e.real ρ fun _ => t) x0 ∧
      ∀ k A, v[k]? = some A → iteratedDeriv k (fun t => e.real ρ fun _ => t) x0 / k ! ∈ A := by
  obtain ⟨h1, h2, h3⟩ := highderiv_mem he hn hp hx hl h
  exact ⟨h1, h2.self_of_nhds, fun k A hA => by simpa using h3 k A hA⟩

/-- C56: `HighDeriv(f, n)` -/
theorem C56_HighDeriv {A : Interval D} (he : e.FinCst) (hn : n + 1 < 2 ^ 31) (hp : ∀ i, ρ i ∈ p i) (hx : x0 ∈ x)
    (hl : e.LDom (n = 0) ρ fun _ => x0) (h : (letI := scalI fuel; highDerivAt e p x n) st = (.ok A, st')) :
    iteratedDeriv n (fun t => e.real ρ fun _ => t) x0 ∈ A := by
  let _ := scalI fuel
  obtain ⟨v, st1, h1, h2⟩ := bind_run h
  obtain ⟨h3, -⟩ := lift_run h2
  exact (C56 he hn hp hx hl h1).2.2 n A (Psa.at_ok h3)

end

/-! ## partial derivatives -/

namespace Expr
variable {k : ℕ}

/-- all variables but the `j`-th become constants -/
def fixArg (j : Fin k) : Expr k → Expr 1
  | .var i => if i = j then .var 0 else .par (2 * i)
  | .par i => .par (2 * i + 1)
  | .cst c => .cst c
  | .un f a => .un f (a.fixArg j)
  | .bin o a b => .bin o (a.fixArg j) (b.fixArg j)
  | .binC o a c => .binC o (a.fixArg j) c
  | .cBin o c b => .cBin o c (b.fixArg j)
  | .powI a y => .powI (a.fixArg j) y
  | .pow a b => .pow (a.fixArg j) (b.fixArg j)

/-- the constants for `fixArg` -/
def fixPar {α : Type} (c : ℕ → α) (x : Fin k → α) (m : ℕ) : α :=
  if m % 2 = 0 then (if h : m / 2 < k then x ⟨m / 2, h⟩ else c (m / 2)) else c (m / 2)

theorem fixPar_even {α : Type} (c : ℕ → α) (x : Fin k → α) (i : Fin k) : fixPar c x (2 * i) = x i := by
  unfold fixPar
  rw [if_pos (by omega), dif_pos (by have := i.2; omega)]
  congr 1; ext; simp

theorem fixPar_odd {α : Type} (c : ℕ → α) (x : Fin k → α) (i : ℕ) : fixPar c x (2 * i + 1) = c i := by
  unfold fixPar
  rw [if_neg (by omega)]
  congr 1; omega

theorem evalP_fixArg {S : Type} [Scal S] (j : Fin k) (c : ℕ → S) (x : Fin k → S) (p : List S) : ∀ e : Expr k,
    e.evalP c (fun i => if i = j then p else [x i]) = (e.fixArg j).evalP (fixPar c x) (fun _ => p)
  | .var i => by
    unfold fixArg
    split_ifs with h
    · simp only [evalP, if_pos h]
    · simp only [evalP, if_neg h, fixPar_even]
  | .par i => by simp only [fixArg, evalP, fixPar_odd]
  | .cst c => rfl
  | .un f a => by simp only [fixArg, evalP, evalP_fixArg j c x p a]
  | .bin o a b => by simp only [fixArg, evalP, evalP_fixArg j c x p a, evalP_fixArg j c x p b]
  | .binC o a d => by simp only [fixArg, evalP, evalP_fixArg j c x p a]
  | .cBin o d b => by simp only [fixArg, evalP, evalP_fixArg j c x p b]
  | .powI a y => by simp only [fixArg, evalP, evalP_fixArg j c x p a]
  | .pow a b => by simp only [fixArg, evalP, evalP_fixArg j c x p a, evalP_fixArg j c x p b]

theorem real_fixArg (j : Fin k) (ρ : ℕ → ℝ) (x : Fin k → ℝ) (t : ℝ) : ∀ e : Expr k,
    (e.fixArg j).real (fixPar ρ x) (fun _ => t) = e.real ρ (Function.update x j t)
  | .var i => by
    unfold fixArg
    split_ifs with h
    · subst h; simp [real]
    · simp only [real, fixPar_even]; rw [Function.update_of_ne h]
  | .par i => by simp only [fixArg, real, fixPar_odd]
  | .cst c => rfl
  | .un f a => by simp only [fixArg, real, real_fixArg j ρ x t a]
  | .bin o a b => by simp only [fixArg, real, real_fixArg j ρ x t a, real_fixArg j ρ x t b]
  | .binC o a d => by simp only [fixArg, real, real_fixArg j ρ x t a]
  | .cBin o d b => by simp only [fixArg, real, real_fixArg j ρ x t b]
  | .powI a y => by simp only [fixArg, real, real_fixArg j ρ x t a]
  | .pow a b => by simp only [fixArg, real, real_fixArg j ρ x t a, real_fixArg j ρ x t b]

theorem finCst_fixArg (j : Fin k) : ∀ {e : Expr k}, e.FinCst → (e.fixArg j).FinCst
  | .var i, _ => by unfold fixArg; split_ifs <;> exact trivial
  | .par i, _ => trivial
  | .cst c, h => h
  | .un f a, h => finCst_fixArg j (e := a) h
  | .bin o a b, h => ⟨finCst_fixArg j h.1, finCst_fixArg j h.2⟩
  | .binC o a d, h => ⟨finCst_fixArg j h.1, h.2⟩
  | .cBin o d b, h => ⟨finCst_fixArg j h.1, h.2⟩
  | .powI a y, h => ⟨finCst_fixArg j h.1, h.2⟩
  | .pow a b, h => ⟨finCst_fixArg j h.1, finCst_fixArg j h.2⟩

theorem lDom_fixArg (j : Fin k) {ρ : ℕ → ℝ} {x : Fin k → ℝ} : ∀ {e : Expr k}, e.LDom True ρ x →
    (e.fixArg j).LDom True (fixPar ρ x) (fun _ => x j)
  | .var i, _ => by unfold fixArg; split_ifs <;> exact trivial
  | .par i, _ => trivial
  | .cst c, h => h
  | .un f a, h => ⟨lDom_fixArg j h.1, fun hf _ => by
      rw [real_fixArg, Function.update_eq_self]; exact h.2 hf (Or.inl trivial)⟩
  | .bin o a b, h => ⟨lDom_fixArg j h.1, lDom_fixArg j h.2⟩
  | .binC o a d, h => lDom_fixArg j (e := a) h
  | .cBin o d b, h => lDom_fixArg j (e := b) h
  | .powI a y, h => lDom_fixArg j (e := a) h
  | .pow a b, h => ⟨lDom_fixArg j h.1, lDom_fixArg j h.2.1, fun _ => by
      rw [real_fixArg, Function.update_eq_self]; exact h.2.2 (Or.inl trivial)⟩

end Expr

/-- C56: `PartialDeriv(f, j, m)` contains the `m`-th derivative of `f` with respect to the `j`-th argument -/
theorem C56_PartialDeriv {k fuel m : ℕ} {e : Expr k} {ρ : ℕ → ℝ} {p : ℕ → Interval D} {x : Fin k → Interval D} {x0 : Fin k → ℝ}
    {j : Fin k} {A : Interval D} {st st' : PSt (Interval D)} (he : e.FinCst) (hm : m + 1 < 2 ^ 31) (hp : ∀ i, ρ i ∈ p i)
    (hx : ∀ i, x0 i ∈ x i) (hl : e.LDom True ρ x0) (h : (letI := scalI fuel; partialDeriv e p j m x) st = (.ok A, st')) :
    iteratedDeriv m (fun t => e.real ρ (Function.update x0 j t)) (x0 j) ∈ A := by
  let _ := scalI fuel
  have hfun : (fun t => e.real ρ (Function.update x0 j t)) = fun t => (e.fixArg j).real (Expr.fixPar ρ x0) fun _ => t := by
    funext t; rw [Expr.real_fixArg]
  rw [hfun]
  have hp' : ∀ i, Expr.fixPar ρ x0 i ∈ Expr.fixPar p x i := fun i => by
    unfold Expr.fixPar
    split_ifs
    · exact hx _
    · exact hp _
    · exact hp _
  refine C56_HighDeriv (fuel := fuel) (p := Expr.fixPar p x) (x := x j) (Expr.finCst_fixArg j he) hm hp' (hx j) ((Expr.lDom_fixArg j hl).mono fun _ => trivial) (st := st) (st' := st') ?_
  unfold partialDeriv at h
  simp only [Expr.evalP_fixArg] at h
  exact h

/-- C56 applies to `log(x) * atan(x) + exp(x)/x` and its derivatives up to the third at 1 -/
example : ∃ (v : List (Interval D)) (st' : PSt (Interval D)),
    (letI := scalI 100; highderiv exE1 (fun _ => pt 0) (pt 1) 3 false) (st0 1) = (.ok v, st') ∧
    ∀ k A, v[k]? = some A → iteratedDeriv k (fun t => exE1.real (fun _ => 0) fun _ => t) 1 ∈ A := by
  obtain ⟨v, st', h⟩ := okRun_iff (show okRun ((letI := scalI 100; highderiv exE1 (fun _ => pt 0) (pt 1) 3 false) (st0 1)) = true by
    decide +kernel)
  refine ⟨v, st', h, (C56 (e := exE1) (ρ := fun _ => 0) (by simp [exE1, Expr.FinCst]) (by norm_num)
    (fun _ => (mem_pt Interval.is_zero).2 rfl) ((mem_pt Interval.is_one).2 rfl) (by simp [exE1, Expr.LDom, Expr.real]) h).2.2⟩

/-- C56 applies to the second derivative of `exp(x*y)` with respect to `y` at `(1, 1)` -/
example : ∃ (A : Interval D) (st' : PSt (Interval D)),
    (letI := scalI 100; partialDeriv (.un .exp (.bin .mul (.var 0) (.var 1))) (fun _ => pt 0) (1 : Fin 2) 2 fun _ => pt 1) (st0 1) = (.ok A, st') ∧
    iteratedDeriv 2 (fun t => Expr.real (fun _ => 0) (Function.update (fun _ => 1) (1 : Fin 2) t) (.un .exp (.bin .mul (.var 0) (.var 1)))) 1 ∈ A := by
  obtain ⟨A, st', h⟩ := okRun_iff (show okRun ((letI := scalI 100; partialDeriv (.un .exp (.bin .mul (.var 0) (.var 1))) (fun _ => pt 0)
    (1 : Fin 2) 2 fun _ => pt 1) (st0 1)) = true by decide +kernel)
  exact ⟨A, st', h, C56_PartialDeriv (ρ := fun _ => 0) (x0 := fun _ => 1) (by simp [Expr.FinCst]) (by norm_num)
    (fun _ => (mem_pt Interval.is_zero).2 rfl) (fun _ => (mem_pt Interval.is_one).2 rfl) (by simp [Expr.LDom]) h⟩

/-! ## the static members -/

section
variable {fuel : ℕ} {st st' : PSt (Interval D)}

/-- C46, `highderiv`: after a normal return the two switches are as before; the mode is as before if it was 0 or 1 -/
theorem C46_highderiv_partial {e : Expr 1} {p : ℕ → Interval D} {x : Interval D} {n : ℕ} {b : Bool} {v : List (Interval D)}
    (h : (letI := scalI fuel; highderiv e p x n b) st = (.ok v, st')) :
    st'.use = st.use ∧ st'.record = st.record ∧ (st.mode = 0 ∨ st.mode = 1 → st'.mode = st.mode) := by
  let _ := semI fuel
  obtain ⟨-, -, -, -, -, -, -, -, h1, h2, h3⟩ := highderivF_run (S := Interval D) h
  refine ⟨h2, h3, fun hm => ?_⟩
  rw [h1]
  rcases hm with hm | hm <;> rw [hm] <;> rfl

/-- C46 does not hold for `highderiv`: whenever it returns normally in mode 2, the mode is 1 afterwards -/
theorem C46_highderiv_violated {e : Expr 1} {p : ℕ → Interval D} {x : Interval D} {n : ℕ} {b : Bool} {v : List (Interval D)}
    (h : (letI := scalI fuel; highderiv e p x n b) st = (.ok v, st')) (hm : st.mode = 2) : st'.mode = 1 := by
  let _ := semI fuel
  obtain ⟨-, -, -, -, -, -, -, -, h1, -⟩ := highderivF_run (S := Interval D) h
  rw [h1, hm]; rfl

/-- there are such calls -/
example : ∃ (v : List (Interval D)) (st' : PSt (Interval D)),
    (letI := scalI 100; highderiv exE1 (fun _ => pt 0) (pt 1) 3 false) (st0 2) = (.ok v, st') :=
  okRun_iff (by decide +kernel)

end

/-- C46 does not hold for `highderiv`, exceptions: `log` of a negative number leaves mode 1 and the switches off -/
theorem C46_highderiv_throw : ∃ st' : PSt (Interval D),
    (letI := scalI 100; highderiv (.un .log (.var 0)) (fun _ => pt 0) (pt (-1)) 3 false) ⟨2, pt 0, [], true, true⟩ = (.error .domainError, st') ∧
    st'.mode = 1 ∧ st'.use = false ∧ st'.record = false := by
  refine ⟨((letI := scalI 100; highderiv (.un .log (.var 0)) (fun _ => pt 0) (pt (-1)) 3 false) ⟨2, pt 0, [], true, true⟩).2, ?_, ?_⟩
  · have : (match ((letI := scalI 100; highderiv (.un .log (.var 0)) (fun _ => pt 0) (pt (-1)) 3 false) ⟨2, pt 0, [], true, true⟩).1 with
      | .error .domainError => true
      | _ => false) = true := by decide +kernel
    rcases hr : (letI := scalI 100; highderiv (.un .log (.var 0)) (fun _ => pt 0) (pt (-1)) 3 false) ⟨2, pt 0, [], true, true⟩ with ⟨r, s⟩
    rw [hr] at this
    dsimp only at this
    split at this
    · rfl
    · cases this
  · decide +kernel

/-- the static members after `ode` -/
theorem ode_static {n fuel k : ℕ} {P : Ode.Problem n} {q : Ode.Param} {st st' : PSt (Interval D)} {r : Ode.Result n}
    (h : (letI := scalI fuel; ode k P q) st = (.ok r, st')) :
    st'.mode = (if decide (st.mode ≠ 0) then 1 else 0) ∧ st'.use = st.use ∧ st'.record = st.record := by
  let _ := scalI fuel
  change ode k P q st = (.ok r, st') at h
  unfold ode at h
  rw [get_bind] at h
  rw [PM.setMode_bind, PM.setUse_bind, PM.setRec_bind, PM.setHist_bind] at h
  obtain ⟨x, s1, -, ha⟩ := bind_run h
  obtain ⟨radius, s2, -, hb⟩ := bind_run ha
  rw [PM.setMode_bind] at hb
  obtain ⟨o, s3, -, hc⟩ := bind_run hb
  obtain ⟨r', s4, -, hd⟩ := bind_run hc
  rw [PM.setMode_bind, PM.setUse_bind, PM.setRec_bind] at hd
  cases hd
  exact ⟨rfl, rfl, rfl⟩

/-- C46, `ode`: after a normal return the two switches are as before; the mode is as before if it was 0 or 1 -/
theorem C46_ode_partial {n fuel k : ℕ} {P : Ode.Problem n} {q : Ode.Param} {st st' : PSt (Interval D)} {r : Ode.Result n}
    (h : (letI := scalI fuel; ode k P q) st = (.ok r, st')) :
    st'.use = st.use ∧ st'.record = st.record ∧ (st.mode = 0 ∨ st.mode = 1 → st'.mode = st.mode) := by
  obtain ⟨h1, h2, h3⟩ := ode_static h
  refine ⟨h2, h3, fun hm => ?_⟩
  rw [h1]
  rcases hm with hm | hm <;> rw [hm] <;> rfl

/-- C46 does not hold for `ode`: whenever it returns normally in mode 2, the mode is 1 afterwards -/
theorem C46_ode_violated {n fuel k : ℕ} {P : Ode.Problem n} {q : Ode.Param} {st st' : PSt (Interval D)} {r : Ode.Result n}
    (h : (letI := scalI fuel; ode k P q) st = (.ok r, st')) (hm : st.mode = 2) : st'.mode = 1 := by
  rw [(ode_static h).1, hm]; rfl

/-- `x' = x`, `x(0) = 1`, end `1/2` -/
def exOde : Ode.Problem 1 := ⟨fun _ => .var 0, fun _ => pt 0, fun _ => pt 1, pt 0, pt (1 / 2), fun a _ => a⟩

/-- order 4, fixed step, one refinement -/
def exPar : Ode.Param := ⟨4, false, lit 0, 1, 1⟩

/-- there are such calls -/
example : ∃ (r : Ode.Result 1) (st' : PSt (Interval D)), (letI := scalI 100; ode 10 exOde exPar) (st0 2) = (.ok r, st') :=
  okRun_iff (by decide +kernel)

/-- the exception was thrown -/
def thrown {α : Type} (r : Res α × PSt (Interval D)) : Bool := match r.1 with
  | .error .domainError => true
  | _ => false

theorem thrown_iff {α : Type} {r : Res α × PSt (Interval D)} (h : thrown r = true) : r = (.error .domainError, r.2) := by
  obtain ⟨a, s⟩ := r
  unfold thrown at h
  dsimp only at h
  split at h
  · rfl
  · cases h

/-- `x' = log x`, `x(0) = -1` -/
def exLog : Ode.Problem 1 := ⟨fun _ => .un .log (.var 0), fun _ => pt 0, fun _ => pt (-1), pt 0, pt (1 / 2), fun a _ => a⟩

/-- C46 does not hold for `ode`, exceptions: `x' = log x`, `x(0) = -1` in mode 0 throws and leaves mode 1 and recording on -/
theorem C46_ode_throw : ∃ st' : PSt (Interval D),
    (letI := scalI 100; ode 10 exLog exPar) (st0 0) = (.error .domainError, st') ∧ st'.mode = 1 ∧ st'.record = true := by
  refine ⟨((letI := scalI 100; ode 10 exLog exPar) (st0 0)).2, thrown_iff (by decide +kernel), ?_⟩
  decide +kernel

end Kv
