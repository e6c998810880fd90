import Verif.Ode.Maps
import Verif.Props.OdeQr
import Verif.Props.Kraw
import Mathlib.Analysis.Calculus.FDeriv.Prod

/-!
# C95: stroboscopic maps, Poincaré maps and shooting
-/

namespace Kv
open Rop (lit)
open LA Qr Maps

variable {n m : ℕ}

/-- The solver encloses the flow `φ` and its derivative if it returns 2. -/
structure Maps.Solver.Ok (S : Solver n) (φ : Flow n) (dom : ℝ → ℝ → (Fin n → ℝ) → Prop) : Prop where
  I : ∀ {x s e y}, S.I x s e = .ok (2, y) → ∀ {a b : ℝ}, a ∈ s → b ∈ e → ∀ {p}, p ∈ inBox x → dom a b p ∧ φ a b p ∈ inBox y
  AD : ∀ {m : ℕ} {x : Ad n m} {s e y}, S.AD x s e = .ok (2, y) → ∀ {a b : ℝ}, a ∈ s → b ∈ e → ∀ {p}, p ∈ inBox x.v → dom a b p ∧ φ a b p ∈ inBox y.v ∧
    ∃ A : Fin n → Fin n → ℝ, (∀ i, HasFDerivAt (fun q => φ a b q i) (lin (A i)) p) ∧ ∀ K : Fin n → Fin m → ℝ, (∀ i j, K i j ∈ x.d i j) → ∀ i j, ∑ k, A i k * K k j ∈ y.d i j

/-- `φ` is the flow of `x' = F(x, t)`, differentiable with respect to the final time and the starting point together -/
def IsFlowOf (F : (Fin n → ℝ) → ℝ → Fin n → ℝ) (φ : Flow n) (dom : ℝ → ℝ → (Fin n → ℝ) → Prop) : Prop :=
  ∀ a b p, dom a b p → ∃ L : (Fin n → ℝ) × ℝ →L[ℝ] (Fin n → ℝ), HasFDerivAt (fun z : (Fin n → ℝ) × ℝ => φ a z.2 z.1) L (p, b) ∧ L (0, 1) = F (φ a b p) b

/-- The user functions of a Poincaré map enclose the real functions `F` and `G`, and the derivative of `G`. -/
structure Maps.Funs.Ok (f : Funs n) (F : (Fin n → ℝ) → ℝ → Fin n → ℝ) (G : (Fin (n + 1) → ℝ) → ℝ) : Prop where
  f1 : ∀ {y t d}, f.f1 y t = .ok d → ∀ {q : Fin n → ℝ} {b : ℝ}, q ∈ inBox y → b ∈ t → F q b ∈ inBox d
  f2 : ∀ {x r}, f.f2 x = .ok r → ∀ {p}, p ∈ inBox x → G p ∈ r
  f2d : ∀ {m : ℕ} {x : Ad (n + 1) m} {r d}, f.f2d x = .ok (r, d) → ∀ {p}, p ∈ inBox x.v → G p ∈ r ∧
    ∃ g : Fin (n + 1) → ℝ, HasFDerivAt G (lin g) p ∧ ∀ K : Fin (n + 1) → Fin m → ℝ, (∀ i j, K i j ∈ x.d i j) → ∀ j, ∑ k, g k * K k j ∈ d j

/-- the equations of a Poincaré map: the solution from `x` at time `a` is again `x` at the time which is the last component, and `G` is 0 -/
def poincareEq (φ : Flow n) (G : (Fin (n + 1) → ℝ) → ℝ) (a : ℝ) (z : Fin (n + 1) → ℝ) : Fin (n + 1) → ℝ :=
  Fin.snoc (α := fun _ => ℝ) (fun i => φ a (z (Fin.last n)) (fun j => z j.castSucc) i - z i.castSucc) (G z)

namespace Maps

theorem strobo_ok {S : Solver n} {s e : Interval D} {x y : Vec n (Interval D)} (h : strobo S s e x = .ok y) : S.I x s e = .ok (2, y) := by
  unfold strobo at h
  obtain ⟨⟨r, y'⟩, h1, h⟩ := bind_ok.1 h
  dsimp only at h
  split_ifs at h with hr
  · cases h
    rw [h1, not_not.1 hr]

theorem stroboAd_ok {S : Solver n} {s e : Interval D} {x y : Ad n m} (h : stroboAd S s e x = .ok y) : S.AD x s e = .ok (2, y) := by
  unfold stroboAd at h
  obtain ⟨⟨r, y'⟩, h1, h⟩ := bind_ok.1 h
  dsimp only at h
  split_ifs at h with hr
  · cases h
    rw [h1, not_not.1 hr]

theorem init_mem {x : Vec n (Interval D)} (i j : Fin n) : (if i = j then (1 : ℝ) else 0) ∈ (initAd x).d i j := Interval.point_mem (eye_is i j)

theorem sum_eye (A : Fin n → ℝ) (j : Fin n) : ∑ k, A k * (if k = j then (1 : ℝ) else 0) = A j := by simp

end Maps

variable {S : Solver n} {φ : Flow n} {dom : ℝ → ℝ → (Fin n → ℝ) → Prop} {start stop : Interval D}

/-- C95, stroboscopic map: if the map returns, then the result contains the values at all times in `end` of all solutions which start in the argument at a time in `start`, and these solutions exist. -/
theorem C95_strobo (hS : S.Ok φ dom) {x y : Vec n (Interval D)} (h : strobo S start stop x = .ok y) {a b : ℝ} (ha : a ∈ start) (hb : b ∈ stop) {p : Fin n → ℝ} (hp : ∀ i, p i ∈ x i) :
    dom a b p ∧ ∀ i, φ a b p i ∈ y i := hS.I (strobo_ok h) ha hb hp

/-- C95: the fixed point function of the stroboscopic map encloses `p - φ(p)` and its Jacobian. -/
theorem C95_strobo_sound (hS : S.Ok φ dom) {a b : ℝ} (ha : a ∈ start) (hb : b ∈ stop) : (stroboProg S start stop).Sound (dom a b) fun p i => p i - φ a b p i where
  val := by
    intro X Y x h hx _ i
    obtain ⟨y, h1, h⟩ := bind_ok.1 h
    cases h
    exact Interval.sub_mem (hx i) ((hS.I (strobo_ok h1) ha hb hx).2 i)
  der := by
    intro X Y J x h hx
    obtain ⟨r, h1, h⟩ := bind_ok.1 h
    cases h
    obtain ⟨y, h4, h⟩ := bind_ok.1 h1
    cases h
    obtain ⟨h2, h3, A, hA, hK⟩ := hS.AD (stroboAd_ok h4) ha hb (p := x) hx
    refine ⟨h2, fun i => Interval.sub_mem (hx i) (h3 i), fun i j => (if i = j then 1 else 0) - A i j, fun i j => ?_, fun i => ?_⟩
    · have := hK _ init_mem i j
      rw [sum_eye] at this
      exact Interval.sub_mem (init_mem i j) this
    · have e : lin (fun j => (if i = j then (1 : ℝ) else 0) - A i j) = (ContinuousLinearMap.proj i : (Fin n → ℝ) →L[ℝ] ℝ) - lin (A i) := by
        ext v
        simp [lin_apply, sub_mul, Finset.sum_sub_distrib]
      rw [e]
      exact (ContinuousLinearMap.proj i : (Fin n → ℝ) →L[ℝ] ℝ).hasFDerivAt.sub (hA i)

/-- C95: if the Krawczyk test accepts the fixed point function of the stroboscopic map with a bounded result, then exactly one solution which starts in the candidate box takes its starting value again, and it starts in the returned box. -/
theorem C95_strobo_periodic_partial (hS : S.Ok φ dom) {a b : ℝ} (ha : a ∈ start) (hb : b ∈ stop) {inv : Inverter n} {c : Vec n D} {k : ℕ} {I K : Vec n (Interval D)}
    (h : krawczykApprox inv (stroboProg S start stop) c k = .ok (some (I, K))) (hK : ∀ i, Bd (K i)) :
    ∃ p, (∀ i, p i ∈ K i) ∧ dom a b p ∧ φ a b p = p ∧ ∀ q, (∀ i, q i ∈ I i) → φ a b q = q → q = p := by
  obtain ⟨h1, h2, ⟨z, h3, h4, h5⟩, -⟩ := C28_partial (C95_strobo_sound hS ha hb) h hK
  refine ⟨z, h3, h2 z (h1 z h3), funext fun i => ?_, fun q hq e => h5 q hq (funext fun i => ?_)⟩
  · have := congrFun h4 i
    simp only [Pi.zero_apply] at this
    linarith
  · simp [e]

/-- C95: the Poincaré map encloses the equations and their Jacobian, including the derivative with respect to the time. -/
theorem C95_poincare_sound (hS : S.Ok φ dom) {F : (Fin n → ℝ) → ℝ → Fin n → ℝ} {G : (Fin (n + 1) → ℝ) → ℝ} (hφ : IsFlowOf F φ dom) {f : Funs n} (hf : f.Ok F G) {a : ℝ} (ha : a ∈ start) :
    (poincareProg S f start).Sound (fun z => dom a (z (Fin.last n)) fun j => z j.castSucc) (poincareEq φ G a) where
  val := by
    intro X Y x h hx _ i
    obtain ⟨y, h1, h⟩ := bind_ok.1 h
    obtain ⟨r, h2, h⟩ := bind_ok.1 h
    cases h
    refine Fin.lastCases ?_ (fun i => ?_) i
    · simpa [poincareEq, Ode.withT] using hf.f2 h2 hx
    · simpa [poincareEq, Ode.withT] using Interval.sub_mem ((hS.I (strobo_ok h1) ha (hx (Fin.last n)) (p := fun j => x j.castSucc) fun j => hx j.castSucc).2 i) (hx i.castSucc)
  der := by
    intro X Y J x h hx
    obtain ⟨r, h1, h⟩ := bind_ok.1 h
    cases h
    obtain ⟨y, h4, h⟩ := bind_ok.1 h1
    obtain ⟨dx, h2, h⟩ := bind_ok.1 h
    obtain ⟨⟨r, rd⟩, h3, h⟩ := bind_ok.1 h
    cases h
    obtain ⟨k1, k2, A, hA, hK⟩ := hS.AD (stroboAd_ok h4) ha (hx (Fin.last n)) (p := fun j => x j.castSucc) fun j => hx j.castSucc
    obtain ⟨g1, g, hg, hgK⟩ := hf.f2d h3 (p := x) hx
    have hF := hf.f1 h2 k2 (hx (Fin.last n))
    obtain ⟨L, hL, eL⟩ := hφ _ _ _ k1
    have hLA : ∀ (u : Fin n → ℝ) (i : Fin n), L (u, 0) i = ∑ k, A i k * u k := by
      intro u i
      have c1 : HasFDerivAt (fun q : Fin n → ℝ => (q, x (Fin.last n))) (ContinuousLinearMap.inl ℝ (Fin n → ℝ) ℝ) (fun j : Fin n => x j.castSucc) := hasFDerivAt_prodMk_left _ _
      have c2 := hasFDerivAt_pi'.1 (hL.comp (fun j : Fin n => x j.castSucc) c1) i
      have := congrArg (fun M : (Fin n → ℝ) →L[ℝ] ℝ => M u) (c2.unique (hA i))
      simpa [lin_apply] using this
    let Fx : Fin n → ℝ := F (φ a (x (Fin.last n)) fun j : Fin n => x j.castSucc) (x (Fin.last n))
    have eL : L (0, 1) = Fx := eL
    have hLs : ∀ (u : Fin n → ℝ) (s : ℝ) (i : Fin n), L (u, s) i = ∑ k, A i k * u k + Fx i * s := by
      intro u s i
      have e : ((u, s) : (Fin n → ℝ) × ℝ) = (u, 0) + s • (0, 1) := by simp
      rw [e, map_add, map_smul, eL, Pi.add_apply, hLA]
      simp [mul_comm]
    let dlt : Fin (n + 1) → Fin (n + 1) → ℝ := fun i j => if i = j then 1 else 0
    have hd : ∀ i j, dlt i j ∈ (initAd X).d i j := init_mem
    refine ⟨k1, fun i => ?_, Fin.snoc (α := fun _ => Fin (n + 1) → ℝ) (fun i j => ∑ k, A i k * dlt k.castSucc j + Fx i * dlt (Fin.last n) j -
      dlt i.castSucc j) g, fun i j => ?_, fun i => ?_⟩
    · refine Fin.lastCases ?_ (fun i => ?_) i
      · simpa [poincareEq, Ode.withT] using g1
      · simpa [poincareEq, Ode.withT, initAd] using Interval.sub_mem (k2 i) (hx i.castSucc)
    · refine Fin.lastCases ?_ (fun i => ?_) i
      · have := hgK dlt hd j
        rw [sum_eye] at this
        simpa [Ode.withT] using this
      · have := Interval.sub_mem (Interval.add_mem (hK (fun k j => dlt k.castSucc j) (fun k j => hd k.castSucc j) i j) (Interval.mul_mem (hF i) (hd (Fin.last n) j))) (hd i.castSucc j)
        simpa only [Ode.withT, Fin.snoc_castSucc] using this
    · refine Fin.lastCases ?_ (fun i => ?_) i
      · simpa [poincareEq] using hg
      · let T : (Fin (n + 1) → ℝ) →L[ℝ] (Fin n → ℝ) × ℝ :=
          (ContinuousLinearMap.pi fun j : Fin n => (ContinuousLinearMap.proj j.castSucc : (Fin (n + 1) → ℝ) →L[ℝ] ℝ)).prod (ContinuousLinearMap.proj (Fin.last n))
        have c1 : HasFDerivAt T T x := T.hasFDerivAt
        have c2 : HasFDerivAt (fun z : (Fin n → ℝ) × ℝ => φ a z.2 z.1) L (T x) := hL
        have c3 := (hasFDerivAt_pi'.1 (c2.comp x c1) i).sub (ContinuousLinearMap.proj i.castSucc : (Fin (n + 1) → ℝ) →L[ℝ] ℝ).hasFDerivAt
        have e : lin (Fin.snoc (α := fun _ => Fin (n + 1) → ℝ) (fun i j => ∑ k, A i k * dlt k.castSucc j + Fx i * dlt (Fin.last n) j -
            dlt i.castSucc j) g i.castSucc) = (ContinuousLinearMap.proj i).comp (L.comp T) - (ContinuousLinearMap.proj i.castSucc : (Fin (n + 1) → ℝ) →L[ℝ] ℝ) := by
          refine ContinuousLinearMap.ext fun v => ?_
          have e1 : L (T v) i = ∑ k, A i k * v k.castSucc + Fx i * v (Fin.last n) := hLs _ _ i
          have e2 : ∀ l, ∑ j, dlt l j * v j = v l := fun l => by simp [dlt]
          rw [lin_apply]
          simp only [Fin.snoc_castSucc, sub_mul, add_mul, Finset.sum_sub_distrib, Finset.sum_add_distrib, Finset.sum_mul, mul_assoc]
          rw [Finset.sum_comm]
          simp only [← Finset.mul_sum, e2]
          simp only [sub_apply, ContinuousLinearMap.comp_apply, ContinuousLinearMap.proj_apply, e1]
        rw [e]
        have e3 : (fun y => poincareEq φ G a y i.castSucc) = fun z => φ a (T z).2 (T z).1 i - z i.castSucc := by
          funext z
          simp only [poincareEq, Fin.snoc_castSucc]
          rfl
        rw [e3]
        exact c3

/-- C95: if the Krawczyk test accepts a Poincaré map with a bounded result, then the candidate box contains exactly one pair of a starting point and a time `T` for which the solution takes its starting value again at the time `T` and `G`
is 0; it lies in the returned box. -/
theorem C95_poincare_periodic_partial (hS : S.Ok φ dom) {F : (Fin n → ℝ) → ℝ → Fin n → ℝ} {G : (Fin (n + 1) → ℝ) → ℝ} (hφ : IsFlowOf F φ dom) {f : Funs n} (hf : f.Ok F G) {a : ℝ} (ha : a ∈ start)
    {inv : Inverter (n + 1)} {c : Vec (n + 1) D} {k : ℕ} {I K : Vec (n + 1) (Interval D)} (h : krawczykApprox inv (poincareProg S f start) c k = .ok (some (I, K))) (hK : ∀ i, Bd (K i)) :
    ∃ (p : Fin n → ℝ) (T : ℝ), (∀ i, Ode.withT p T i ∈ K i) ∧ dom a T p ∧ φ a T p = p ∧ G (Ode.withT p T) = 0 ∧
      ∀ (q : Fin n → ℝ) (U : ℝ), (∀ i, Ode.withT q U i ∈ I i) → φ a U q = q → G (Ode.withT q U) = 0 → q = p ∧ U = T := by
  obtain ⟨h1, h2, ⟨z, h3, h4, h5⟩, -⟩ := C28_partial (C95_poincare_sound hS hφ hf ha) h hK
  have ez : Ode.withT (fun i => z i.castSucc) (z (Fin.last n)) = z := by
    funext i
    refine Fin.lastCases ?_ (fun i => ?_) i <;> simp [Ode.withT]
  refine ⟨fun i => z i.castSucc, z (Fin.last n), by rw [ez]; exact h3, h2 z (h1 z h3), funext fun i => ?_, ?_, fun q U hq e1 e2 => ?_⟩
  · have := congrFun h4 i.castSucc
    simp only [poincareEq, Fin.snoc_castSucc, Pi.zero_apply] at this
    linarith
  · have := congrFun h4 (Fin.last n)
    rw [ez]
    simpa [poincareEq] using this
  · have := h5 (Ode.withT q U) hq (by
      funext i
      refine Fin.lastCases ?_ (fun i => ?_) i
      · simpa [poincareEq] using e2
      · simp [poincareEq, Ode.withT, e1])
    rw [← this]
    simp [Ode.withT]

/-- C95, shooting: the result contains the difference of the end value of the solution and the prescribed value, for every starting vector with the given value in one component and a value of the argument in the other one. -/
theorem C95_shooting {φ : Flow 2} {dom : ℝ → ℝ → (Fin 2 → ℝ) → Prop} {S : Solver 2} (hS : S.Ok φ dom) {sv ev s Z : Interval D} {si ei : Fin 2} (h : shooting (strobo S start stop) sv ev si ei s = .ok Z)
    {a b : ℝ} (ha : a ∈ start) (hb : b ∈ stop) {p : Fin 2 → ℝ} (h0 : p si ∈ sv) (h1 : p (1 - si) ∈ s) {β : ℝ} (hβ : β ∈ ev) : dom a b p ∧ φ a b p ei - β ∈ Z := by
  obtain ⟨y, h2, h⟩ := bind_ok.1 h
  cases h
  have hp : ∀ i, p i ∈ if i = si then sv else s := by
    intro i
    split_ifs with hi
    · rw [hi]; exact h0
    · have : i = 1 - si := (by decide : ∀ i j : Fin 2, ¬ i = j → i = 1 - j) i si hi
      rw [this]; exact h1
  obtain ⟨k1, k2⟩ := C95_strobo hS h2 ha hb hp
  exact ⟨k1, Interval.sub_mem (k2 ei) hβ⟩

/-! ### The hypotheses are satisfiable: `x' = -x / t` with the flow `φ a b p = p a / b`, and `G(x, T) = T - 2` -/

noncomputable def exMapFlow : Flow 1 := fun a b p i => p i * (a / b)
def exMapDom : ℝ → ℝ → (Fin 1 → ℝ) → Prop := fun a b _ => 0 < a ∧ 0 < b

/-- multiplies by `s / e` for positive times -/
def exMapSolver : Solver 1 where
  I x s e := if Rop.lt (lit 0) s.inf && Rop.lt (lit 0) e.inf then do
      let q ← Interval.div s e
      .ok (2, fun i => Interval.mul (x i) q) else .ok (0, x)
  AD x s e := if Rop.lt (lit 0) s.inf && Rop.lt (lit 0) e.inf then do
      let q ← Interval.div s e
      .ok (2, ⟨fun i => Interval.mul (x.v i) q, fun i j => Interval.mul q (x.d i j)⟩) else .ok (0, x)

theorem mem_pos_of_lt {X : Interval D} {a : ℝ} (h : Rop.lt (lit 0 : D) X.inf = true) (ha : a ∈ X) : 0 < a := by
  have h1 := (lt_zero_left.1 h).2
  have h2 := ha.1.2
  exact_mod_cast h1.trans_le h2

theorem exMapSolver_ok : exMapSolver.Ok exMapFlow exMapDom where
  I := by
    intro x s e y h a b ha hb p hp
    simp only [exMapSolver] at h
    split_ifs at h with hc
    · rw [Bool.and_eq_true] at hc
      obtain ⟨q, h1, h⟩ := bind_ok.1 h
      cases h
      have hb0 := mem_pos_of_lt hc.2 hb
      exact ⟨⟨mem_pos_of_lt hc.1 ha, hb0⟩, fun i => Interval.mul_mem (hp i) (Interval.div_mem h1 ha hb)⟩
    · simp at h
  AD := by
    intro m x s e y h a b ha hb p hp
    simp only [exMapSolver] at h
    split_ifs at h with hc
    · rw [Bool.and_eq_true] at hc
      obtain ⟨q, h1, h⟩ := bind_ok.1 h
      cases h
      have hb0 := mem_pos_of_lt hc.2 hb
      have hq := Interval.div_mem h1 ha hb
      refine ⟨⟨mem_pos_of_lt hc.1 ha, hb0⟩, fun i => Interval.mul_mem (hp i) hq, fun _ _ => a / b, fun i => ?_, fun K hK i j => ?_⟩
      · have := ((ContinuousLinearMap.proj i : (Fin 1 → ℝ) →L[ℝ] ℝ).hasFDerivAt (x := p)).mul_const (a / b)
        have e : lin (fun _ : Fin 1 => a / b) = (a / b) • (ContinuousLinearMap.proj i : (Fin 1 → ℝ) →L[ℝ] ℝ) := by
          rw [Subsingleton.elim i 0]; simp [lin]
        rw [e]
        exact this
      · simp only [Finset.univ_unique, Finset.sum_singleton]
        rw [Subsingleton.elim i default]
        exact Interval.mul_mem hq (hK default j)
    · simp at h

def exMapFuns : Funs 1 where
  f1 x t := do
    let q ← Interval.div (Interval.neg (x 0)) t
    .ok fun _ => q
  f2 x := .ok (Interval.subS (x 1) (lit 2))
  f2d x := .ok (Interval.subS (x.v 1) (lit 2), fun j => x.d 1 j)

theorem exMapFlow_ok : IsFlowOf (fun q t i => -q i / t) exMapFlow exMapDom := by
  intro a b p hd
  have hb : b ≠ 0 := hd.2.ne'
  have h1 : HasFDerivAt (fun z : (Fin 1 → ℝ) × ℝ => fun i : Fin 1 => z.1 i * (a / z.2))
      (ContinuousLinearMap.pi fun i : Fin 1 => p i • ((-(a / b ^ 2)) • ContinuousLinearMap.snd ℝ (Fin 1 → ℝ) ℝ) + (a / b) • (ContinuousLinearMap.proj i : (Fin 1 → ℝ) →L[ℝ] ℝ).comp (ContinuousLinearMap.fst ℝ (Fin 1 → ℝ) ℝ)) (p, b) := by
    refine hasFDerivAt_pi.2 fun i => ?_
    have c1 : HasFDerivAt (fun z : (Fin 1 → ℝ) × ℝ => z.1 i) ((ContinuousLinearMap.proj i : (Fin 1 → ℝ) →L[ℝ] ℝ).comp (ContinuousLinearMap.fst ℝ (Fin 1 → ℝ) ℝ)) (p, b) :=
      ((ContinuousLinearMap.proj i : (Fin 1 → ℝ) →L[ℝ] ℝ).comp (ContinuousLinearMap.fst ℝ (Fin 1 → ℝ) ℝ)).hasFDerivAt
    have c2 : HasDerivAt (fun t : ℝ => a / t) (-(a / b ^ 2)) b := by
      have := (hasDerivAt_inv hb).const_mul a
      simpa [div_eq_mul_inv] using this
    have c3 : HasFDerivAt (fun z : (Fin 1 → ℝ) × ℝ => a / z.2) ((-(a / b ^ 2)) • ContinuousLinearMap.snd ℝ (Fin 1 → ℝ) ℝ) (p, b) :=
      c2.comp_hasFDerivAt (p, b) (ContinuousLinearMap.snd ℝ (Fin 1 → ℝ) ℝ).hasFDerivAt
    exact c1.mul c3
  refine ⟨_, h1, ?_⟩
  funext i
  simp [exMapFlow]
  field_simp

theorem exMapFuns_ok : exMapFuns.Ok (fun q t i => -q i / t) (fun z => z 1 - 2) where
  f1 := by
    intro y t d h q b hq hb i
    obtain ⟨r, h1, h⟩ := bind_ok.1 h
    cases h
    rw [Subsingleton.elim i 0]
    exact Interval.div_mem h1 (Interval.neg_mem (hq 0)) hb
  f2 := by
    intro x r h p hp
    cases h
    exact Interval.subS_mem (hp 1) Interval.is_two
  f2d := by
    intro m x r d h p hp
    cases h
    refine ⟨Interval.subS_mem (hp 1) Interval.is_two, fun k => if k = 1 then 1 else 0, ?_, fun K hK j => ?_⟩
    · have e : lin (fun k : Fin 2 => if k = 1 then (1 : ℝ) else 0) = (ContinuousLinearMap.proj 1 : (Fin 2 → ℝ) →L[ℝ] ℝ) := by simp [lin]
      rw [e]
      exact (ContinuousLinearMap.proj 1 : (Fin 2 → ℝ) →L[ℝ] ℝ).hasFDerivAt.sub_const 2
    · simpa using hK 1 j

def exMapInv (d : D) : Inverter 2 := fun _ => some fun i j => if i = j then (if i = 0 then d else lit 1) else lit 0

/-- the Krawczyk test finds the constant solution 0 with the time 2 -/
def exMapRun : Res (Option (Vec 2 (Interval D) × Vec 2 (Interval D))) :=
  krawczykApprox (exMapInv (lit (-2))) (poincareProg exMapSolver exMapFuns (Interval.point (lit 1))) (fun i => if i = 0 then lit (1 / 1024) else lit 2) 2

example : ∃ I K, exMapRun = .ok (some (I, K)) ∧ ∀ i, Bd (K i) := by
  have h : (match exMapRun with
      | .ok (some (_, K)) => decide (∀ i, Bd (K i))
      | _ => false) = true := by
    decide +kernel
  rcases e : exMapRun with _ | _ | ⟨I, K⟩
  · rw [e] at h; cases h
  · rw [e] at h; cases h
  · rw [e] at h
    exact ⟨I, K, rfl, of_decide_eq_true h⟩

end Kv
