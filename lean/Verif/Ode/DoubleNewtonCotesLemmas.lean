import Verif.Ode.DoubleNewtonCotes
import Verif.Ode.NewtonCotesLemmas
import Verif.Analysis.NewtonCotes2

/-! # Lemmas for the Newton-Cotes quadrature in two dimensions -/

namespace Kv
open RopSem Psa PM
open Kv.Interval hiding exp log sqrt sin cos tan asin acos atan sinh cosh tanh asinh acosh atanh pow
open Rop (lit)
open LA

namespace Expr
variable {k : ℕ}

theorem tameE_fixArg (j : Fin k) : ∀ {e : Expr k}, e.TameE → (e.fixArg j).TameE
  | .var i, _ => by unfold fixArg; split_ifs <;> exact trivial
  | .par i, _ => trivial
  | .cst c, _ => trivial
  | .un f a, h => ⟨h.1, tameE_fixArg j h.2⟩
  | .bin o a b, h => ⟨tameE_fixArg j h.1, tameE_fixArg j h.2⟩
  | .binC o a d, h => tameE_fixArg j (e := a) h
  | .cBin o d b, h => tameE_fixArg j (e := b) h
  | .powI a y, h => tameE_fixArg j (e := a) h
  | .pow a b, h => h.elim

theorem sDom_fixArg (j : Fin k) {ρ : ℕ → ℝ} {x : Fin k → ℝ} : ∀ {e : Expr k}, (e.fixArg j).SDom (fixPar ρ x) (fun _ => x j) → e.SDom ρ x
  | .var i, _ => trivial
  | .par i, _ => trivial
  | .cst c, _ => trivial
  | .un f a, h => by
    refine ⟨sDom_fixArg j h.1, ?_⟩
    have := h.2
    rwa [real_fixArg, Function.update_eq_self] at this
  | .bin o a b, h => by
    refine ⟨sDom_fixArg j h.1, sDom_fixArg j h.2.1, ?_⟩
    have := h.2.2
    rwa [real_fixArg, Function.update_eq_self] at this
  | .binC o a d, h => ⟨sDom_fixArg j h.1, h.2⟩
  | .cBin o d b, h => by
    refine ⟨sDom_fixArg j h.1, ?_⟩
    have := h.2
    rwa [real_fixArg, Function.update_eq_self] at this
  | .powI a y, h => by
    refine ⟨sDom_fixArg j h.1, ?_⟩
    have := h.2
    rwa [real_fixArg, Function.update_eq_self] at this
  | .pow a b, h => by
    refine ⟨sDom_fixArg j h.1, sDom_fixArg j h.2.1, ?_⟩
    have := h.2.2
    rwa [real_fixArg, Function.update_eq_self] at this

theorem partialDeriv_fix {S : Type} [Scal S] {e : Expr k} {c : ℕ → S} {j : Fin k} {m : ℕ} {x : Fin k → S} :
    partialDeriv e c j m x = highDerivAt (e.fixArg j) (fixPar c x) (x j) m := by
  unfold partialDeriv
  simp only [Expr.evalP_fixArg]
  rfl

theorem pd_fix {ρ : ℕ → ℝ} {e : Expr k} {j : Fin k} {d : ℕ} (y : Fin k → ℝ) :
    NC.pd (e.real ρ) j d y = iteratedDeriv d (fun t => (e.fixArg j).real (fixPar ρ y) fun _ => t) (y j) := by
  unfold NC.pd
  congr 1
  funext t
  rw [real_fixArg]

theorem smooth_ev {ρ : ℕ → ℝ} {e : Expr k} {x : Fin k → ℝ} (h : e.SDom ρ x) : ∀ᶠ y in nhds x, ContDiffAt ℝ (⊤ : ℕ∞) (e.real ρ) y :=
  (Expr.SDom.eventually h).mono fun _ hy => Expr.contDiffAt hy

end Expr

namespace NCotes
variable {fuel fuel' : ℕ} {s1 : PSt (Interval D)} {s2 : PSt (Autodif (Interval D))} {p : ℕ → Interval D} {e : Expr 2} {j : Fin 2} {d : ℕ} {ρ : ℕ → ℝ}

theorem fixPar_mem {X : Vec 2 (Interval D)} {x : Fin 2 → ℝ} (hp : ∀ i, ρ i ∈ p i) (hx : ∀ i, x i ∈ X i) (i : ℕ) : Expr.fixPar ρ x i ∈ Expr.fixPar p X i := by
  unfold Expr.fixPar
  split_ifs
  · exact hx _
  · exact hp _
  · exact hp _

theorem pdF {X : Vec 2 (Interval D)} {Y : Interval D} {x : Fin 2 → ℝ} (he : e.FinCst) (ht : e.TameE) (hd : d + 1 < 2 ^ 31) (hp : ∀ i, ρ i ∈ p i)
    (h : ((letI := scalI fuel; partialDeriv e p j d X) s1).1 = .ok Y) (hx : ∀ i, x i ∈ X i) : e.SDom ρ x ∧ NC.pd (e.real ρ) j d x ∈ Y := by
  let _ := scalI fuel
  change (partialDeriv e p j d X s1).1 = .ok Y at h
  rw [Expr.partialDeriv_fix] at h
  have := @highDerivAt_memS _ (semI fuel) (e.fixArg j) (Expr.fixPar ρ x) (Expr.fixPar p X) (X j) (x j) d s1 _ Y (Expr.finCst_fixArg j he) hd (fixPar_mem hp hx) (hx j)
    (Expr.tameE_fixArg j ht).lDom (ok_fst h)
  rw [Expr.pd_fix]
  exact ⟨Expr.sDom_fixArg j this.1, this.2⟩

theorem pdFD {X : Vec 2 (Interval D)} {r : Autodif (Interval D)} {x : Fin 2 → ℝ} (he : e.FinCst) (ht : e.TameE) (h1 : 1 ≤ d) (hd : d + 1 < 2 ^ 31) (hp : ∀ i, ρ i ∈ p i)
    (h : (@partialDeriv _ (@Autodif.instScal _ (scalI fuel)) 2 e (fun i => Autodif.lift (p i)) j d (@Autodif.init _ (scalI fuel) 2 X) s2).1 = .ok r)
    (hx : ∀ i, x i ∈ X i) : ∃ χ : (Fin 2 → ℝ) → ℝ, χ =ᶠ[nhds x] NC.pd (e.real ρ) j d ∧ @Follows _ (semI fuel) 2 x χ r := by
  let _ := semI fuel
  rw [Expr.partialDeriv_fix] at h
  obtain ⟨χ, h2, h3⟩ := highDerivAt_rel (rules_ad (T := Interval D) (x := x) (N := d + 1) hd (by omega)) (Expr.finCst_fixArg j he) (Expr.tameE_fixArg j ht)
    (p1 := fun y => Expr.fixPar ρ y)
    (fun i => by
      unfold Expr.fixPar
      split_ifs
      · exact Follows.init hx _
      · exact Follows.lift (hp _)
      · exact Follows.lift (hp _)) (x1 := fun y => y j) (Follows.init hx j) (le_refl _) (by omega) (ok_fst h) (s1 := ⟨1, 0, [], false, false⟩) ⟨rfl, rfl, rfl⟩
  refine ⟨χ, h2.mono fun y hy => ?_, h3⟩
  rw [Expr.pd_fix]
  exact (@highDerivAt_memS _ semR (e.fixArg j) (Expr.fixPar ρ y) (fun i => Expr.fixPar ρ y i) (y j) (y j) d _ _ _ (Expr.finCst_fixArg j he) hd (fun _ => rfl) rfl
    (Expr.tameE_fixArg j ht).lDom hy).2.symm

theorem pdProg_sound (he : e.FinCst) (ht : e.TameE) (h1 : 1 ≤ d) (hd : d + 1 < 2 ^ 31) (hp : ∀ i, ρ i ∈ p i) :
    (pdProg fuel s1 s2 p e j d).Sound (fun _ => True) (NC.pd (e.real ρ) j d) where
  val {X Y x} h hx _ := (pdF he ht hd hp h hx).2
  der {X Y J x} h hx := by
    obtain ⟨r, hr, h⟩ := bind_ok.1 h
    cases h
    obtain ⟨χ, h2, c, h3⟩ := pdFD he ht h1 hd hp hr hx
    obtain ⟨g, h4, h5⟩ := @AD.row _ (semI fuel) _ _ _ _ _ h3
    exact ⟨.of_forall fun _ => trivial, by have := @AD.val _ (semI fuel) _ _ _ _ _ h3; rw [h2.self_of_nhds] at this; exact this, g, h5, h4.congr_of_eventuallyEq h2.symm⟩

theorem pdMinus_sound (he : e.FinCst) (ht : e.TameE) (h1 : 1 ≤ d) (hd : d + 1 < 2 ^ 31) (hp : ∀ i, ρ i ∈ p i) :
    (pdMinus fuel s1 s2 p e j d).Sound (fun _ => True) (fun X => - NC.pd (e.real ρ) j d X) where
  val {X Y x} h hx _ := by
    obtain ⟨r, hr, h⟩ := bind_ok.1 h
    cases h
    exact neg_mem (pdF he ht hd hp hr hx).2
  der {X Y J x} h hx := by
    obtain ⟨r, hr, h⟩ := bind_ok.1 h
    obtain ⟨q, hq, h⟩ := bind_ok.1 h
    cases h
    obtain ⟨χ, h2, c, h3⟩ := pdFD he ht h1 hd hp hr hx
    obtain ⟨-, h3⟩ := @unary_ad _ (semI fuel) _ _ _ _ _ _ .neg h3 (fun _ => trivial) hq
    have h2' : (fun y => Un.neg.real (χ y)) =ᶠ[nhds x] fun y => - NC.pd (e.real ρ) j d y := h2.mono fun y hy => by
      show - χ y = _
      rw [hy]
    obtain ⟨g, h4, h5⟩ := @AD.row _ (semI fuel) _ _ _ _ _ h3
    exact ⟨.of_forall fun _ => trivial, by have := @AD.val _ (semI fuel) _ _ _ _ _ h3; rw [show Un.neg.real (χ x) = _ from h2'.self_of_nhds] at this; exact this, g, h5, h4.congr_of_eventuallyEq h2'.symm⟩

/-- the function is smooth on the box and the hull contains all numbers between its extreme derivatives -/
theorem pd_mem {v : Vec 2 (Interval D)} {Z : Interval D} {limit : D} (he : e.FinCst) (ht : e.TameE) (h1 : 1 ≤ d) (hd : d + 1 < 2 ^ 31) (hp : ∀ i, ρ i ∈ p i)
    (hv : ∀ i, Proper (v i)) (h : pdHull fuel fuel' s1 s2 limit p e j d v = .ok Z) :
    (∀ x : Fin 2 → ℝ, (∀ i, x i ∈ v i) → e.SDom ρ x) ∧ ∃ m M : ℝ, m ≤ M ∧ (∀ x : Fin 2 → ℝ, (∀ i, x i ∈ v i) → m ≤ NC.pd (e.real ρ) j d x ∧ NC.pd (e.real ρ) j d x ≤ M) ∧
      ∀ K, m ≤ K → K ≤ M → K ∈ Z := by
  obtain ⟨lo, hlo, h⟩ := bind_ok.1 h
  obtain ⟨hi, hhi, h⟩ := bind_ok.1 h
  cases h
  have hS : ∀ x : Fin 2 → ℝ, (∀ i, x i ∈ v i) → e.SDom ρ x := fun x hx => by
    obtain ⟨I, hI, Y, hY⟩ := minimizeValue_cover hv hlo hx
    exact (pdF he ht hd hp hY hI).1
  refine ⟨hS, ?_⟩
  set g := NC.pd (e.real ρ) j d with hg
  have hset : {x : Fin 2 → ℝ | ∀ i, x i ∈ v i} = Set.pi Set.univ fun i => Set.Icc (dbl (v i).inf) (dbl (v i).sup) := by
    ext x
    simp only [Set.mem_ofPred_eq, Set.mem_pi, Set.mem_univ, true_implies]
    exact forall_congr' fun i => mem_of_bd ⟨(hv i).1, (hv i).2.1⟩
  have hne : {x : Fin 2 → ℝ | ∀ i, x i ∈ v i}.Nonempty := by
    choose x hx using fun i => (hv i).2.2
    exact ⟨x, hx⟩
  have hcomp : IsCompact {x : Fin 2 → ℝ | ∀ i, x i ∈ v i} := by rw [hset]; exact isCompact_univ_pi fun _ => isCompact_Icc
  have hcont : ContinuousOn g {x : Fin 2 → ℝ | ∀ i, x i ∈ v i} := fun x hx =>
    (NC.pd_smooth (Expr.smooth_ev (hS x hx)) d).self_of_nhds.continuousAt.continuousWithinAt
  obtain ⟨zm, hzm, hm⟩ := hcomp.exists_isMinOn hne hcont
  obtain ⟨zM, hzM, hM⟩ := hcomp.exists_isMaxOn hne hcont
  have e1 : g zm ∈ lo := C33_value (pdProg_sound he ht h1 hd hp) hv (fun _ _ => trivial) hlo (z := zm) ⟨⟨hzm, trivial⟩, fun y hy _ => hm hy⟩
  have e2 : - g zM ∈ hi := C33_value (pdMinus_sound he ht h1 hd hp) hv (fun _ _ => trivial) hhi (z := zM)
    ⟨⟨hzM, trivial⟩, fun y hy _ => neg_le_neg (hM hy)⟩
  have e3 : g zM ∈ Interval.neg hi := by simpa using neg_mem e2
  refine ⟨g zm, g zM, hM hzm, fun x hx => ⟨hm hx, hM hx⟩, fun K h2 h3 => ?_⟩
  exact (Kraw.ordConnected_mem _).out (Interval.hull_mem_left e1 e3) (Interval.hull_mem_right e1 e3) ⟨h2, h3⟩

/-! ## the sums -/

theorem row_mem {F : Interval D → Res (Interval D)} {f : ℝ → ℝ} {n m : ℕ} {q : ℕ → ℝ} {start h k1 : Interval D} {a η κ : ℝ} (hn : 0 < n) (hm : m ≤ 2 ^ 31) (H : Table n q)
    (hF : ∀ X Y i, i ≤ m → F X = .ok Y → a + (i : ℕ) * η ∈ X → f (a + i * η) ∈ Y) (hκ : κ ∈ k1) (ha : a ∈ start) (hh : η ∈ h) :
    ∀ {k i : ℕ} {r Z : Interval D} {t : ℝ}, i + k ≤ m + 1 → t ∈ r → row F n m k1 start h k i r = .ok Z →
      t + ∑ l ∈ Finset.range k, κ * wt n m q (i + l) * f (a + (i + l : ℕ) * η) ∈ Z
  | 0, i, r, Z, t, _, ht, h => by cases h; simpa using ht
  | k + 1, i, r, Z, t, hi, ht, h => by
    obtain ⟨c, hc, h⟩ := bind_ok.1 h
    obtain ⟨y, hy, h⟩ := bind_ok.1 h
    have hx : a + (i : ℝ) * η ∈ Interval.add start (Interval.sMul (lit (i : ℚ)) _) := Interval.add_mem ha (Interval.sMul_mem hh (Interval.Is.lit_nat (T := D) (by omega)))
    have := row_mem hn hm H hF hκ ha hh (by omega) (Interval.add_mem ht (Interval.mul_mem (Interval.mul_mem hκ (weight_mem hn H hc)) (hF _ _ i (by omega) hy hx))) h
    rw [Finset.sum_range_succ']
    convert this using 1
    simp only [add_zero]
    rw [add_assoc, add_comm (∑ l ∈ Finset.range k, _)]
    refine congrArg _ (congrArg _ (Finset.sum_congr rfl fun l _ => ?_))
    rw [show i + 1 + l = i + (l + 1) by ring]

theorem sum2_mem {F : Interval D → Interval D → Res (Interval D)} {f : ℝ → ℝ → ℝ} {n m1 m2 : ℕ} {q : ℕ → ℝ} {start1 h1 start2 h2 : Interval D} {a η c θ : ℝ}
    (hn : 0 < n) (hm1 : m1 ≤ 2 ^ 31) (hm2 : m2 ≤ 2 ^ 31) (H : Table n q)
    (hF : ∀ X Y Z i j, i ≤ m1 → j ≤ m2 → F X Y = .ok Z → a + (i : ℕ) * η ∈ X → c + (j : ℕ) * θ ∈ Y → f (a + i * η) (c + j * θ) ∈ Z)
    (ha : a ∈ start1) (hh : η ∈ h1) (hc : c ∈ start2) (hθ : θ ∈ h2) :
    ∀ {k i : ℕ} {r Z : Interval D} {t : ℝ}, i + k ≤ m1 + 1 → t ∈ r → sum2 F n m1 m2 start1 h1 start2 h2 k i r = .ok Z →
      t + ∑ l ∈ Finset.range k, ∑ j ∈ Finset.range (m2 + 1), wt n m1 q (i + l) * wt n m2 q j * f (a + (i + l : ℕ) * η) (c + j * θ) ∈ Z
  | 0, i, r, Z, t, _, ht, h => by cases h; simpa using ht
  | k + 1, i, r, Z, t, hi, ht, h => by
    obtain ⟨k1, hk1, h⟩ := bind_ok.1 h
    obtain ⟨r', hr', h⟩ := bind_ok.1 h
    have hx : a + (i : ℝ) * η ∈ Interval.add start1 (Interval.sMul (lit (i : ℚ)) _) := Interval.add_mem ha (Interval.sMul_mem hh (Interval.Is.lit_nat (T := D) (by omega)))
    have hr := row_mem (f := f (a + i * η)) hn hm2 H (fun X Y j hj hX hxX => hF _ _ _ i j (by omega) hj hX hx hxX) (weight_mem hn H hk1) hc hθ (by omega) ht hr'
    have := sum2_mem hn hm1 hm2 H hF ha hh hc hθ (by omega) hr h
    rw [Finset.sum_range_succ']
    convert this using 1
    simp only [add_zero, zero_add]
    rw [add_assoc, add_comm (∑ l ∈ Finset.range k, _)]
    refine congrArg _ (congrArg _ (Finset.sum_congr rfl fun l _ => ?_))
    rw [show i + 1 + l = i + (l + 1) by ring]

theorem wt_nonneg {n m : ℕ} {q : ℕ → ℝ} (hn : 0 < n) (hq : ∀ j ≤ n, 0 ≤ q j) (i : ℕ) : 0 ≤ wt n m q i := by
  unfold wt NC.comp
  split_ifs
  · exact hq 0 (by omega)
  · have := hq 0 (by omega); linarith
  · exact hq _ (Nat.mod_lt _ hn).le

/-- the composite rule in one dimension -/
theorem comp_wt {n d : ℕ} {κ : ℝ} {q : ℕ → ℝ} (H : NC.PanelOK n d κ q) (hd : Even d) (hκ : 0 ≤ κ) (hq : ∀ j ≤ n, q (n - j) = q j)
    (hn : 0 < n) {f : ℝ → ℝ} {a b h m M : ℝ} (P : ℕ) (hP : 0 < P) (hb : a + (n * P : ℕ) * h = b) (hf : ∀ y ∈ Set.uIcc a b, ContDiffAt ℝ (⊤ : ℕ∞) f y)
    (hbd : ∀ y ∈ Set.uIcc a b, m ≤ iteratedDeriv d f y ∧ iteratedDeriv d f y ≤ M) :
    ∃ K, m ≤ K ∧ K ≤ M ∧ h * (∑ i ∈ Finset.range (n * P + 1), wt n (n * P) q i * f (a + i * h)) - (∫ y in a..b, f y) = K * (κ * (b - a) * h ^ d) := by
  subst hb
  obtain ⟨K, h1, h2, h3⟩ := H.composite hd hκ hq hn P hP hf hbd
  refine ⟨K, h1, h2, ?_⟩
  rw [wt_sum hn hP]
  simp only [Nat.cast_zero, zero_mul, add_zero]
  rw [h3]; ring

theorem sum_wt {n d : ℕ} {κ : ℝ} {q : ℕ → ℝ} (H : NC.PanelOK n d κ q) (hd : Even d) (h1 : 1 ≤ d) (hκ : 0 ≤ κ) (hq : ∀ j ≤ n, q (n - j) = q j) (hn : 0 < n) (P : ℕ) (hP : 0 < P) :
    ∑ i ∈ Finset.range (n * P + 1), wt n (n * P) q i = (n * P : ℕ) := by
  have hz : ∀ y : ℝ, iteratedDeriv d (fun _ : ℝ => (1 : ℝ)) y = 0 := fun y => by
    rw [iteratedDeriv_const, if_neg (by omega)]
  obtain ⟨K, k1, k2, k3⟩ := comp_wt H hd hκ hq hn (f := fun _ => 1) (a := 0) (h := 1) (m := 0) (M := 0) P hP rfl (fun _ _ => contDiffAt_const) fun y _ => by
    rw [hz]; exact ⟨le_refl _, le_refl _⟩
  have hK : K = 0 := le_antisymm k2 k1
  subst hK
  simp at k3
  push_cast
  linarith

theorem split_M {n : ℕ} {M : ℤ} (hn : 0 < n) (h0 : 0 ≤ M) (h1 : M ≠ 0) (h : M.tmod n = 0) : ∃ P : ℕ, M = (n * P : ℕ) ∧ 0 < P := by
  obtain ⟨P, hP⟩ := Int.dvd_of_tmod_eq_zero h
  have hP0 : 0 < P := by
    by_contra hc
    have : (n : ℤ) * P ≤ 0 := Int.mul_nonpos_of_nonneg_of_nonpos (by omega) (by omega)
    omega
  refine ⟨P.toNat, ?_, by omega⟩
  push_cast
  rw [Int.toNat_of_nonneg hP0.le]; exact hP

theorem point_uIcc {a b : ℝ} {N : ℕ} {i : ℕ} (hN : 0 < N) (hi : i ≤ N) : a + (i : ℝ) * ((b - a) / (N : ℝ)) ∈ Set.uIcc a b := by
  have hN' : (0 : ℝ) < N := by exact_mod_cast hN
  have h0 : (0 : ℝ) ≤ i / (N : ℝ) := by positivity
  have h1 : (i : ℝ) / (N : ℝ) ≤ 1 := div_le_one_of_le₀ (by exact_mod_cast hi) (by positivity)
  have : a + (i : ℝ) * ((b - a) / (N : ℝ)) = a + (i / (N : ℝ)) * (b - a) := by ring
  rw [this, Set.mem_uIcc]
  rcases le_total a b with hab | hab
  · left; constructor <;> nlinarith
  · right; constructor <;> nlinarith

theorem upd0 (x y t : ℝ) : Function.update ![x, y] 0 t = ![t, y] := by
  funext i; fin_cases i <;> simp
theorem upd1 (x y t : ℝ) : Function.update ![x, y] 1 t = ![x, t] := by
  funext i; fin_cases i <;> simp

open MeasureTheory intervalIntegral in
/-- the whole function, for the formulas with an even order of the derivative and a constant as in the table -/
theorem double_mem {n : ℕ} {q : ℕ → ℝ} {κ : ℝ} {limit : D} {est : Res (ℤ × ℤ)} {start1 end1 start2 end2 Z : Interval D} {m1 m2 : ℤ} {a b c d : ℝ}
    (hn : 0 < n) (H : Table n q) (hP : NC.PanelOK n (errord n) κ q) (hκ : 0 ≤ κ) (hq : ∀ j ≤ n, q (n - j) = q j) (hq0 : ∀ j ≤ n, 0 ≤ q j) (hev : Even (errord n))
    (h1 : 1 ≤ errord n) (hd : errord n + 1 < 2 ^ 31) (herr : ∀ c, entry (errterm n).1 (errterm n).2 = .ok c → -κ ∈ c)
    (he : e.FinCst) (ht : e.TameE) (hp : ∀ i, ρ i ∈ p i) (hs1 : Proper start1) (hs1' : Proper end1) (hs2 : Proper start2) (hs2' : Proper end2)
    (hm1 : 0 ≤ m1 ∧ m1 ≤ 2147483647) (hm2 : 0 ≤ m2 ∧ m2 ≤ 2147483647)
    (hest : ∀ k, est = .ok k → (0 ≤ k.1 ∧ k.1 ≤ 2147483647) ∧ 0 ≤ k.2 ∧ k.2 ≤ 2147483647)
    (h : doubleNewtoncotes fuel fuel' s1 s2 limit est p e start1 end1 start2 end2 n m1 m2 = .ok Z)
    (ha : a ∈ start1) (hb : b ∈ end1) (hc : c ∈ start2) (hd' : d ∈ end2) :
    (∀ x ∈ Set.uIcc a b, ∀ y ∈ Set.uIcc c d, e.SDom ρ ![x, y]) ∧ ∫ x in a..b, ∫ y in c..d, e.real ρ ![x, y] ∈ Z := by
  unfold doubleNewtoncotes at h
  rw [ite_eq_iff] at h
  rcases h with ⟨_, h⟩ | ⟨c1, h⟩
  · cases h
  simp only [Int.toNat_natCast] at h
  obtain ⟨hdx, hhdx, h⟩ := bind_ok.1 h
  obtain ⟨hdy, hhdy, h⟩ := bind_ok.1 h
  obtain ⟨m, hm, h⟩ := bind_ok.1 h
  obtain ⟨M1, hM1, h⟩ := bind_ok.1 h
  obtain ⟨M2, hM2, h⟩ := bind_ok.1 h
  obtain ⟨η', hη', h⟩ := bind_ok.1 h
  obtain ⟨θ', hθ', h⟩ := bind_ok.1 h
  rw [ite_eq_iff] at h
  rcases h with ⟨_, h⟩ | ⟨c2, h⟩
  · cases h
  obtain ⟨r, hr, h⟩ := bind_ok.1 h
  obtain ⟨er, her, h⟩ := bind_ok.1 h
  obtain ⟨pw1, hpw1, h⟩ := bind_ok.1 h
  obtain ⟨pw2, hpw2, h⟩ := bind_ok.1 h
  cases h
  have hm0 : (0 ≤ m.1 ∧ m.1 ≤ 2147483647) ∧ 0 ≤ m.2 ∧ m.2 ≤ 2147483647 := by
    split_ifs at hm with c3
    · exact hest _ hm
    · cases hm; exact ⟨hm1, hm2⟩
  obtain ⟨k1, k2, k3⟩ := roundM_ok hM1 hm0.1.2
  obtain ⟨l1, l2, l3⟩ := roundM_ok hM2 hm0.2.2
  have hvP : ∀ i, Proper ((![Interval.hull start1 end1, Interval.hull start2 end2] : Vec 2 (Interval D)) i) := fun i => by
    fin_cases i
    · exact hs1.hull hs1'
    · exact hs2.hull hs2'
  obtain ⟨hS, mn1, mx1, hmn1, hbd1, hK1⟩ := pd_mem he ht h1 hd hp hvP hhdx
  obtain ⟨-, mn2, mx2, hmn2, hbd2, hK2⟩ := pd_mem he ht h1 hd hp hvP hhdy
  have hw1 : b - a ∈ Interval.sub end1 start1 := Interval.sub_mem hb ha
  have hw2 : d - c ∈ Interval.sub end2 start2 := Interval.sub_mem hd' hc
  have hMI1 : Is (lit (M1 : ℚ) : D) M1 := Interval.Is.lit_int (T := D) M1 (abs_le.2 ⟨by omega, by omega⟩)
  have hMI2 : Is (lit (M2 : ℚ) : D) M2 := Interval.Is.lit_int (T := D) M2 (abs_le.2 ⟨by omega, by omega⟩)
  have hM10 : M1 ≠ 0 := by
    have this : (M1 : ℝ) ≠ 0 := (binC_memI (fuel := fuel') (o := .div) (A := Interval.sub end1 start1) hη' hw1 hMI1).1
    exact_mod_cast this
  have hM20 : M2 ≠ 0 := by
    have this : (M2 : ℝ) ≠ 0 := (binC_memI (fuel := fuel') (o := .div) (A := Interval.sub end2 start2) hθ' hw2 hMI2).1
    exact_mod_cast this
  obtain ⟨P1, rfl, hP1⟩ := split_M hn (by omega) hM10 k3
  obtain ⟨P2, rfl, hP2⟩ := split_M hn (by omega) hM20 l3
  have hN1 := Nat.mul_pos hn hP1
  have hN2 := Nat.mul_pos hn hP2
  have hN1r : ((n * P1 : ℕ) : ℝ) ≠ 0 := by exact_mod_cast hN1.ne'
  have hN2r : ((n * P2 : ℕ) : ℝ) ≠ 0 := by exact_mod_cast hN2.ne'
  set η : ℝ := (b - a) / ((n * P1 : ℕ) : ℝ) with hη
  set θ : ℝ := (d - c) / ((n * P2 : ℕ) : ℝ) with hθ
  have hηm : η ∈ η' := by
    have := Interval.divS_mem hη' hw1 hMI1
    simpa [hη] using this
  have hθm : θ ∈ θ' := by
    have := Interval.divS_mem hθ' hw2 hMI2
    simpa [hθ] using this
  have hend1 : a + ((n * P1 : ℕ) : ℝ) * η = b := by rw [hη, mul_div_cancel₀ _ hN1r]; ring
  have hend2 : c + ((n * P2 : ℕ) : ℝ) * θ = d := by rw [hθ, mul_div_cancel₀ _ hN2r]; ring
  have hsub : ∀ x ∈ Set.uIcc a b, ∀ y ∈ Set.uIcc c d, ∀ i, (![x, y] : Fin 2 → ℝ) i ∈ (![Interval.hull start1 end1, Interval.hull start2 end2] : Vec 2 (Interval D)) i :=
    fun x hx y hy i => by
    fin_cases i
    · exact (Kraw.ordConnected_mem _).uIcc_subset (Interval.hull_mem_left ha hb) (Interval.hull_mem_right ha hb) hx
    · exact (Kraw.ordConnected_mem _).uIcc_subset (Interval.hull_mem_left hc hd') (Interval.hull_mem_right hc hd') hy
  have hSx : ∀ x ∈ Set.uIcc a b, ∀ y ∈ Set.uIcc c d, e.SDom ρ ![x, y] := fun x hx y hy => hS _ (hsub x hx y hy)
  refine ⟨hSx, ?_⟩
  have hcd : ∀ x ∈ Set.uIcc a b, ∀ y ∈ Set.uIcc c d, ContDiffAt ℝ (⊤ : ℕ∞) (e.real ρ) ![x, y] := fun x hx y hy => Expr.contDiffAt (hSx x hx y hy)
  have hF : ContinuousOn (fun z : ℝ × ℝ => e.real ρ ![z.1, z.2]) (Set.uIcc a b ×ˢ Set.uIcc c d) := fun z hz => by
    refine ContinuousAt.continuousWithinAt ?_
    refine ContinuousAt.comp (g := e.real ρ) (f := fun z : ℝ × ℝ => ![z.1, z.2]) (hcd _ hz.1 _ hz.2).continuousAt ?_
    refine continuousAt_pi.2 fun i => ?_
    fin_cases i
    · exact continuousAt_fst
    · exact continuousAt_snd
  obtain ⟨K1, K2, hk1, hk2, hK⟩ := NC.product (F := fun x y => e.real ρ ![x, y]) (s1 := Finset.range (n * P1 + 1)) (s2 := Finset.range (n * P2 + 1))
    (w1 := wt n (n * P1) q) (w2 := wt n (n * P2) q) (x := fun i => a + i * η) (y := fun j => c + j * θ) (h1 := η) (h2 := θ)
    (B1 := κ * (b - a) * η ^ errord n) (B2 := κ * (d - c) * θ ^ errord n) (m1 := mn1) (M1 := mx1) (m2 := mn2) (M2 := mx2) hF
    (fun j hj => point_uIcc hN2 (by have := Finset.mem_range.1 hj; omega)) (fun j _ => wt_nonneg hn hq0 j) (sum_wt hP hev h1 hκ hq hn P2 hP2)
    (by linarith) hmn1
    (fun v hv => comp_wt hP hev hκ hq hn (f := fun x => e.real ρ ![x, v]) P1 hP1 hend1
      (fun u hu => by
        refine ContDiffAt.comp u (g := e.real ρ) (f := fun x => ![x, v]) (hcd u hu v hv) (contDiffAt_pi.2 fun i => ?_)
        fin_cases i
        · exact contDiffAt_id
        · exact contDiffAt_const)
      fun u hu => by
        have := hbd1 _ (hsub u hu v hv)
        unfold NC.pd at this
        simp only [upd0] at this
        exact this)
    (fun u hu => comp_wt hP hev hκ hq hn (f := fun y => e.real ρ ![u, y]) P2 hP2 hend2
      (fun v hv => by
        refine ContDiffAt.comp v (g := e.real ρ) (f := fun y => ![u, y]) (hcd u hu v hv) (contDiffAt_pi.2 fun i => ?_)
        fin_cases i
        · exact contDiffAt_const
        · exact contDiffAt_id)
      fun v hv => by
        have := hbd2 _ (hsub u hu v hv)
        unfold NC.pd at this
        simp only [upd1] at this
        exact this)
  rw [if_neg (by omega)] at hr
  have hsum := sum2_mem (f := fun x y => e.real ρ ![x, y]) hn (by push_cast at k2 ⊢; omega) (by push_cast at l2 ⊢; omega) H
    (fun X Y Z i j hi hj hX hx hy => ?_) ha hηm hc hθm (by simp) (t := 0) (point_mem Interval.is_zero) hr
  · simp only [Int.toNat_natCast, show ((n * P1 : ℕ) + 1 : ℤ).toNat = n * P1 + 1 by omega, zero_add] at hsum
    have := Interval.add_mem (Interval.add_mem (Interval.mul_mem hsum (Interval.mul_mem hηm hθm))
      (Interval.mul_mem (Interval.mul_mem (Interval.mul_mem (Interval.mul_mem (hK1 K1 hk1.1 hk1.2) hw1) hw2) (Interval.powInt_mem hpw1 hηm)) (herr _ her)))
      (Interval.mul_mem (Interval.mul_mem (Interval.mul_mem (Interval.mul_mem (hK2 K2 hk2.1 hk2.2) hw1) hw2) (Interval.powInt_mem hpw2 hθm)) (herr _ her))
    convert this using 1
    simp only [zpow_natCast]
    linear_combination -hK
  · have hi' : i ≤ n * P1 := by simpa only [Int.toNat_natCast] using hi
    have hj' : j ≤ n * P2 := by simpa only [Int.toNat_natCast] using hj
    refine @eval_mem _ (semI fuel') _ _ _ _ _ hp (fun l => ?_) _ _ he (hSx _ (point_uIcc hN1 hi') _ (point_uIcc hN2 hj')).dom hX
    fin_cases l
    · exact hx
    · exact hy

end NCotes
end Kv
