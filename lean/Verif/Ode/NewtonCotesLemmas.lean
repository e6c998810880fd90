import Verif.Ode.NewtonCotes
import Verif.Psa.ParamAD
import Verif.Props.HighDeriv
import Verif.Props.Optimize
import Verif.Analysis.NewtonCotes
import Verif.Solver.Recover

/-! # Lemmas for the Newton-Cotes quadrature -/

namespace Kv
open RopSem Psa PM
open Kv.Interval hiding exp log sqrt sin cos tan asin acos atan sinh cosh tanh asinh acosh atanh pow
open Rop (lit)
open LA

theorem Expr.TameE.lDom {n : ℕ} {all : Prop} {ρ : ℕ → ℝ} {x : Fin n → ℝ} : ∀ {e : Expr n}, e.TameE → e.LDom all ρ x
  | .var _, _ => trivial
  | .par _, _ => trivial
  | .cst _, _ => trivial
  | .un f a, h => ⟨TameE.lDom h.2, fun hf => by subst hf; exact h.1.elim⟩
  | .bin _ _ _, h => ⟨TameE.lDom h.1, TameE.lDom h.2⟩
  | .binC _ a _, h => TameE.lDom (e := a) h
  | .cBin _ _ b, h => TameE.lDom (e := b) h
  | .powI a _, h => TameE.lDom (e := a) h
  | .pow _ _, h => h.elim

theorem Un.SDom.dom {f : Un} {x : ℝ} (h : f.SDom x) : f.Dom x := by
  cases f <;> first
    | exact h
    | exact le_of_lt h
    | exact ⟨h.1.le, h.2.le⟩

theorem Expr.SDom.dom {n : ℕ} {ρ : ℕ → ℝ} {x : Fin n → ℝ} : ∀ {e : Expr n}, e.SDom ρ x → e.Dom ρ x
  | .var _, _ => trivial
  | .par _, _ => trivial
  | .cst _, _ => trivial
  | .un _ _, h => ⟨SDom.dom h.1, h.2.dom⟩
  | .bin _ _ _, h => ⟨SDom.dom h.1, SDom.dom h.2.1, h.2.2⟩
  | .binC _ _ _, h => ⟨SDom.dom h.1, h.2⟩
  | .cBin _ _ _, h => ⟨SDom.dom h.1, h.2⟩
  | .powI _ _, h => ⟨SDom.dom h.1, h.2⟩
  | .pow _ _, h => ⟨SDom.dom h.1, SDom.dom h.2.1, h.2.2⟩

theorem highDerivAt_memS {S : Type} [ScalSem S] {e : Expr 1} {ρ : ℕ → ℝ} {p : ℕ → S} {x : S} {x0 : ℝ} {n : ℕ} {st st' : PSt S} {A : S}
    (he : e.FinCst) (hn : n + 1 < 2 ^ 31) (hp : ∀ i, ScalSem.mem (ρ i) (p i)) (hx : ScalSem.mem x0 x)
    (hl : e.LDom (n = 0) ρ fun _ => x0) (h : highDerivAt e p x n st = (.ok A, st')) :
    e.SDom ρ (fun _ => x0) ∧ ScalSem.mem (iteratedDeriv n (fun t => e.real ρ fun _ => t) x0) A := by
  obtain ⟨v, st1, h1, h2⟩ := bind_run h
  obtain ⟨h3, -⟩ := lift_run h2
  obtain ⟨-, hs, hv⟩ := highderiv_memS he hn hp hx hl h1
  exact ⟨hs, by simpa using hv n A (Psa.at_ok h3)⟩

theorem ok_fst {S α : Type} {r : Res α × PSt S} {a : α} (h : r.1 = .ok a) : r = (.ok a, r.2) := by
  rw [← h]

namespace NCotes
variable {fuel : ℕ} {s1 : PSt (Interval D)} {s2 : PSt (Autodif (Interval D))} {p : ℕ → Interval D} {e : Expr 1} {d : ℕ} {ρ : ℕ → ℝ}

theorem hdF {X : Vec 1 (Interval D)} {Y : Interval D} {x : ℝ} (he : e.FinCst) (ht : e.TameE) (hd : d + 1 < 2 ^ 31) (hp : ∀ i, ρ i ∈ p i)
    (h : ((letI := scalI fuel; highDerivAt e p (X 0) d) s1).1 = .ok Y) (hx : x ∈ X 0) :
    e.SDom ρ (fun _ => x) ∧ iteratedDeriv d (fun t => e.real ρ fun _ => t) x ∈ Y :=
  @highDerivAt_memS _ (semI fuel) e ρ p (X 0) x d s1 _ Y he hd hp hx ht.lDom (ok_fst h)

theorem hdFD {X : Vec 1 (Interval D)} {r : Autodif (Interval D)} {x : Fin 1 → ℝ} (he : e.FinCst) (ht : e.TameE) (h1 : 1 ≤ d) (hd : d + 1 < 2 ^ 31) (hp : ∀ i, ρ i ∈ p i)
    (h : (@highDerivAt _ (@Autodif.instScal _ (scalI fuel)) e (fun i => Autodif.lift (p i)) (@Autodif.init _ (scalI fuel) 1 X 0) d s2).1 = .ok r)
    (hx : ∀ i, x i ∈ X i) : ∃ χ : (Fin 1 → ℝ) → ℝ, χ =ᶠ[nhds x] (fun y => iteratedDeriv d (fun t => e.real ρ fun _ => t) (y 0)) ∧
      @Follows _ (semI fuel) 1 x χ r := by
  let _ := semI fuel
  obtain ⟨χ, h2, h3⟩ := highDerivAt_rel (rules_ad (T := Interval D) (x := x) (N := d + 1) hd (by omega)) he ht (p1 := fun _ j => ρ j)
    (fun j => Follows.lift (hp j)) (x1 := fun y => y 0) (Follows.init hx 0) (le_refl _) (by omega) (ok_fst h) (s1 := ⟨1, 0, [], false, false⟩) ⟨rfl, rfl, rfl⟩
  refine ⟨χ, h2.mono fun y hy => ?_, h3⟩
  exact (@highDerivAt_memS _ semR e ρ (fun j => ρ j) (y 0) (y 0) d _ _ _ he hd (fun _ => rfl) rfl ht.lDom hy).2.symm

theorem hdProg_sound (he : e.FinCst) (ht : e.TameE) (h1 : 1 ≤ d) (hd : d + 1 < 2 ^ 31) (hp : ∀ i, ρ i ∈ p i) :
    (hdProg fuel s1 s2 p e d).Sound (fun _ => True) (fun X => iteratedDeriv d (fun t => e.real ρ fun _ => t) (X 0)) where
  val {X Y x} h hx _ := (hdF he ht hd hp h (hx 0)).2
  der {X Y J x} h hx := by
    obtain ⟨r, hr, h⟩ := bind_ok.1 h
    cases h
    obtain ⟨χ, h2, c, h3⟩ := hdFD he ht h1 hd hp hr hx
    obtain ⟨g, h4, h5⟩ := @AD.row _ (semI fuel) _ _ _ _ _ h3
    exact ⟨.of_forall fun _ => trivial, by have := @AD.val _ (semI fuel) _ _ _ _ _ h3; rw [h2.self_of_nhds] at this; exact this, g, h5, h4.congr_of_eventuallyEq h2.symm⟩

theorem hdMinus_sound (he : e.FinCst) (ht : e.TameE) (h1 : 1 ≤ d) (hd : d + 1 < 2 ^ 31) (hp : ∀ i, ρ i ∈ p i) :
    (hdMinus fuel s1 s2 p e d).Sound (fun _ => True) (fun X => - iteratedDeriv d (fun t => e.real ρ fun _ => t) (X 0)) where
  val {X Y x} h hx _ := by
    obtain ⟨r, hr, h⟩ := bind_ok.1 h
    cases h
    exact neg_mem (hdF he ht hd hp hr (hx 0)).2
  der {X Y J x} h hx := by
    obtain ⟨r, hr, h⟩ := bind_ok.1 h
    obtain ⟨q, hq, h⟩ := bind_ok.1 h
    cases h
    obtain ⟨χ, h2, c, h3⟩ := hdFD he ht h1 hd hp hr hx
    obtain ⟨-, h3⟩ := @unary_ad _ (semI fuel) _ _ _ _ _ _ .neg h3 (fun _ => trivial) hq
    have h2' : (fun y => Un.neg.real (χ y)) =ᶠ[nhds x] fun y => - iteratedDeriv d (fun t => e.real ρ fun _ => t) (y 0) := h2.mono fun y hy => by
      show - χ y = _
      rw [hy]
    obtain ⟨g, h4, h5⟩ := @AD.row _ (semI fuel) _ _ _ _ _ h3
    exact ⟨.of_forall fun _ => trivial, by have := @AD.val _ (semI fuel) _ _ _ _ _ h3; rw [show Un.neg.real (χ x) = _ from h2'.self_of_nhds] at this; exact this, g, h5, h4.congr_of_eventuallyEq h2'.symm⟩

end NCotes

/-! ## every point of the box was examined -/

namespace Optimize
variable {n : ℕ}

theorem examine_F {P : SProg n} {init I : Vec n (Interval D)} {delta : D} {r : Option (Bool × D)} (h : examine P init delta I = .ok r)
    (hr : ∀ delta', r ≠ some (true, delta')) : ∃ Y, P.F I = .ok Y := by
  unfold examine at h
  obtain ⟨a, ha, h⟩ := bind_ok.1 h
  cases a with
  | none => cases h; exact absurd rfl (hr delta)
  | some fi => exact ⟨fi, Kraw.catchDom_some.1 ha⟩

theorem finish_err {uni : Bool} {limit delta : D} {rest sols : List (Vec n (Interval D))} {I : Vec n (Interval D)}
    {s : St n} {mi : Option (Fin n)} (h : finish uni limit rest sols mi I true delta = .ok s) :
    finish uni limit rest [] mi I true delta = .ok { s with solutions := [] } := by
  unfold finish at h ⊢
  dsimp only at h ⊢
  rw [Bool.not_true, Bool.and_false, if_neg (by decide)] at h ⊢
  split at h
  · cases h
  · cases h; rfl

theorem finish_rest {uni err : Bool} {limit delta : D} {rest sols : List (Vec n (Interval D))} {I : Vec n (Interval D)}
    {s : St n} {mi : Option (Fin n)} (h : finish uni limit rest sols mi I err delta = .ok s) : ∀ p ∈ rest, p ∈ s.targets := by
  intro p hp
  unfold finish at h
  dsimp only at h
  split at h
  · cases h; exact hp
  · split at h
    · cases h
    · cases h; exact List.mem_append_left _ hp

theorem loop_cover {P : SProg n} {init : Vec n (Interval D)} (hi : BdB init) {uni : Bool} {limit : D} :
    ∀ {k : ℕ} {s t : St n}, (∀ p ∈ s.targets, Ok init p) → (∀ p ∈ s.solutions, Ok init p) → loop (examine P init) uni limit k s = .ok t →
    ∀ x, (∃ p ∈ s.targets, InB p x) → ∃ I, InB I x ∧ ∃ Y, P.F I = .ok Y := by
  intro k
  induction k with
  | zero =>
    rintro ⟨tg, so, de, mi⟩ t hg hs h x ⟨p, hp, hx⟩
    rw [loop.eq_def] at h
    cases tg with
    | nil => cases hp
    | cons I rest => cases h
  | succ k ih =>
    rintro ⟨tg, so, de, mi⟩ t hg hs h x ⟨p, hp, hx⟩
    rw [loop.eq_def] at h
    cases tg with
    | nil => cases hp
    | cons I rest =>
      simp only at h
      obtain ⟨r, hr, h⟩ := bind_ok.1 h
      have hI := hg I (by simp)
      have hrest : ∀ p ∈ rest, Ok init p := fun p hp => hg p (by simp [hp])
      match r, hr, h with
      | none, hr, h =>
        rcases List.mem_cons.1 hp with rfl | hp
        · exact ⟨p, hx, examine_F hr (by simp)⟩
        · exact ih (s := ⟨rest, so, de, mi⟩) hrest hs h x ⟨p, hp, hx⟩
      | some (err, delta), hr, h =>
        obtain ⟨s', hs', h'⟩ := bind_ok.1 h
        obtain ⟨f1, f2, f3, f4, -, -⟩ := finish_ok hi hI hrest hs hs'
        cases err with
        | false =>
          rcases List.mem_cons.1 hp with rfl | hp
          · exact ⟨p, hx, examine_F hr (by simp)⟩
          · exact ih f1 f2 h' x ⟨p, finish_rest hs' p hp, hx⟩
        | true =>
          obtain ⟨-, -, -, f4, -, -⟩ := finish_ok hi hI hrest (fun p hp => by cases hp) (finish_err hs')
          refine ih f1 f2 h' x ?_
          have := f4 x (by
            rcases List.mem_cons.1 hp with rfl | hp
            · exact .inl hx
            · exact .inr (.inl ⟨p, hp, hx⟩))
          simpa using this

end Optimize

theorem minimizeValue_cover {n fuel : ℕ} {P : SProg n} {init : Vec n (Interval D)} {limit : D} {Z : Interval D} (hi : ∀ i, Proper (init i))
    (h : minimizeValue fuel P init limit = .ok Z) {x : Fin n → ℝ} (hx : ∀ i, x i ∈ init i) : ∃ I : Vec n (Interval D), (∀ i, x i ∈ I i) ∧ ∃ Y, P.F I = .ok Y := by
  obtain ⟨l, hl, -⟩ := bind_ok.1 h
  obtain ⟨t, ht, -⟩ := bind_ok.1 hl
  have hb := Proper.bdb hi
  exact Optimize.loop_cover hb (s := ⟨[init], [], Rop.maxv, none⟩) (fun p hp => by rw [List.mem_singleton.1 hp]; exact ⟨hb, fun _ h => h⟩)
    (fun p hp => by cases hp) ht x ⟨init, by simp, hx⟩

/-! ## the derivative -/

theorem Proper.hull {X Y : Interval D} (hX : Proper X) (hY : Proper Y) : Proper (Interval.hull X Y) := by
  obtain ⟨x, hx⟩ := hX.2.2
  have := (Allsol.hull_room (I := X) (Y := Y) ⟨hX.1, hX.2.1⟩ ⟨hY.1, hY.2.1⟩ (min_le_left _ _) (min_le_right _ _) (le_max_left _ _) (le_max_right _ _)).1
  exact ⟨this.1, this.2, x, Allsol.hull_mem hx⟩

theorem iteratedDeriv_cont {f : ℝ → ℝ} {y : ℝ} (h : ContDiffAt ℝ (⊤ : ℕ∞) f y) (k : ℕ) : ContinuousAt (iteratedDeriv k f) y := by
  have := ContDiffWithinAt.differentiableWithinAt_iteratedDerivWithin (m := k) h.contDiffWithinAt
    (by exact_mod_cast (WithTop.coe_lt_top (k : ℕ))) (s := Set.univ) (by simp)
  rw [iteratedDerivWithin_univ] at this
  exact (this.differentiableAt Filter.univ_mem).continuousAt

namespace NCotes
variable {fuel fuel' : ℕ} {s1 : PSt (Interval D)} {s2 : PSt (Autodif (Interval D))} {p : ℕ → Interval D} {e : Expr 1} {d : ℕ} {ρ : ℕ → ℝ}

/-- the function is smooth on the interval and the hull of the two values contains all numbers between its extreme derivatives -/
theorem hd_mem {v lo hi : Interval D} {limit : D} (he : e.FinCst) (ht : e.TameE) (h1 : 1 ≤ d) (hd : d + 1 < 2 ^ 31) (hp : ∀ i, ρ i ∈ p i) (hv : Proper v)
    (hlo : minimizeValue fuel (hdProg fuel' s1 s2 p e d) (fun _ => v) limit = .ok lo)
    (hhi : minimizeValue fuel (hdMinus fuel' s1 s2 p e d) (fun _ => v) limit = .ok hi) :
    (∀ x : ℝ, x ∈ v → e.SDom ρ fun _ => x) ∧ ∃ m M : ℝ, (∀ x : ℝ, x ∈ v → m ≤ iteratedDeriv d (fun t => e.real ρ fun _ => t) x ∧ iteratedDeriv d (fun t => e.real ρ fun _ => t) x ≤ M) ∧
      ∀ K, m ≤ K → K ≤ M → K ∈ Interval.hull lo (Interval.neg hi) := by
  have hS : ∀ x : ℝ, x ∈ v → e.SDom ρ fun _ => x := fun x hx => by
    obtain ⟨I, hI, Y, hY⟩ := minimizeValue_cover (fun _ => hv) hlo (x := fun _ => x) (fun _ => hx)
    exact (hdF he ht hd hp hY (hI 0)).1
  refine ⟨hS, ?_⟩
  set g := iteratedDeriv d (fun t => e.real ρ fun _ => t) with hg
  have hset : {x : ℝ | x ∈ v} = Set.Icc (dbl v.inf) (dbl v.sup) := by
    ext x; exact mem_of_bd ⟨hv.1, hv.2.1⟩
  have hne : ({x : ℝ | x ∈ v}).Nonempty := hv.2.2
  have hcomp : IsCompact {x : ℝ | x ∈ v} := by rw [hset]; exact isCompact_Icc
  have hcont : ContinuousOn g {x : ℝ | x ∈ v} := fun x hx =>
    (iteratedDeriv_cont (real_smooth (hS x hx)).self_of_nhds d).continuousWithinAt
  obtain ⟨zm, hzm, hm⟩ := hcomp.exists_isMinOn hne hcont
  obtain ⟨zM, hzM, hM⟩ := hcomp.exists_isMaxOn hne hcont
  have e1 : g zm ∈ lo := C33_value (hdProg_sound he ht h1 hd hp) (fun _ => hv) (fun _ _ => trivial) hlo (z := fun _ => zm)
    ⟨⟨fun _ => hzm, trivial⟩, fun y hy _ => hm (hy 0)⟩
  have e2 : - g zM ∈ hi := C33_value (hdMinus_sound he ht h1 hd hp) (fun _ => hv) (fun _ _ => trivial) hhi (z := fun _ => zM)
    ⟨⟨fun _ => hzM, trivial⟩, fun y hy _ => neg_le_neg (hM (hy 0))⟩
  have e3 : g zM ∈ Interval.neg hi := by simpa using neg_mem e2
  refine ⟨g zm, g zM, fun x hx => ⟨hm hx, hM hx⟩, fun K h2 h3 => ?_⟩
  exact (Kraw.ordConnected_mem _).out (Interval.hull_mem_left e1 e3) (Interval.hull_mem_right e1 e3) ⟨h2, h3⟩

/-! ## the sum -/

theorem entry_mem {a b : ℤ} {c : Interval D} (ha : |a| ≤ 2 ^ 31) (hb : |b| ≤ 2 ^ 31) (h : entry a b = .ok c) : (a : ℝ) / b ∈ c := by
  unfold entry at h
  split_ifs at h with h1
  · cases h
    rw [h1, Int.cast_one, div_one]; exact point_mem (Interval.Is.lit_int (T := D) a ha)
  · exact divS_mem h (point_mem (Interval.Is.lit_int (T := D) a ha)) (Interval.Is.lit_int (T := D) b hb)

theorem coef_mem {n j : ℕ} {c : Interval D} {a b : ℤ} (h : coef n j = .ok c) (ht : (coeff n)[j]? = some (a, b)) (ha : |a| ≤ 2 ^ 31) (hb : |b| ≤ 2 ^ 31) :
    (a : ℝ) / b ∈ c := by
  unfold coef at h
  rw [ht] at h
  exact entry_mem ha hb h

/-- the table contains the coefficients `q` -/
structure Table (n : ℕ) (q : ℕ → ℝ) : Prop where
  first : ∀ c, coef n 0 = .ok c → q 0 ∈ c
  last : ∀ c, coef n n = .ok c → 2 * q 0 ∈ c
  mid : ∀ j, 0 < j → j < n → ∀ c, coef n j = .ok c → q j ∈ c

theorem table1 : Table 1 NC.q1 where
  first c h := by convert coef_mem h rfl (by norm_num) (by norm_num) using 1; norm_num [NC.q1]
  last c h := by convert coef_mem h rfl (by norm_num) (by norm_num) using 1; norm_num [NC.q1]
  mid j h0 h1 c h := by omega

theorem table2 : Table 2 NC.q2 where
  first c h := by convert coef_mem h rfl (by norm_num) (by norm_num) using 1; norm_num [NC.q2]
  last c h := by convert coef_mem h rfl (by norm_num) (by norm_num) using 1; norm_num [NC.q2]
  mid j h0 h1 c h := by
    interval_cases j; convert coef_mem h rfl (by norm_num) (by norm_num) using 1; norm_num [NC.q2]

theorem table4 : Table 4 NC.q4 where
  first c h := by convert coef_mem h rfl (by norm_num) (by norm_num) using 1; norm_num [NC.q4]
  last c h := by convert coef_mem h rfl (by norm_num) (by norm_num) using 1; norm_num [NC.q4]
  mid j h0 h1 c h := by
    interval_cases j <;> (convert coef_mem h rfl (by norm_num) (by norm_num) using 1; norm_num [NC.q4])

theorem table6 : Table 6 NC.q6 where
  first c h := by convert coef_mem h rfl (by norm_num) (by norm_num) using 1; norm_num [NC.q6]
  last c h := by convert coef_mem h rfl (by norm_num) (by norm_num) using 1; norm_num [NC.q6]
  mid j h0 h1 c h := by
    interval_cases j <;> (convert coef_mem h rfl (by norm_num) (by norm_num) using 1; norm_num [NC.q6])

/-- the coefficients of the composite rule -/
noncomputable def wt (n m : ℕ) (q : ℕ → ℝ) (i : ℕ) : ℝ := if i = 0 ∨ i = m then q 0 else NC.comp n q i

theorem weight_mem {n i m : ℕ} {q : ℕ → ℝ} {c : Interval D} (hn : 0 < n) (H : Table n q) (h : weight n i m = .ok c) : wt n m q i ∈ c := by
  unfold weight at h
  unfold wt NC.comp
  split_ifs at h ⊢
  · exact H.first c h
  · exact H.last c h
  · exact H.mid _ (by omega) (Nat.mod_lt _ hn) c h

theorem sum_mem {F : Interval D → Res (Interval D)} {f : ℝ → ℝ} {n m : ℕ} {q : ℕ → ℝ} {start h : Interval D} {a η : ℝ} (hn : 0 < n) (hm : m ≤ 2 ^ 31) (H : Table n q)
    (hF : ∀ X Y i, i ≤ m → F X = .ok Y → a + (i : ℕ) * η ∈ X → f (a + i * η) ∈ Y) (ha : a ∈ start) (hh : η ∈ h) :
    ∀ {k i : ℕ} {r Z : Interval D} {t : ℝ}, i + k ≤ m + 1 → t ∈ r → sum F n m start h k i r = .ok Z →
      t + ∑ l ∈ Finset.range k, wt n m q (i + l) * f (a + (i + l : ℕ) * η) ∈ Z
  | 0, i, r, Z, t, _, ht, h => by cases h; simpa using ht
  | k + 1, i, r, Z, t, hi, ht, h => by
    obtain ⟨c, hc, h⟩ := bind_ok.1 h
    obtain ⟨y, hy, h⟩ := bind_ok.1 h
    have hx : a + (i : ℝ) * η ∈ Interval.add start (Interval.sMul (lit (i : ℚ)) _) := Interval.add_mem ha (Interval.sMul_mem hh (Interval.Is.lit_nat (T := D) (by omega)))
    have := sum_mem hn hm H hF ha hh (by omega) (Interval.add_mem ht (Interval.mul_mem (weight_mem hn H hc) (hF _ _ i (by omega) hy hx))) h
    rw [Finset.sum_range_succ']
    convert this using 1
    simp only [add_zero]
    rw [add_assoc, add_comm (∑ l ∈ Finset.range k, _)]
    refine congrArg _ (congrArg _ (Finset.sum_congr rfl fun l _ => ?_))
    rw [show i + 1 + l = i + (l + 1) by ring]

theorem roundM_ok {n : ℕ} : ∀ {k : ℕ} {m M : ℤ}, roundM n k m = .ok M → m ≤ 2147483647 → m ≤ M ∧ M ≤ 2147483647 ∧ M.tmod n = 0
  | 0, _, _, h, _ => by cases h
  | k + 1, m, M, h, hm => by
    unfold roundM at h
    split_ifs at h with h1 h2
    · cases h; exact ⟨le_refl _, hm, h1⟩
    · obtain ⟨a, b, c⟩ := roundM_ok h (by omega)
      exact ⟨by omega, b, c⟩

theorem wt_sum {n P : ℕ} (hn : 0 < n) (hP : 0 < P) (q : ℕ → ℝ) (v : ℕ → ℝ) :
    ∑ l ∈ Finset.range (n * P + 1), wt n (n * P) q l * v l = ∑ l ∈ Finset.range (n * P + 1), NC.comp n q l * v l - q 0 * v 0 - q 0 * v (n * P) := by
  have hM : 0 < n * P := Nat.mul_pos hn hP
  have key : ∀ l, wt n (n * P) q l * v l = NC.comp n q l * v l - (if l = 0 then q 0 * v 0 else 0) - (if l = n * P then q 0 * v (n * P) else 0) := fun l => by
    unfold wt
    by_cases h0 : l = 0
    · subst h0
      rw [if_pos (.inl rfl), if_pos rfl, if_neg hM.ne]
      unfold NC.comp
      rw [if_pos (Nat.zero_mod n)]; ring
    by_cases h1 : l = n * P
    · subst h1
      rw [if_pos (.inr rfl), if_neg h0, if_pos rfl]
      unfold NC.comp
      rw [if_pos (Nat.mul_mod_right n P)]; ring
    · rw [if_neg (by tauto), if_neg h0, if_neg h1]; ring
  rw [Finset.sum_congr rfl fun l _ => key l, Finset.sum_sub_distrib, Finset.sum_sub_distrib, Finset.sum_ite_eq', Finset.sum_ite_eq']
  simp

open MeasureTheory intervalIntegral in
/-- the whole function, for the formulas with an even order of the derivative and a constant as in the table -/
theorem newtoncotes_mem {n : ℕ} {q : ℕ → ℝ} {κ : ℝ} {lim : D → D} {est : Res ℤ} {start stop Z : Interval D} {m : ℤ} {a b : ℝ}
    (hn : 0 < n) (H : Table n q) (hP : NC.PanelOK n (errord n) κ q) (hκ : 0 ≤ κ) (hq : ∀ j ≤ n, q (n - j) = q j) (hev : Even (errord n))
    (h1 : 1 ≤ errord n) (hd : errord n + 1 < 2 ^ 31) (herr : ∀ c, entry (errterm n).1 (errterm n).2 = .ok c → -κ ∈ c)
    (he : e.FinCst) (ht : e.TameE) (hp : ∀ i, ρ i ∈ p i) (hs : Proper start) (hs' : Proper stop)
    (hm : 0 ≤ m ∧ m ≤ 2147483647) (hest : ∀ k, est = .ok k → 0 ≤ k ∧ k ≤ 2147483647)
    (h : defintNewtoncotes fuel fuel' s1 s2 lim est p e start stop n m = .ok Z) (ha : a ∈ start) (hb : b ∈ stop) :
    (∀ x ∈ Set.uIcc a b, e.SDom ρ fun _ => x) ∧ ∫ x in a..b, e.real ρ (fun _ => x) ∈ Z := by
  unfold defintNewtoncotes at h
  rw [ite_eq_iff] at h
  rcases h with ⟨_, h⟩ | ⟨c1, h⟩
  · cases h
  simp only [Int.toNat_natCast] at h
  obtain ⟨lo, hlo, h⟩ := bind_ok.1 h
  obtain ⟨hi, hhi, h⟩ := bind_ok.1 h
  obtain ⟨m0, hm0, h⟩ := bind_ok.1 h
  obtain ⟨M, hM, h⟩ := bind_ok.1 h
  obtain ⟨η', hη', h⟩ := bind_ok.1 h
  rw [ite_eq_iff] at h
  rcases h with ⟨_, h⟩ | ⟨c2, h⟩
  · cases h
  obtain ⟨r, hr, h⟩ := bind_ok.1 h
  obtain ⟨pw, hpw, h⟩ := bind_ok.1 h
  obtain ⟨er, her, h⟩ := bind_ok.1 h
  cases h
  have hm0' : 0 ≤ m0 ∧ m0 ≤ 2147483647 := by
    split_ifs at hm0 with c3
    · exact hest _ hm0
    · cases hm0; exact hm
  obtain ⟨k1, k2, k3⟩ := roundM_ok hM hm0'.2
  have hvP := hs.hull hs'
  obtain ⟨hS, mn, mx, hbd, hK⟩ := hd_mem he ht h1 hd hp hvP hlo hhi
  have hw : b - a ∈ Interval.sub stop start := Interval.sub_mem hb ha
  have hMI : Is (lit (M : ℚ) : D) M := Interval.Is.lit_int (T := D) M (abs_le.2 ⟨by omega, by omega⟩)
  have hM0 : M ≠ 0 := by
    have := (binC_memI (fuel := fuel') (o := .div) (A := Interval.sub stop start) hη' hw hMI).1
    have this : (M : ℝ) ≠ 0 := this
    exact_mod_cast this
  obtain ⟨P, rfl⟩ : ∃ P : ℕ, M = (n * P : ℕ) := by
    obtain ⟨P, hP⟩ := Int.dvd_of_tmod_eq_zero k3
    refine ⟨P.toNat, ?_⟩
    have : 0 ≤ P := by
      by_contra hc
      have : (n : ℤ) * P < 0 := Int.mul_neg_of_pos_of_neg (by omega) (by omega)
      omega
    push_cast
    rw [Int.toNat_of_nonneg this]; exact hP
  have hP0 : 0 < P := Nat.pos_of_ne_zero fun hc => hM0 (by simp [hc])
  have hMr : ((n * P : ℕ) : ℝ) ≠ 0 := by
    have := Nat.mul_pos hn hP0
    exact_mod_cast this.ne'
  set η : ℝ := (b - a) / ((n * P : ℕ) : ℝ) with hη
  have hηm : η ∈ η' := by
    have := Interval.divS_mem hη' hw hMI
    simpa [hη] using this
  have hend : a + ((n * P : ℕ) : ℝ) * η = b := by rw [hη, mul_div_cancel₀ _ hMr]; ring
  have hsub : ∀ x ∈ Set.uIcc a b, x ∈ Interval.hull start stop := fun x hx =>
    (Kraw.ordConnected_mem _).uIcc_subset (Interval.hull_mem_left ha hb) (Interval.hull_mem_right ha hb) hx
  have hpt : ∀ i : ℕ, i ≤ n * P → a + (i : ℝ) * η ∈ Set.uIcc a b := fun i hi => by
    have h0 : (0 : ℝ) ≤ i / ((n * P : ℕ) : ℝ) := by positivity
    have h1 : (i : ℝ) / ((n * P : ℕ) : ℝ) ≤ 1 := div_le_one_of_le₀ (by exact_mod_cast hi) (by positivity)
    have : a + (i : ℝ) * η = a + (i / ((n * P : ℕ) : ℝ)) * (b - a) := by rw [hη]; ring
    rw [this, Set.mem_uIcc]
    rcases le_total a b with hab | hab
    · left; constructor <;> nlinarith
    · right; constructor <;> nlinarith
  have hSx : ∀ x ∈ Set.uIcc a b, e.SDom ρ fun _ => x := fun x hx => hS x (hsub x hx)
  refine ⟨hSx, ?_⟩
  obtain ⟨K, hK1, hK2, hKe⟩ := hP.composite (a := a) (h := η) (f := fun x => e.real ρ fun _ => x) (m := mn) (M := mx) hev hκ hq hn P hP0
    (by rw [hend]; exact fun y hy => (real_smooth (hSx y hy)).self_of_nhds) (by rw [hend]; exact fun y hy => hbd y (hsub y hy))
  rw [hend] at hKe
  have hsum := sum_mem (f := fun x => e.real ρ fun _ => x) hn (by push_cast at k2; omega) H
    (fun X Y i hi hX hx => ?_) ha hηm (by simp) (t := 0) (point_mem Interval.is_zero) hr
  · have hw2 := wt_sum (n := n) hn hP0 q (fun l => e.real ρ fun _ => a + (l : ℝ) * η)
    simp only [Int.toNat_natCast, show ((n * P : ℕ) + 1 : ℤ).toNat = n * P + 1 by omega, zero_add] at hsum
    rw [hw2] at hsum
    have := Interval.add_mem (Interval.mul_mem hsum hηm)
      (Interval.mul_mem (Interval.mul_mem (Interval.mul_mem (hK K hK1 hK2) hw) (Interval.powInt_mem hpw hηm)) (herr _ her))
    convert this using 1
    have e3 : ((n * P : ℕ) : ℝ) * η = b - a := by linarith
    rw [e3] at hKe
    simp only [Nat.cast_zero, zero_mul, add_zero, hend, zpow_natCast]
    linarith
  · have hi' : i ≤ n * P := by simpa only [Int.toNat_natCast] using hi
    exact @eval_mem _ (semI fuel') _ _ _ _ _ hp (fun _ => hx) _ _ he (hSx _ (hpt i hi')).dom hX

end NCotes
end Kv
