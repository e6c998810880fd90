import Verif.Autodif.Lemmas
import Verif.Analysis.Lin

/-! # Automatic differentiation: soundness of the operations -/

namespace Kv
open RopSem Kv.Interval
open Rop (lit)

/-- The interface of a scalar type together with the meaning of its values: `mem a s` says that the
object `s` stands for (encloses) the real number `a`. -/
class ScalSem (S : Type) extends Scal S where
  mem : ℝ → S → Prop
  bin_mem : ∀ {o : Bin} {A B Z : S} {a b : ℝ}, bin o A B = .ok Z → mem a A → mem b B → o.Dom b ∧ mem (o.real a b) Z
  binC_mem : ∀ {o : Bin} {A Z : S} {k : D} {a c : ℝ}, binC o A k = .ok Z → mem a A → Is k c →
    o.Dom c ∧ mem (o.real a c) Z
  cBin_mem : ∀ {o : Bin} {B Z : S} {k : D} {b c : ℝ}, cBin o k B = .ok Z → mem b B → Is k c →
    o.Dom b ∧ mem (o.real c b) Z
  un_mem : ∀ {f : Un} {A Z : S} {a : ℝ}, un f A = .ok Z → mem a A → f.Dom a → mem (f.real a) Z
  un_ok : ∀ {f : Un} {A Z : S} {a : ℝ}, un f A = .ok Z → mem a A → f.WDom a
  powI_mem : ∀ {A Z : S} {y : ℤ} {a : ℝ}, powI A y = .ok Z → mem a A → (y < 0 → a ≠ 0) ∧ mem (a ^ y) Z
  pow_mem : ∀ {A B Z : S} {a b : ℝ}, pow A B = .ok Z → mem a A → mem b B → 0 < a → mem (a ^ b) Z
  ofC_mem : ∀ {k : D} {c : ℝ}, Is k c → mem c (ofC k)

section
variable {S : Type} [ScalSem S]
open ScalSem

/-- `a ∈ s`: the object `s` stands for the real number `a` -/
local instance : Membership ℝ S := ⟨fun s a => ScalSem.mem a s⟩

/-- the fundamental theorem of interval evaluation -/
theorem eval_mem {n : ℕ} {p : ℕ → S} {X : Fin n → S} {ρ : ℕ → ℝ} {x : Fin n → ℝ}
    (hp : ∀ i, ρ i ∈ p i) (hx : ∀ i, x i ∈ X i) : ∀ {e : Expr n} {Z : S}, e.FinCst → e.Dom ρ x →
    e.eval p X = .ok Z → e.real ρ x ∈ Z := by
  intro e
  induction e with
  | var i => intro Z _ _ h; cases h; exact hx i
  | par i => intro Z _ _ h; cases h; exact hp i
  | cst k => intro Z hf _ h; cases h; exact ofC_mem hf
  | un f a ih =>
    intro Z hf hd h
    obtain ⟨A, hA, h⟩ := bind_ok.1 h
    exact un_mem h (ih hf hd.1 hA) hd.2
  | bin o a b iha ihb =>
    intro Z hf hd h
    obtain ⟨A, hA, h⟩ := bind_ok.1 h
    obtain ⟨B, hB, h⟩ := bind_ok.1 h
    exact (bin_mem h (iha hf.1 hd.1 hA) (ihb hf.2 hd.2.1 hB)).2
  | binC o a k ih =>
    intro Z hf hd h
    obtain ⟨A, hA, h⟩ := bind_ok.1 h
    exact (binC_mem h (ih hf.1 hd.1 hA) hf.2).2
  | cBin o k b ih =>
    intro Z hf hd h
    obtain ⟨A, hA, h⟩ := bind_ok.1 h
    exact (cBin_mem h (ih hf.1 hd.1 hA) hf.2).2
  | powI a y ih =>
    intro Z hf hd h
    obtain ⟨A, hA, h⟩ := bind_ok.1 h
    exact (powI_mem h (ih hf.1 hd.1 hA)).2
  | pow a b iha ihb =>
    intro Z hf hd h
    obtain ⟨A, hA, h⟩ := bind_ok.1 h
    obtain ⟨B, hB, h⟩ := bind_ok.1 h
    exact pow_mem h (iha hf.1 hd.1 hA) (ihb hf.2 hd.2.1 hB) hd.2.2

/-! ## gradients -/

/-- `φ` has at `x` a gradient whose entries lie in the list `d` -/
def GradIn {n : ℕ} (φ : (Fin n → ℝ) → ℝ) (x : Fin n → ℝ) (d : List (S)) : Prop :=
  ∃ (g : Fin n → ℝ) (A : Fin n → S), HasFDerivAt φ (lin g) x ∧ d = List.ofFn A ∧ ∀ j, g j ∈ A j

theorem GradIn.comp {n : ℕ} {φ : (Fin n → ℝ) → ℝ} {x : Fin n → ℝ} {d d' : List (S)} {f : ℝ → ℝ} {c : ℝ}
    (hg : GradIn φ x d) (hf : HasDerivAt f c (φ x)) {h : S → Res (S)} (hd : Autodif.vec1 h d = .ok d')
    (hh : ∀ t A B, t ∈ A → h A = .ok B → c * t ∈ B) : GradIn (fun y => f (φ y)) x d' := by
  obtain ⟨g, A, hg, rfl, hA⟩ := hg
  obtain ⟨B, rfl, hB⟩ := Autodif.vec1_ofFn hd
  refine ⟨fun j => c * g j, B, ?_, rfl, fun j => hh _ _ _ (hA j) (hB j)⟩
  rw [← lin_smul]
  exact hf.comp_hasFDerivAt x hg

theorem GradIn.exists_mem {n : ℕ} (hn : 0 < n) {φ : (Fin n → ℝ) → ℝ} {x : Fin n → ℝ} {d d' : List (S)}
    (hg : GradIn φ x d) {h : S → Res (S)} (hd : Autodif.vec1 h d = .ok d') :
    ∃ t A B, (t : ℝ) ∈ (A : S) ∧ h A = .ok B := by
  obtain ⟨g, A, hg, rfl, hA⟩ := hg
  obtain ⟨B, rfl, hB⟩ := Autodif.vec1_ofFn hd
  exact ⟨_, _, _, hA ⟨0, hn⟩, hB ⟨0, hn⟩⟩

theorem mulLeft {s : S} {c : ℝ} (hs : c ∈ s) : ∀ t A B, t ∈ A → Scal.bin .mul s A = .ok B → c * t ∈ B :=
  fun _ _ _ ht h => (bin_mem h hs ht).2
theorem mulRight {s : S} {c : ℝ} (hs : c ∈ s) : ∀ t A B, t ∈ A → Scal.bin .mul A s = .ok B → c * t ∈ B :=
  fun t _ _ ht h => by rw [mul_comm]; exact (bin_mem h ht hs).2
theorem divBy {s : S} {c : ℝ} (hs : c ∈ s) : ∀ t A B, t ∈ A → Scal.bin .div A s = .ok B → 1 / c * t ∈ B :=
  fun t _ _ ht h => by
    rw [one_div, mul_comm, ← div_eq_mul_inv]; exact (bin_mem h ht hs).2
theorem negEach : ∀ (t : ℝ) (A B : S), t ∈ A → Scal.un .neg A = .ok B → (-1) * t ∈ B :=
  fun t _ _ ht h => by
    have := un_mem (f := .neg) h ht trivial
    rwa [neg_one_mul]


/-- the value and the slope of an elementary function -/
theorem slope_mem {f : Un} {A R s : S} {a : ℝ} (hR : Scal.un f A = .ok R) (ha : a ∈ A)
    (hs : Autodif.slope f A R = .ok s) : (∀ᶠ t in nhds a, f.Dom t) ∧ f.real a ∈ R ∧ ∃ c, HasDerivAt f.real c a ∧ c ∈ s := by
  cases f with
  | neg => cases hs
  | log => cases hs
  | sqrt => cases hs
  | exp =>
    cases hs
    have := un_mem hR ha trivial
    exact ⟨.of_forall fun _ => trivial, this, _, Real.hasDerivAt_exp a, this⟩
  | sin => exact ⟨.of_forall fun _ => trivial, un_mem hR ha trivial, _, Real.hasDerivAt_sin a, un_mem (f := .cos) hs ha trivial⟩
  | cos =>
    obtain ⟨S, hS, hs⟩ := bind_ok.1 hs
    exact ⟨.of_forall fun _ => trivial, un_mem hR ha trivial, _, Real.hasDerivAt_cos a, un_mem (f := .neg) hs (un_mem (f := .sin) hS ha trivial) trivial⟩
  | tan =>
    obtain ⟨C, hC, hs⟩ := bind_ok.1 hs
    obtain ⟨Q, hQ, hs⟩ := bind_ok.1 hs
    have hc : Real.cos a ∈ C := un_mem (f := .cos) hC ha trivial
    have hq := (bin_mem hQ hc hc).2
    obtain ⟨h0, h1⟩ := cBin_mem hs hq is_one
    have hne : Real.cos a ≠ 0 := fun h => h0 (by show Real.cos a * Real.cos a = 0; rw [h]; ring)
    refine ⟨Real.continuous_cos.continuousAt.eventually_ne hne, un_mem hR ha hne, _, Real.hasDerivAt_tan hne, ?_⟩
    rw [sq]; exact h1
  | asin =>
    obtain ⟨Q, hQ, hs⟩ := bind_ok.1 hs
    obtain ⟨Q1, hQ1, hs⟩ := bind_ok.1 hs
    obtain ⟨Q2, hQ2, hs⟩ := bind_ok.1 hs
    have hq : 1 - a * a ∈ Q1 := (cBin_mem hQ1 (bin_mem hQ ha ha).2 is_one).2
    have hq2 : Real.sqrt (1 - a * a) ∈ Q2 := un_mem (f := .sqrt) hQ2 hq (un_ok (f := .sqrt) hQ2 hq)
    obtain ⟨h0, h1⟩ := cBin_mem hs hq2 is_one
    have hpos : 0 < 1 - a * a := by
      by_contra hc; exact h0 (Real.sqrt_eq_zero'.2 (not_lt.1 hc))
    have hl : -1 < a := by nlinarith
    have hr : a < 1 := by nlinarith
    refine ⟨Filter.mem_of_superset (Ioo_mem_nhds hl hr) fun t ht => ⟨ht.1.le, ht.2.le⟩, un_mem hR ha ⟨hl.le, hr.le⟩, _, Real.hasDerivAt_arcsin hl.ne' hr.ne, ?_⟩
    rw [sq]; exact h1
  | acos =>
    obtain ⟨Q, hQ, hs⟩ := bind_ok.1 hs
    obtain ⟨Q1, hQ1, hs⟩ := bind_ok.1 hs
    obtain ⟨Q2, hQ2, hs⟩ := bind_ok.1 hs
    have hq : 1 - a * a ∈ Q1 := (cBin_mem hQ1 (bin_mem hQ ha ha).2 is_one).2
    have hq2 : Real.sqrt (1 - a * a) ∈ Q2 := un_mem (f := .sqrt) hQ2 hq (un_ok (f := .sqrt) hQ2 hq)
    obtain ⟨h0, h1⟩ := cBin_mem hs hq2 is_neg_one
    have hpos : 0 < 1 - a * a := by
      by_contra hc; exact h0 (Real.sqrt_eq_zero'.2 (not_lt.1 hc))
    have hl : -1 < a := by nlinarith
    have hr : a < 1 := by nlinarith
    refine ⟨Filter.mem_of_superset (Ioo_mem_nhds hl hr) fun t ht => ⟨ht.1.le, ht.2.le⟩, un_mem hR ha ⟨hl.le, hr.le⟩, _, Real.hasDerivAt_arccos hl.ne' hr.ne, ?_⟩
    rw [sq, show -(1 / Real.sqrt (1 - a * a)) = -1 / Real.sqrt (1 - a * a) by ring]; exact h1
  | atan =>
    obtain ⟨Q, hQ, hs⟩ := bind_ok.1 hs
    obtain ⟨Q1, hQ1, hs⟩ := bind_ok.1 hs
    have hq : 1 + a * a ∈ Q1 := (cBin_mem hQ1 (bin_mem hQ ha ha).2 is_one).2
    refine ⟨.of_forall fun _ => trivial, un_mem hR ha trivial, _, Real.hasDerivAt_arctan a, ?_⟩
    rw [sq]; exact (cBin_mem hs hq is_one).2
  | sinh => exact ⟨.of_forall fun _ => trivial, un_mem hR ha trivial, _, Real.hasDerivAt_sinh a, un_mem (f := .cosh) hs ha trivial⟩
  | cosh => exact ⟨.of_forall fun _ => trivial, un_mem hR ha trivial, _, Real.hasDerivAt_cosh a, un_mem (f := .sinh) hs ha trivial⟩
  | tanh =>
    obtain ⟨C, hC, hs⟩ := bind_ok.1 hs
    obtain ⟨Q, hQ, hs⟩ := bind_ok.1 hs
    have hc : Real.cosh a ∈ C := un_mem (f := .cosh) hC ha trivial
    have hq := (bin_mem hQ hc hc).2
    exact ⟨.of_forall fun _ => trivial, un_mem hR ha trivial, _, hasDerivAt_tanh a, (cBin_mem hs hq is_one).2⟩
  | asinh =>
    obtain ⟨Q, hQ, hs⟩ := bind_ok.1 hs
    obtain ⟨Q1, hQ1, hs⟩ := bind_ok.1 hs
    obtain ⟨Q2, hQ2, hs⟩ := bind_ok.1 hs
    have hq : a * a + 1 ∈ Q1 := (binC_mem hQ1 (bin_mem hQ ha ha).2 is_one).2
    have hq2 : Real.sqrt (a * a + 1) ∈ Q2 := un_mem (f := .sqrt) hQ2 hq (un_ok (f := .sqrt) hQ2 hq)
    refine ⟨.of_forall fun _ => trivial, un_mem hR ha trivial, _, Real.hasDerivAt_arsinh a, ?_⟩
    rw [sq, add_comm, ← one_div]; exact (cBin_mem hs hq2 is_one).2
  | acosh =>
    obtain ⟨Q, hQ, hs⟩ := bind_ok.1 hs
    obtain ⟨Q1, hQ1, hs⟩ := bind_ok.1 hs
    obtain ⟨Q2, hQ2, hs⟩ := bind_ok.1 hs
    have hq : a * a - 1 ∈ Q1 := (binC_mem hQ1 (bin_mem hQ ha ha).2 is_one).2
    have hq2 : Real.sqrt (a * a - 1) ∈ Q2 := un_mem (f := .sqrt) hQ2 hq (un_ok (f := .sqrt) hQ2 hq)
    obtain ⟨h0, h1⟩ := cBin_mem hs hq2 is_one
    have hpos : 0 < a * a - 1 := by
      by_contra hc; exact h0 (Real.sqrt_eq_zero'.2 (not_lt.1 hc))
    have h1a : 1 ≤ a := un_ok (f := .acosh) hR ha
    have hl : 1 < a := by nlinarith
    refine ⟨Filter.mem_of_superset (Ioi_mem_nhds hl) fun t ht => (le_of_lt ht : (1 : ℝ) ≤ t), un_mem hR ha h1a, _, Real.hasDerivAt_arcosh hl, ?_⟩
    rw [sq, ← one_div]; exact h1
  | atanh =>
    obtain ⟨Q, hQ, hs⟩ := bind_ok.1 hs
    obtain ⟨Q1, hQ1, hs⟩ := bind_ok.1 hs
    have hq : 1 - a * a ∈ Q1 := (cBin_mem hQ1 (bin_mem hQ ha ha).2 is_one).2
    obtain ⟨h0, h1⟩ := cBin_mem hs hq is_one
    obtain ⟨b1, b2⟩ := un_ok (f := .atanh) hR ha
    have hl : -1 < a := lt_of_le_of_ne b1 (fun h => h0 (by show 1 - a * a = 0; rw [← h]; ring))
    have hr : a < 1 := lt_of_le_of_ne b2 (fun h => h0 (by show 1 - a * a = 0; rw [h]; ring))
    exact ⟨Ioo_mem_nhds hl hr, un_mem hR ha ⟨hl, hr⟩, _, hasDerivAt_artanh hl hr, h1⟩

/-- shape of the result of `unary` -/
theorem unary_slope {f : Un} {x r : Autodif (S)} (h1 : f ≠ .neg) (h2 : f ≠ .log) (h3 : f ≠ .sqrt)
    (h : Autodif.unary f x = .ok r) : Scal.un f x.v = .ok r.v ∧
    ∃ s, Autodif.slope f x.v r.v = .ok s ∧ Autodif.scale s x.d = .ok r.d := by
  unfold Autodif.unary at h
  obtain ⟨R, hR, h⟩ := bind_ok.1 h
  cases f <;> first
    | exact absurd rfl h1
    | exact absurd rfl h2
    | exact absurd rfl h3
    | (obtain ⟨s, hs, h⟩ := bind_ok.1 h
       obtain ⟨d, hd, h⟩ := bind_ok.1 h
       cases h
       exact ⟨hR, s, hs, hd⟩)

theorem unary_sound {n : ℕ} (hn : 0 < n) {f : Un} {u r : Autodif (S)} {φ : (Fin n → ℝ) → ℝ} {x : Fin n → ℝ}
    (h : Autodif.unary f u = .ok r) (hv : φ x ∈ u.v) (hg : GradIn φ x u.d) :
    (∀ᶠ t in nhds (φ x), f.Dom t) ∧ f.real (φ x) ∈ r.v ∧ GradIn (fun y => f.real (φ y)) x r.d := by
  by_cases h1 : f = .neg
  · subst h1
    unfold Autodif.unary at h
    obtain ⟨R, hR, h⟩ := bind_ok.1 h
    obtain ⟨d, hd, h⟩ := bind_ok.1 h
    cases h
    exact ⟨.of_forall fun _ => trivial, un_mem hR hv trivial, hg.comp (hasDerivAt_neg _) hd negEach⟩
  by_cases h2 : f = .log
  · subst h2
    unfold Autodif.unary at h
    obtain ⟨R, hR, h⟩ := bind_ok.1 h
    obtain ⟨d, hd, h⟩ := bind_ok.1 h
    cases h
    obtain ⟨t, A, B, ht, hAB⟩ := hg.exists_mem hn hd
    have hne : φ x ≠ 0 := (bin_mem hAB ht hv).1
    have hpos : 0 < φ x := lt_of_le_of_ne (un_ok (f := .log) hR hv) hne.symm
    refine ⟨lt_mem_nhds hpos, un_mem hR hv hpos, hg.comp (c := 1 / φ x) ?_ hd (divBy hv)⟩
    rw [one_div]; exact Real.hasDerivAt_log hne
  by_cases h3 : f = .sqrt
  · subst h3
    unfold Autodif.unary at h
    obtain ⟨R, hR, h⟩ := bind_ok.1 h
    obtain ⟨S, hS, h⟩ := bind_ok.1 h
    obtain ⟨d, hd, h⟩ := bind_ok.1 h
    cases h
    have h0 := un_ok (f := .sqrt) hR hv
    have hr : Real.sqrt (φ x) ∈ R := un_mem (f := .sqrt) hR hv h0
    have hs : 2 * Real.sqrt (φ x) ∈ S := (cBin_mem hS hr is_two).2
    obtain ⟨t, A, B, ht, hAB⟩ := hg.exists_mem hn hd
    have hne : 2 * Real.sqrt (φ x) ≠ 0 := (bin_mem hAB ht hs).1
    have hne' : φ x ≠ 0 := by
      intro h; rw [h, Real.sqrt_zero, mul_zero] at hne; exact hne rfl
    exact ⟨Filter.mem_of_superset (lt_mem_nhds (lt_of_le_of_ne h0 hne'.symm)) fun t ht => (le_of_lt ht : (0 : ℝ) ≤ t), hr, hg.comp (Real.hasDerivAt_sqrt hne') hd (divBy hs)⟩
  obtain ⟨hR, s, hs, hd⟩ := unary_slope h1 h2 h3 h
  obtain ⟨hdom, hval, c, hc, hcs⟩ := slope_mem hR hv hs
  exact ⟨hdom, hval, hg.comp hc hd (mulLeft hcs)⟩

theorem unary_const {f : Un} {u r : Autodif (S)} {a : ℝ} (h : Autodif.unary f u = .ok r) (hv : a ∈ u.v)
    (hd : u.d = []) (hdom : f.Dom a) : f.real a ∈ r.v ∧ r.d = [] := by
  by_cases h1 : f = .neg
  · subst h1
    unfold Autodif.unary at h
    obtain ⟨R, hR, h⟩ := bind_ok.1 h
    obtain ⟨d, hd', h⟩ := bind_ok.1 h
    cases h
    rw [hd] at hd'
    exact ⟨un_mem hR hv trivial, Autodif.vec1_nil hd'⟩
  by_cases h2 : f = .log
  · subst h2
    unfold Autodif.unary at h
    obtain ⟨R, hR, h⟩ := bind_ok.1 h
    obtain ⟨d, hd', h⟩ := bind_ok.1 h
    cases h
    rw [hd] at hd'
    exact ⟨un_mem hR hv hdom, Autodif.vec1_nil hd'⟩
  by_cases h3 : f = .sqrt
  · subst h3
    unfold Autodif.unary at h
    obtain ⟨R, hR, h⟩ := bind_ok.1 h
    obtain ⟨S, hS, h⟩ := bind_ok.1 h
    obtain ⟨d, hd', h⟩ := bind_ok.1 h
    cases h
    rw [hd] at hd'
    exact ⟨un_mem hR hv hdom, Autodif.vec1_nil hd'⟩
  obtain ⟨hR, s, hs, hd'⟩ := unary_slope h1 h2 h3 h
  rw [hd] at hd'
  exact ⟨un_mem hR hv hdom, Autodif.vec1_nil hd'⟩


/-! ## binary operations -/

theorem GradIn.length {n : ℕ} {φ : (Fin n → ℝ) → ℝ} {x : Fin n → ℝ} {d : List (S)} (h : GradIn φ x d) :
    d.length = n := by
  obtain ⟨g, A, -, rfl, -⟩ := h; simp

theorem GradIn.congr {n : ℕ} {φ ψ : (Fin n → ℝ) → ℝ} {x : Fin n → ℝ} {d : List (S)} (h : GradIn φ x d)
    (e : ∀ y, ψ y = φ y) : GradIn ψ x d := by
  rwa [show ψ = φ from funext e]

/-- two gradients combined with coefficients `α`, `β` -/
theorem GradIn.comb {n : ℕ} {φ ψ χ : (Fin n → ℝ) → ℝ} {x : Fin n → ℝ} {d d' r : List (S)} {α β : ℝ}
    (h1 : GradIn φ x d) (h2 : GradIn ψ x d')
    (hχ : ∀ φ' ψ' : (Fin n → ℝ) →L[ℝ] ℝ, HasFDerivAt φ φ' x → HasFDerivAt ψ ψ' x → HasFDerivAt χ (α • φ' + β • ψ') x)
    {f : S → S → Res (S)} (hr : Autodif.vec2 f d d' = .ok r)
    (hf : ∀ s t A B C, s ∈ A → t ∈ B → f A B = .ok C → α * s + β * t ∈ C) : GradIn χ x r := by
  obtain ⟨g, A, hg, rfl, hA⟩ := h1
  obtain ⟨g', A', hg', rfl, hA'⟩ := h2
  obtain ⟨B, rfl, hB⟩ := Autodif.vec2_ofFn hr
  refine ⟨fun j => α * g j + β * g' j, B, ?_, rfl, fun j => hf _ _ _ _ _ (hA j) (hA' j) (hB j)⟩
  rw [← lin_add (fun j => α * g j) (fun j => β * g' j), ← lin_smul, ← lin_smul]
  exact hχ _ _ hg hg'

/-- what the value `r` of an expression means: `c` says whether it is a constant -/
structure AD {n : ℕ} (c : Bool) (φ : (Fin n → ℝ) → ℝ) (x : Fin n → ℝ) (r : Autodif (S)) : Prop where
  val : φ x ∈ r.v
  con : c = true → r.d = [] ∧ ∀ y, φ y = φ x
  grad : c = false → 0 < n ∧ GradIn φ x r.d

theorem AD.len {n : ℕ} {c : Bool} {φ : (Fin n → ℝ) → ℝ} {x : Fin n → ℝ} {r : Autodif (S)} (h : AD c φ x r) :
    r.d.length = 0 ↔ c = true := by
  cases c with
  | true => simp [(h.con rfl).1]
  | false =>
    obtain ⟨h1, h2⟩ := h.grad rfl
    rw [h2.length]; simp; omega

theorem add_sound {n : ℕ} {c c' : Bool} {φ ψ : (Fin n → ℝ) → ℝ} {x : Fin n → ℝ} {u w r : Autodif (S)}
    (hu : AD c φ x u) (hw : AD c' ψ x w) (h : Autodif.add u w = .ok r) :
    AD (c && c') (fun y => φ y + ψ y) x r := by
  unfold Autodif.add at h
  obtain ⟨v, hv, h⟩ := bind_ok.1 h
  have hval := (bin_mem hv hu.val hw.val).2
  simp only [hu.len, hw.len] at h
  cases c with
  | true =>
    rw [if_pos rfl] at h; cases h
    refine ⟨hval, fun hc => ⟨(hw.con hc).1, fun y => ?_⟩, fun hc => ⟨(hw.grad hc).1, ?_⟩⟩
    · rw [(hu.con rfl).2, (hw.con hc).2]
    · obtain ⟨g, A, hg, e, hA⟩ := (hw.grad hc).2
      refine ⟨g, A, ?_, e, hA⟩
      rw [show (fun y => φ y + ψ y) = fun y => φ x + ψ y from funext fun y => by rw [(hu.con rfl).2]]
      exact hg.const_add _
  | false =>
    rw [if_neg (by simp)] at h
    cases c' with
    | true =>
      rw [if_pos rfl] at h; cases h
      refine ⟨hval, fun hc => (by simp at hc), fun _ => ⟨(hu.grad rfl).1, ?_⟩⟩
      obtain ⟨g, A, hg, e, hA⟩ := (hu.grad rfl).2
      refine ⟨g, A, ?_, e, hA⟩
      rw [show (fun y => φ y + ψ y) = fun y => φ y + ψ x from funext fun y => by rw [(hw.con rfl).2]]
      exact hg.add_const _
    | false =>
      rw [if_neg (by simp)] at h
      obtain ⟨d, hd, h⟩ := bind_ok.1 h
      cases h
      refine ⟨hval, fun hc => (by simp at hc), fun _ => ⟨(hu.grad rfl).1, ?_⟩⟩
      refine (hu.grad rfl).2.comb (hw.grad rfl).2 (α := 1) (β := 1) (fun a b ha hb => ?_) hd ?_
      · rw [one_smul, one_smul]; exact ha.add hb
      · intro s t A B C hs ht hh
        rw [one_mul, one_mul]; exact (bin_mem hh hs ht).2

theorem sub_sound {n : ℕ} {c c' : Bool} {φ ψ : (Fin n → ℝ) → ℝ} {x : Fin n → ℝ} {u w r : Autodif (S)}
    (hu : AD c φ x u) (hw : AD c' ψ x w) (h : Autodif.sub u w = .ok r) :
    AD (c && c') (fun y => φ y - ψ y) x r := by
  unfold Autodif.sub at h
  obtain ⟨v, hv, h⟩ := bind_ok.1 h
  have hval := (bin_mem hv hu.val hw.val).2
  simp only [hu.len, hw.len] at h
  cases c with
  | true =>
    rw [if_pos rfl] at h
    obtain ⟨d, hd, h⟩ := bind_ok.1 h
    cases h
    refine ⟨hval, fun hc => ⟨?_, fun y => ?_⟩, fun hc => ⟨(hw.grad hc).1, ?_⟩⟩
    · rw [(hw.con hc).1] at hd; exact Autodif.vec1_nil hd
    · rw [(hu.con rfl).2, (hw.con hc).2]
    · refine ((hw.grad hc).2.comp (f := fun t => φ x - t) (c := -1) ?_ hd negEach).congr fun y => by
        rw [(hu.con rfl).2]
      exact (hasDerivAt_id _).const_sub _
  | false =>
    rw [if_neg (by simp)] at h
    cases c' with
    | true =>
      rw [if_pos rfl] at h; cases h
      refine ⟨hval, fun hc => (by simp at hc), fun _ => ⟨(hu.grad rfl).1, ?_⟩⟩
      obtain ⟨g, A, hg, e, hA⟩ := (hu.grad rfl).2
      refine ⟨g, A, ?_, e, hA⟩
      rw [show (fun y => φ y - ψ y) = fun y => φ y - ψ x from funext fun y => by rw [(hw.con rfl).2]]
      exact hg.sub_const _
    | false =>
      rw [if_neg (by simp)] at h
      obtain ⟨d, hd, h⟩ := bind_ok.1 h
      cases h
      refine ⟨hval, fun hc => (by simp at hc), fun _ => ⟨(hu.grad rfl).1, ?_⟩⟩
      refine (hu.grad rfl).2.comb (hw.grad rfl).2 (α := 1) (β := -1) (fun a b ha hb => ?_) hd ?_
      · rw [show (1 : ℝ) • a + (-1 : ℝ) • b = a - b by ext t; simp [sub_eq_add_neg]]; exact ha.sub hb
      · intro s t A B C hs ht hh
        rw [one_mul, neg_one_mul, ← sub_eq_add_neg]; exact (bin_mem hh hs ht).2

theorem mul_sound {n : ℕ} {c c' : Bool} {φ ψ : (Fin n → ℝ) → ℝ} {x : Fin n → ℝ} {u w r : Autodif (S)}
    (hu : AD c φ x u) (hw : AD c' ψ x w) (h : Autodif.mul u w = .ok r) :
    AD (c && c') (fun y => φ y * ψ y) x r := by
  unfold Autodif.mul at h
  obtain ⟨v, hv, h⟩ := bind_ok.1 h
  have hval := (bin_mem hv hu.val hw.val).2
  simp only [hu.len, hw.len] at h
  cases c with
  | true =>
    rw [if_pos rfl] at h
    obtain ⟨d, hd, h⟩ := bind_ok.1 h
    cases h
    refine ⟨hval, fun hc => ⟨?_, fun y => ?_⟩, fun hc => ⟨(hw.grad hc).1, ?_⟩⟩
    · rw [(hw.con hc).1] at hd; exact Autodif.vec1_nil hd
    · rw [(hu.con rfl).2, (hw.con hc).2]
    · refine ((hw.grad hc).2.comp (f := fun t => φ x * t) (c := φ x) ?_ hd (mulLeft hu.val)).congr fun y => by
        rw [(hu.con rfl).2]
      simpa using (hasDerivAt_id (ψ x)).const_mul (φ x)
  | false =>
    rw [if_neg (by simp)] at h
    cases c' with
    | true =>
      rw [if_pos rfl] at h
      obtain ⟨d, hd, h⟩ := bind_ok.1 h
      cases h
      refine ⟨hval, fun hc => (by simp at hc), fun _ => ⟨(hu.grad rfl).1, ?_⟩⟩
      refine ((hu.grad rfl).2.comp (f := fun t => t * ψ x) (c := ψ x) ?_ hd (mulLeft hw.val)).congr fun y => by
        rw [(hw.con rfl).2]
      simpa using (hasDerivAt_id (φ x)).mul_const (ψ x)
    | false =>
      rw [if_neg (by simp)] at h
      obtain ⟨d, hd, h⟩ := bind_ok.1 h
      cases h
      refine ⟨hval, fun hc => (by simp at hc), fun _ => ⟨(hu.grad rfl).1, ?_⟩⟩
      refine (hu.grad rfl).2.comb (hw.grad rfl).2 (α := ψ x) (β := φ x) (fun a b ha hb => ?_) hd ?_
      · rw [add_comm]; exact ha.mul hb
      · intro s t A B C hs ht hh
        obtain ⟨P, hP, hh⟩ := bind_ok.1 hh
        obtain ⟨Q, hQ, hh⟩ := bind_ok.1 hh
        exact (bin_mem hh (bin_mem hP hw.val hs).2 (bin_mem hQ hu.val ht).2).2

theorem hasDerivAt_cdiv (a : ℝ) {b : ℝ} (hb : b ≠ 0) : HasDerivAt (fun t => a / t) (-a / (b * b)) b := by
  have := (hasDerivAt_inv hb).const_mul a
  simp only [← div_eq_mul_inv] at this
  rw [show a * -(b ^ 2)⁻¹ = -a / (b * b) by rw [sq]; field_simp] at this
  exact this

theorem quot_mem {A B Q : S} {a b : ℝ} (h : Autodif.quot A B = .ok Q) (ha : a ∈ A) (hb : b ∈ B) :
    -a / (b * b) ∈ Q := by
  unfold Autodif.quot at h
  obtain ⟨N, hN, h⟩ := bind_ok.1 h
  obtain ⟨M, hM, h⟩ := bind_ok.1 h
  exact (bin_mem h (un_mem (f := .neg) hN ha trivial) (bin_mem hM hb hb).2).2

theorem div_sound {n : ℕ} {c c' : Bool} {φ ψ : (Fin n → ℝ) → ℝ} {x : Fin n → ℝ} {u w r : Autodif (S)}
    (hu : AD c φ x u) (hw : AD c' ψ x w) (h : Autodif.div u w = .ok r) :
    ψ x ≠ 0 ∧ AD (c && c') (fun y => φ y / ψ y) x r := by
  unfold Autodif.div at h
  obtain ⟨v, hv, h⟩ := bind_ok.1 h
  have hval := (bin_mem hv hu.val hw.val).2
  have hne : ψ x ≠ 0 := (bin_mem hv hu.val hw.val).1
  refine ⟨hne, ?_⟩
  simp only [hu.len, hw.len] at h
  cases c with
  | true =>
    rw [if_pos rfl] at h
    obtain ⟨q, hq, h⟩ := bind_ok.1 h
    obtain ⟨d, hd, h⟩ := bind_ok.1 h
    cases h
    refine ⟨hval, fun hc => ⟨?_, fun y => ?_⟩, fun hc => ⟨(hw.grad hc).1, ?_⟩⟩
    · rw [(hw.con hc).1] at hd; exact Autodif.vec1_nil hd
    · rw [(hu.con rfl).2, (hw.con hc).2]
    · refine ((hw.grad hc).2.comp (f := fun t => φ x / t) (c := -φ x / (ψ x * ψ x)) ?_ hd
        (mulRight (quot_mem hq hu.val hw.val))).congr fun y => by rw [(hu.con rfl).2]
      exact hasDerivAt_cdiv (φ x) hne
  | false =>
    rw [if_neg (by simp)] at h
    cases c' with
    | true =>
      rw [if_pos rfl] at h
      obtain ⟨d, hd, h⟩ := bind_ok.1 h
      cases h
      refine ⟨hval, fun hc => (by simp at hc), fun _ => ⟨(hu.grad rfl).1, ?_⟩⟩
      refine ((hu.grad rfl).2.comp (f := fun t => t / ψ x) (c := 1 / ψ x) ?_ hd (divBy hw.val)).congr fun y => by
        rw [(hw.con rfl).2]
      exact (hasDerivAt_id (φ x)).div_const (ψ x)
    | false =>
      rw [if_neg (by simp)] at h
      obtain ⟨q, hq, h⟩ := bind_ok.1 h
      obtain ⟨d, hd, h⟩ := bind_ok.1 h
      cases h
      refine ⟨hval, fun hc => (by simp at hc), fun _ => ⟨(hu.grad rfl).1, ?_⟩⟩
      refine (hu.grad rfl).2.comb (hw.grad rfl).2 (α := 1 / ψ x) (β := -φ x / (ψ x * ψ x)) (fun a b ha hb => ?_) hd ?_
      · have h1 := ((hasDerivAt_inv hne).comp_hasFDerivAt x hb)
        have h2 := ha.mul h1
        have e : (fun y => φ y / ψ y) = fun y => φ y * ((fun t => t⁻¹) ∘ ψ) y := by
          funext y; simp [div_eq_mul_inv]
        have e2 : (1 / ψ x) • a + (-φ x / (ψ x * ψ x)) • b
            = φ x • (-(ψ x ^ 2)⁻¹ • b) + ((fun t => t⁻¹) ∘ ψ) x • a := by
          ext t
          simp
          field_simp
          ring
        rw [e, e2]
        exact h2
      · intro s t A B C hs ht hh
        obtain ⟨P, hP, hh⟩ := bind_ok.1 hh
        obtain ⟨Q, hQ, hh⟩ := bind_ok.1 hh
        have h1 := divBy hw.val _ _ _ hs hP
        have h2 := mulRight (quot_mem hq hu.val hw.val) _ _ _ ht hQ
        exact (bin_mem hh h1 h2).2

/-! ## mixed operations, powers -/

theorem opC_sound {n : ℕ} {c : Bool} {φ : (Fin n → ℝ) → ℝ} {x : Fin n → ℝ} {u r : Autodif (S)} {o : Bin} {k : D} {a : ℝ}
    (hu : AD c φ x u) (hk : Is k a) (h : Autodif.opC o u k = .ok r) :
    o.Dom a ∧ AD c (fun y => o.real (φ y) a) x r := by
  unfold Autodif.opC at h
  obtain ⟨v, hv, h⟩ := bind_ok.1 h
  obtain ⟨hdom, hval⟩ := binC_mem hv hu.val hk
  refine ⟨hdom, ?_⟩
  have hK : a ∈ (Scal.ofC k : S) := ofC_mem hk
  cases o with
  | add =>
    cases h
    refine ⟨hval, fun hc => ⟨(hu.con hc).1, fun y => by rw [(hu.con hc).2]⟩, fun hc => ⟨(hu.grad hc).1, ?_⟩⟩
    obtain ⟨g, A, hg, e, hA⟩ := (hu.grad hc).2
    exact ⟨g, A, hg.add_const _, e, hA⟩
  | sub =>
    cases h
    refine ⟨hval, fun hc => ⟨(hu.con hc).1, fun y => by rw [(hu.con hc).2]⟩, fun hc => ⟨(hu.grad hc).1, ?_⟩⟩
    obtain ⟨g, A, hg, e, hA⟩ := (hu.grad hc).2
    exact ⟨g, A, hg.sub_const _, e, hA⟩
  | mul =>
    obtain ⟨d, hd, h⟩ := bind_ok.1 h
    cases h
    refine ⟨hval, fun hc => ⟨?_, fun y => by rw [(hu.con hc).2]⟩, fun hc => ⟨(hu.grad hc).1, ?_⟩⟩
    · rw [(hu.con hc).1] at hd; exact Autodif.vec1_nil hd
    · refine (hu.grad hc).2.comp (f := fun t => t * a) (c := a) ?_ hd (mulLeft hK)
      simpa using (hasDerivAt_id (φ x)).mul_const a
  | div =>
    obtain ⟨d, hd, h⟩ := bind_ok.1 h
    cases h
    refine ⟨hval, fun hc => ⟨?_, fun y => by rw [(hu.con hc).2]⟩, fun hc => ⟨(hu.grad hc).1, ?_⟩⟩
    · rw [(hu.con hc).1] at hd; exact Autodif.vec1_nil hd
    · exact (hu.grad hc).2.comp (f := fun t => t / a) (c := 1 / a) ((hasDerivAt_id (φ x)).div_const a) hd (divBy hK)

theorem cOp_sound {n : ℕ} {c : Bool} {φ : (Fin n → ℝ) → ℝ} {x : Fin n → ℝ} {u r : Autodif (S)} {o : Bin} {k : D} {a : ℝ}
    (hu : AD c φ x u) (hk : Is k a) (h : Autodif.cOp o k u = .ok r) :
    o.Dom (φ x) ∧ AD c (fun y => o.real a (φ y)) x r := by
  unfold Autodif.cOp at h
  obtain ⟨v, hv, h⟩ := bind_ok.1 h
  obtain ⟨hdom, hval⟩ := cBin_mem hv hu.val hk
  refine ⟨hdom, ?_⟩
  have hK : a ∈ (Scal.ofC k : S) := ofC_mem hk
  cases o with
  | add =>
    cases h
    refine ⟨hval, fun hc => ⟨(hu.con hc).1, fun y => by rw [(hu.con hc).2]⟩, fun hc => ⟨(hu.grad hc).1, ?_⟩⟩
    obtain ⟨g, A, hg, e, hA⟩ := (hu.grad hc).2
    exact ⟨g, A, hg.const_add _, e, hA⟩
  | sub =>
    obtain ⟨d, hd, h⟩ := bind_ok.1 h
    cases h
    refine ⟨hval, fun hc => ⟨?_, fun y => by rw [(hu.con hc).2]⟩, fun hc => ⟨(hu.grad hc).1, ?_⟩⟩
    · rw [(hu.con hc).1] at hd; exact Autodif.vec1_nil hd
    · exact (hu.grad hc).2.comp (f := fun t => a - t) (c := -1) ((hasDerivAt_id _).const_sub _) hd negEach
  | mul =>
    obtain ⟨d, hd, h⟩ := bind_ok.1 h
    cases h
    refine ⟨hval, fun hc => ⟨?_, fun y => by rw [(hu.con hc).2]⟩, fun hc => ⟨(hu.grad hc).1, ?_⟩⟩
    · rw [(hu.con hc).1] at hd; exact Autodif.vec1_nil hd
    · refine (hu.grad hc).2.comp (f := fun t => a * t) (c := a) ?_ hd (mulLeft hK)
      simpa using (hasDerivAt_id (φ x)).const_mul a
  | div =>
    obtain ⟨q1, hq1, h⟩ := bind_ok.1 h
    obtain ⟨q, hq, h⟩ := bind_ok.1 h
    obtain ⟨d, hd, h⟩ := bind_ok.1 h
    cases h
    refine ⟨hval, fun hc => ⟨?_, fun y => by rw [(hu.con hc).2]⟩, fun hc => ⟨(hu.grad hc).1, ?_⟩⟩
    · rw [(hu.con hc).1] at hd; exact Autodif.vec1_nil hd
    · have hq' : -a / (φ x * φ x) ∈ q := (cBin_mem hq (bin_mem hq1 hu.val hu.val).2 (is_neg hk)).2
      refine (hu.grad hc).2.comp (f := fun t => a / t) (c := -a / (φ x * φ x)) ?_ hd (mulRight hq')
      exact hasDerivAt_cdiv a hdom

theorem powI_sound {n : ℕ} {c : Bool} {φ : (Fin n → ℝ) → ℝ} {x : Fin n → ℝ} {u r : Autodif (S)} {y : ℤ} (hy : |y| < 2 ^ 31)
    (hu : AD c φ x u) (h : Autodif.powI u y = .ok r) :
    (y < 0 → φ x ≠ 0) ∧ AD c (fun t => φ t ^ y) x r := by
  unfold Autodif.powI at h
  obtain ⟨v, hv, h⟩ := bind_ok.1 h
  obtain ⟨hne, hval⟩ := powI_mem hv hu.val
  refine ⟨hne, ?_⟩
  split_ifs at h with h0
  · obtain ⟨d, hd, h⟩ := bind_ok.1 h
    cases h
    refine ⟨hval, fun hc => ⟨?_, fun y => by rw [(hu.con hc).2]⟩, fun hc => ⟨(hu.grad hc).1, ?_⟩⟩
    · rw [(hu.con hc).1] at hd; exact Autodif.vec1_nil hd
    · refine (hu.grad hc).2.comp (f := fun t => t ^ y) (c := 0) ?_ hd (mulLeft (ofC_mem is_zero))
      simpa [h0] using hasDerivAt_const (φ x) (1 : ℝ)
  · obtain ⟨p, hp, h⟩ := bind_ok.1 h
    obtain ⟨s, hs, h⟩ := bind_ok.1 h
    obtain ⟨d, hd, h⟩ := bind_ok.1 h
    cases h
    refine ⟨hval, fun hc => ⟨?_, fun y => by rw [(hu.con hc).2]⟩, fun hc => ⟨(hu.grad hc).1, ?_⟩⟩
    · rw [(hu.con hc).1] at hd; exact Autodif.vec1_nil hd
    · have hk : Is (lit (y : ℚ) : D) (y : ℝ) := Is.lit_int (T := D) y hy.le
      have hs' : (y : ℝ) * φ x ^ (y - 1) ∈ s := (cBin_mem hs ((powI_mem hp hu.val).2) hk).2
      refine (hu.grad hc).2.comp (f := fun t => t ^ y) (c := y * φ x ^ (y - 1)) ?_ hd (mulLeft hs')
      refine hasDerivAt_zpow y (φ x) ?_
      by_cases hy0 : y < 0
      · exact Or.inl (hne hy0)
      · exact Or.inr (by omega)

theorem AD.continuousAt {n : ℕ} {c : Bool} {φ : (Fin n → ℝ) → ℝ} {x : Fin n → ℝ} {r : Autodif (S)} (h : AD c φ x r) :
    ContinuousAt φ x := by
  cases c with
  | true =>
    rw [show φ = fun _ => φ x from funext (h.con rfl).2]; exact continuousAt_const
  | false => obtain ⟨g, A, hg, -, -⟩ := (h.grad rfl).2; exact hg.continuousAt

theorem unary_ad {n : ℕ} {c : Bool} {φ : (Fin n → ℝ) → ℝ} {x : Fin n → ℝ} {u r : Autodif (S)} {f : Un}
    (hu : AD c φ x u) (hd : c = true → f.Dom (φ x)) (h : Autodif.unary f u = .ok r) :
    (∀ᶠ y in nhds x, f.Dom (φ y)) ∧ AD c (fun y => f.real (φ y)) x r := by
  cases c with
  | true =>
    obtain ⟨h1, h2⟩ := unary_const h hu.val (hu.con rfl).1 (hd rfl)
    exact ⟨.of_forall fun y => by rw [(hu.con rfl).2 y]; exact hd rfl, ⟨h1, fun _ => ⟨h2, fun y => by rw [(hu.con rfl).2]⟩, fun h => by cases h⟩⟩
  | false =>
    obtain ⟨h0, hg⟩ := hu.grad rfl
    obtain ⟨h1, h2, h3⟩ := unary_sound h0 h hu.val hg
    exact ⟨hu.continuousAt.eventually h1, ⟨h2, fun h => (by cases h), fun _ => ⟨h0, h3⟩⟩⟩

theorem AD.congr {n : ℕ} {c : Bool} {φ ψ : (Fin n → ℝ) → ℝ} {x : Fin n → ℝ} {r : Autodif (S)} (h : AD c φ x r)
    (e : ∀ y, φ y = ψ y) : AD c ψ x r := by
  rwa [← show φ = ψ from funext e]

/-- equality near the point is enough when the gradient is concerned -/
theorem AD.congr_near {n : ℕ} {c : Bool} {φ ψ : (Fin n → ℝ) → ℝ} {x : Fin n → ℝ} {r : Autodif (S)} (h : AD c φ x r)
    (e : φ =ᶠ[nhds x] ψ) (hc : c = true → ∀ y, φ y = ψ y) : AD c ψ x r := by
  refine ⟨e.eq_of_nhds ▸ h.val, fun h1 => ⟨(h.con h1).1, fun y => ?_⟩, fun h1 => ⟨(h.grad h1).1, ?_⟩⟩
  · rw [← hc h1, ← hc h1]; exact (h.con h1).2 y
  · obtain ⟨g, A, hg, e', hA⟩ := (h.grad h1).2
    exact ⟨g, A, hg.congr_of_eventuallyEq e.symm, e', hA⟩

theorem pow_sound {n : ℕ} {c c' : Bool} {φ ψ : (Fin n → ℝ) → ℝ} {x : Fin n → ℝ} {u w r : Autodif (S)}
    (hu : AD c φ x u) (hw : AD c' ψ x w) (hd : c = true → 0 < φ x) (h : Autodif.pow u w = .ok r) :
    0 < φ x ∧ AD (c && c') (fun y => φ y ^ ψ y) x r := by
  unfold Autodif.pow at h
  obtain ⟨l, hl, h⟩ := bind_ok.1 h
  obtain ⟨m, hm, h⟩ := bind_ok.1 h
  obtain ⟨hpos, h1⟩ := unary_ad (f := .log) hu hd hl
  replace hpos := hpos.self_of_nhds
  have hpos : 0 < φ x := hpos
  have h2 := (unary_ad (f := .exp) (mul_sound hw h1 hm) (fun _ => trivial) h).2
  rw [Bool.and_comm] at h2
  refine ⟨hpos, h2.congr_near ?_ ?_⟩
  · filter_upwards [hu.continuousAt.eventually (lt_mem_nhds hpos)] with y hy
    show Real.exp (ψ y * Real.log (φ y)) = _
    rw [Real.rpow_def_of_pos hy, mul_comm]
  · intro hc y
    rw [Bool.and_eq_true] at hc
    show Real.exp (ψ y * Real.log (φ y)) = _
    rw [Real.rpow_def_of_pos (by rw [(hu.con hc.1).2]; exact hpos), mul_comm]

/-! ## expressions -/

/-- soundness of automatic differentiation; the expression is defined at the point and nearby -/
theorem evalAD_near {n : ℕ} {p : ℕ → S} {X : Fin n → S} {ρ : ℕ → ℝ} {x : Fin n → ℝ} (hp : ∀ i, ρ i ∈ p i)
    (hx : ∀ i, x i ∈ X i) : ∀ {e : Expr n} {r : Autodif (S)}, e.FinCst → e.ConstDom ρ →
    e.eval (fun i => Autodif.lift (p i)) (Autodif.init X) = .ok r → (∀ᶠ y in nhds x, e.Dom ρ y) ∧ AD e.closed (fun y => e.real ρ y) x r := by
  intro e
  induction e with
  | var i =>
    intro r _ _ h; cases h
    refine ⟨.of_forall fun _ => trivial, hx i, fun h => (by cases h), fun _ => ⟨i.pos, fun j => if i = j then 1 else 0, _, ?_, rfl, fun j => ?_⟩⟩
    · have : lin (fun j => if i = j then (1 : ℝ) else 0) = ContinuousLinearMap.proj i := by
        ext y; rw [lin_apply]; simp
      rw [this]; exact (ContinuousLinearMap.proj (R := ℝ) (φ := fun _ : Fin n => ℝ) i).hasFDerivAt
    · dsimp only
      split_ifs
      · exact ofC_mem is_one
      · exact ofC_mem is_zero
  | par i =>
    intro r _ _ h; cases h
    exact ⟨.of_forall fun _ => trivial, hp i, fun _ => ⟨rfl, fun _ => rfl⟩, fun h => by cases h⟩
  | cst k =>
    intro r hf _ h; cases h
    exact ⟨.of_forall fun _ => trivial, ofC_mem hf, fun _ => ⟨rfl, fun _ => rfl⟩, fun h => by cases h⟩
  | un f a ih =>
    intro r hf hc h
    obtain ⟨u, hu, h⟩ := bind_ok.1 h
    obtain ⟨d1, h1⟩ := ih hf hc.1 hu
    obtain ⟨d2, h2⟩ := unary_ad h1 (fun hcl => by rw [Expr.real_closed hcl x 0]; exact hc.2 hcl) h
    exact ⟨d1.and d2, h2⟩
  | bin o a b iha ihb =>
    intro r hf hc h
    obtain ⟨u, hu, h⟩ := bind_ok.1 h
    obtain ⟨w, hw, h⟩ := bind_ok.1 h
    obtain ⟨d1, h1⟩ := iha hf.1 hc.1 hu
    obtain ⟨d2, h2⟩ := ihb hf.2 hc.2 hw
    cases o with
    | add => exact ⟨d1.and (d2.and (.of_forall fun _ => trivial)), add_sound h1 h2 h⟩
    | sub => exact ⟨d1.and (d2.and (.of_forall fun _ => trivial)), sub_sound h1 h2 h⟩
    | mul => exact ⟨d1.and (d2.and (.of_forall fun _ => trivial)), mul_sound h1 h2 h⟩
    | div =>
      obtain ⟨d3, h3⟩ := div_sound h1 h2 h
      exact ⟨d1.and (d2.and (h2.continuousAt.eventually_ne d3)), h3⟩
  | binC o a k ih =>
    intro r hf hc h
    obtain ⟨u, hu, h⟩ := bind_ok.1 h
    obtain ⟨d1, h1⟩ := ih hf.1 hc hu
    obtain ⟨d2, h2⟩ := opC_sound h1 hf.2 h
    exact ⟨d1.and (.of_forall fun _ => d2), h2⟩
  | cBin o k b ih =>
    intro r hf hc h
    obtain ⟨u, hu, h⟩ := bind_ok.1 h
    obtain ⟨d1, h1⟩ := ih hf.1 hc hu
    obtain ⟨d2, h2⟩ := cOp_sound h1 hf.2 h
    refine ⟨d1.and ?_, h2⟩
    cases o with
    | div => exact h1.continuousAt.eventually_ne d2
    | add => exact .of_forall fun _ => trivial
    | sub => exact .of_forall fun _ => trivial
    | mul => exact .of_forall fun _ => trivial
  | powI a y ih =>
    intro r hf hc h
    obtain ⟨u, hu, h⟩ := bind_ok.1 h
    obtain ⟨d1, h1⟩ := ih hf.1 hc hu
    obtain ⟨d2, h2⟩ := powI_sound hf.2 h1 h
    refine ⟨d1.and ?_, h2⟩
    by_cases hy : y < 0
    · exact (h1.continuousAt.eventually_ne (d2 hy)).mono fun _ h _ => h
    · exact .of_forall fun _ h => absurd h hy
  | pow a b iha ihb =>
    intro r hf hc h
    obtain ⟨u, hu, h⟩ := bind_ok.1 h
    obtain ⟨w, hw, h⟩ := bind_ok.1 h
    obtain ⟨d1, h1⟩ := iha hf.1 hc.1 hu
    obtain ⟨d2, h2⟩ := ihb hf.2 hc.2.1 hw
    obtain ⟨d3, h3⟩ := pow_sound h1 h2 (fun hcl => by rw [Expr.real_closed hcl x 0]; exact hc.2.2 hcl) h
    exact ⟨d1.and (d2.and (h1.continuousAt.eventually (lt_mem_nhds d3))), h3⟩

theorem evalAD_sound {n : ℕ} {p : ℕ → S} {X : Fin n → S} {ρ : ℕ → ℝ} {x : Fin n → ℝ} (hp : ∀ i, ρ i ∈ p i)
    (hx : ∀ i, x i ∈ X i) {e : Expr n} {r : Autodif (S)} (hf : e.FinCst) (hc : e.ConstDom ρ)
    (h : e.eval (fun i => Autodif.lift (p i)) (Autodif.init X) = .ok r) : e.Dom ρ x ∧ AD e.closed (fun y => e.real ρ y) x r :=
  ⟨(evalAD_near hp hx hf hc h).1.self_of_nhds, (evalAD_near hp hx hf hc h).2⟩

/-! ## vectors, `compress`, `expand` -/

theorem row_nil {n : ℕ} {r : Autodif S} (h : r.d = []) (j : Fin n) : (0 : ℝ) ∈ Autodif.row n r j := by
  unfold Autodif.row; rw [h]; exact ofC_mem is_zero

theorem row_ofFn {n : ℕ} {r : Autodif S} {A : Fin n → S} (h : r.d = List.ofFn A) (j : Fin n) : Autodif.row n r j = A j := by
  unfold Autodif.row; rw [h]; simp

/-- a gradient exists in any case -/
theorem AD.row {n : ℕ} {c : Bool} {φ : (Fin n → ℝ) → ℝ} {x : Fin n → ℝ} {r : Autodif S} (h : AD c φ x r) :
    ∃ g : Fin n → ℝ, HasFDerivAt φ (lin g) x ∧ ∀ j, g j ∈ Autodif.row n r j := by
  cases c with
  | true =>
    refine ⟨fun _ => 0, ?_, row_nil (h.con rfl).1⟩
    rw [lin_zero, show φ = fun _ => φ x from funext (h.con rfl).2]
    exact hasFDerivAt_const _ _
  | false =>
    obtain ⟨g, A, hg, e, hA⟩ := (h.grad rfl).2
    exact ⟨g, hg, fun j => row_ofFn e j ▸ hA j⟩

theorem dotFrom_mem : ∀ {n : ℕ} {t : S} {A B : Fin n → S} {Z : S} {z : ℝ} {a b : Fin n → ℝ}, z ∈ t → (∀ i, a i ∈ A i) →
    (∀ i, b i ∈ B i) → Autodif.dotFrom t (List.ofFn A) (List.ofFn B) = .ok Z → z + ∑ i, a i * b i ∈ Z := by
  intro n
  induction n with
  | zero => intro t A B Z z a b hz ha hb h; simp only [List.ofFn_zero, Autodif.dotFrom] at h; cases h; simpa using hz
  | succ n ih =>
    intro t A B Z z a b hz ha hb h
    rw [List.ofFn_succ, List.ofFn_succ, Autodif.dotFrom] at h
    obtain ⟨p, hp, h⟩ := bind_ok.1 h
    obtain ⟨t', ht', h⟩ := bind_ok.1 h
    have := ih (bin_mem ht' hz (bin_mem hp (ha 0) (hb 0)).2).2 (fun i => ha i.succ) (fun i => hb i.succ) h
    rw [Fin.sum_univ_succ, ← add_assoc]
    exact this

omit [ScalSem S] in
theorem seq_ok : ∀ {m : ℕ} {f : Fin m → Res S} {r : List S}, Autodif.seq m f = .ok r →
    ∃ A : Fin m → S, r = List.ofFn A ∧ ∀ j, f j = .ok (A j)
  | 0, f, r, h => by
    rw [Autodif.seq] at h; cases h
    exact ⟨Fin.elim0, by simp, fun j => j.elim0⟩
  | m + 1, f, r, h => by
    rw [Autodif.seq] at h
    obtain ⟨a, ha, h⟩ := bind_ok.1 h
    obtain ⟨t, ht, h⟩ := bind_ok.1 h
    cases h
    obtain ⟨A, rfl, hA⟩ := seq_ok ht
    refine ⟨Fin.cons a A, by simp [List.ofFn_succ], fun j => ?_⟩
    refine Fin.cases ?_ (fun j => ?_) j
    · simpa using ha
    · simpa using hA j

/-- the chain rule behind `compress`/`expand` -/
theorem expand_sound {n m : ℕ} {ψ : (Fin n → ℝ) → ℝ} {φ : Fin n → (Fin m → ℝ) → ℝ} {t : Fin m → ℝ} {u r : Autodif S}
    {x : Fin n → Autodif S} {c : Fin n → Bool} (hx : ∀ i, AD (c i) (φ i) t (x i)) (hv : ψ (fun i => φ i t) ∈ u.v)
    (hg : GradIn ψ (fun i => φ i t) u.d) (h : Autodif.expand u (Autodif.save m x) = .ok r) :
    ψ (fun i => φ i t) ∈ r.v ∧ GradIn (fun s => ψ (fun i => φ i s)) t r.d := by
  unfold Autodif.expand at h
  obtain ⟨d, hd, h⟩ := bind_ok.1 h
  cases h
  refine ⟨hv, ?_⟩
  obtain ⟨g, A, hg, e, hA⟩ := hg
  obtain ⟨B, rfl, hB⟩ := seq_ok hd
  choose G hG hGm using fun i => (hx i).row
  refine ⟨fun k => 0 + ∑ i, g i * G i k, B, ?_, rfl, fun k => ?_⟩
  · have h1 : HasFDerivAt (fun s i => φ i s) (ContinuousLinearMap.pi fun i => lin (G i)) t := hasFDerivAt_pi.2 hG
    have h2 := HasFDerivAt.comp t (g := ψ) hg h1
    have e3 : lin (fun k => 0 + ∑ i, g i * G i k) = (lin g).comp (ContinuousLinearMap.pi fun i => lin (G i)) := by
      ext y
      simp only [ContinuousLinearMap.comp_apply, lin_apply, ContinuousLinearMap.pi_apply, zero_add, Finset.mul_sum, Finset.sum_mul]
      rw [Finset.sum_comm]
      simp only [mul_assoc]
    rw [e3]
    exact h2
  · have := hB k
    rw [e] at this
    exact dotFrom_mem (ofC_mem is_zero) hA (fun i => hGm i k) this

end

end Kv
