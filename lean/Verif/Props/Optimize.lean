import Verif.Solver.OptimizeLemmas
import Verif.Props.AllsolSimple

/-!
# C33, C53: global minimisation (`optimize`, `minimize`, `maximize`, `minimize_value`, ..)

`f` is a real function, defined where `dom` holds, with enclosures computed by `P` (`SProg.Sound`).  `minimize .. = .ok l`: the
search ends and returns the boxes `l`.  C53 (the search ends) is false: `C53_violated`.
-/

namespace Kv
open RopSem Kv.Interval
open Rop (lit)
open LA

variable {n : ℕ} {P : SProg n} {dom : (Fin n → ℝ) → Prop} {f : (Fin n → ℝ) → ℝ} {fuel fuel' : ℕ} {init : Vec n (Interval D)} {limit : D} {uni : Bool}
  {l : List (Vec n (Interval D))} {z : Fin n → ℝ}

/-- an interval with two finite end points in the right order -/
def Proper (Z : Interval D) : Prop := FinD Z.inf ∧ FinD Z.sup ∧ ∃ x : ℝ, x ∈ Z

/-- `z` is a point of the box where `f` is defined and has its least value among such points -/
def Minimiser (dom : (Fin n → ℝ) → Prop) (f : (Fin n → ℝ) → ℝ) (init : Vec n (Interval D)) (z : Fin n → ℝ) : Prop :=
  ((∀ i, z i ∈ init i) ∧ dom z) ∧ ∀ y : Fin n → ℝ, (∀ i, y i ∈ init i) → dom y → f z ≤ f y

theorem Proper.bdb (h : ∀ i, Proper (init i)) : Optimize.BdB init := fun i => ⟨⟨(h i).1, (h i).2.1⟩, (h i).2.2⟩

theorem Minimiser.isMin (h : Minimiser dom f init z) : Optimize.IsMin dom f init z := ⟨h.1.1, h.1.2, h.2⟩

/-- C33: every minimiser of `f` over the initial box is in a returned box. -/
theorem C33 (hP : P.Sound dom f) (hi : ∀ i, Proper (init i)) (h : minimize fuel P init limit uni = .ok l) (hz : Minimiser dom f init z) :
    ∃ B ∈ l, ∀ i, z i ∈ B i := by
  obtain ⟨t, ht, h⟩ := bind_ok.1 h
  cases h
  have hb := Proper.bdb hi
  have h0 : Optimize.Ok init init := ⟨hb, fun _ h => h⟩
  exact (Optimize.loop_ok hb (s := ⟨[init], [], Rop.maxv, none⟩) (fun p hp => by rw [List.mem_singleton.1 hp]; exact h0) (fun p hp => by cases hp) ht).2.2.2 (f z) z
    (fun hI hd he => Optimize.examine_ok hP hb hI.1 hI.2 hz.isMin hd he) (Optimize.deltaOk_max _) (.inl ⟨init, by simp, hz.1.1⟩)

/-- C33 for `minimize_nd`, which uses no derivatives; the function has to be defined on the whole box. -/
theorem C33_nd (hP : P.Sound dom f) (hi : ∀ i, Proper (init i)) (hd : ∀ x : Fin n → ℝ, (∀ i, x i ∈ init i) → dom x)
    (h : minimizeNd fuel P init limit uni = .ok l) (hz : Minimiser dom f init z) : ∃ B ∈ l, ∀ i, z i ∈ B i := by
  obtain ⟨t, ht, h⟩ := bind_ok.1 h
  cases h
  have hb := Proper.bdb hi
  have h0 : Optimize.Ok init init := ⟨hb, fun _ h => h⟩
  exact (Optimize.loop_ok hb (s := ⟨[init], [], Rop.maxv, none⟩) (fun p hp => by rw [List.mem_singleton.1 hp]; exact h0) (fun p hp => by cases hp) ht).2.2.2 (f z) z
    (fun hI hdel he => Optimize.examineNd_ok hP.val hd hI.1 hI.2 hz.isMin hdel he) (Optimize.deltaOk_max _) (.inl ⟨init, by simp, hz.1.1⟩)

/-- the returned boxes: proper boxes in the initial one; without `unify` they are narrower than `limit`, with `unify` no two of them have a common point -/
structure Returned (init : Vec n (Interval D)) (limit : D) (uni : Bool) (l : List (Vec n (Interval D))) : Prop where
  proper : ∀ B ∈ l, ∀ i, Proper (B i)
  sub : ∀ B ∈ l, ∀ x : Fin n → ℝ, (∀ i, x i ∈ B i) → ∀ i, x i ∈ init i
  narrow : uni = false → ∀ B ∈ l, ∀ i, ∀ x y : ℝ, x ∈ B i → y ∈ B i → ((x - y : ℝ) : EReal) < val limit
  apart : uni = true → l.Pairwise fun B B' => ∀ x : Fin n → ℝ, ¬ ((∀ i, x i ∈ B i) ∧ ∀ i, x i ∈ B' i)

theorem returned_of {ex : D → Vec n (Interval D) → Res (Option (Bool × D))} {t : Optimize.St n} (hi : ∀ i, Proper (init i))
    (ht : Optimize.loop ex uni limit fuel ⟨[init], [], Rop.maxv, none⟩ = .ok t) : Returned init limit uni t.solutions := by
  have hb := Proper.bdb hi
  have h0 : Optimize.Ok init init := ⟨hb, fun _ h => h⟩
  obtain ⟨h1, h2, h3, -⟩ := Optimize.loop_ok hb (s := ⟨[init], [], Rop.maxv, none⟩) (fun p hp => by rw [List.mem_singleton.1 hp]; exact h0) (fun p hp => by cases hp) ht
  refine ⟨fun B hB i => ⟨((h1 B hB).1 i).1.1, ((h1 B hB).1 i).1.2, ((h1 B hB).1 i).2⟩, fun B hB x hx => (h1 B hB).2 x hx, fun hu B hB i x y hx hy => ?_, fun hu => ?_⟩
  · have hlt := h3 hu (fun p hp => by cases hp) B hB i
    have hw := C09_width hx hy
    rw [lt_iff] at hlt
    exact lt_of_le_of_lt ((EReal.coe_le_coe_iff.2 (le_abs_self _)).trans hw.2) hlt.2.2
  · refine (h2 hu List.Pairwise.nil).imp_of_mem fun {B B'} hB hB' ho x hx =>
      overlapV_false (fun i => ⟨x i, hx.1 i⟩) (fun i => ⟨x i, hx.2 i⟩) ho x hx

theorem C33_boxes (hi : ∀ i, Proper (init i)) (h : minimize fuel P init limit uni = .ok l) : Returned init limit uni l := by
  obtain ⟨t, ht, h⟩ := bind_ok.1 h
  cases h
  exact returned_of hi ht

theorem C33_nd_boxes (hi : ∀ i, Proper (init i)) (h : minimizeNd fuel P init limit uni = .ok l) : Returned init limit uni l := by
  obtain ⟨t, ht, h⟩ := bind_ok.1 h
  cases h
  exact returned_of hi ht

theorem value_of (hP : P.Sound dom f) (hd : ∀ x : Fin n → ℝ, (∀ i, x i ∈ init i) → dom x) (hr : Returned init limit uni l) (hB : ∃ B ∈ l, ∀ i, z i ∈ B i)
    {Z : Interval D} (h : Optimize.values P l Rop.inf Rop.inf = .ok Z) (hz : Minimiser dom f init z) : f z ∈ Z := by
  have hinf : val (Rop.inf : D) = ⊤ := val_dPinf
  have hn : ¬ nan (Rop.inf : D) := not_nan_dPinf
  refine Optimize.values_ok h (fun p hp Y hY => ?_) ⟨hn, ?_⟩ hn (.inr ?_)
  · choose x hx using fun i => (hr.proper p hp i).2.2
    have hxi := hr.sub p hp x hx
    have := (hP.val hY hx (hd x hxi)).2
    exact ⟨this.1, (EReal.coe_le_coe_iff.2 (hz.2 x hxi (hd x hxi))).trans this.2⟩
  · rw [hinf]; exact le_top
  · obtain ⟨B, hB, hzB⟩ := hB
    exact ⟨B, hB, fun Y hY => (hP.val hY hzB hz.1.2).1⟩

/-- C33: `minimize_value` contains the minimum of a function which is defined on the whole box. -/
theorem C33_value (hP : P.Sound dom f) (hi : ∀ i, Proper (init i)) (hd : ∀ x : Fin n → ℝ, (∀ i, x i ∈ init i) → dom x)
    {Z : Interval D} (h : minimizeValue fuel P init limit = .ok Z) (hz : Minimiser dom f init z) : f z ∈ Z := by
  obtain ⟨l, hl, h⟩ := bind_ok.1 h
  have hr := C33_boxes hi hl
  exact value_of hP hd hr (C33 hP hi hl hz) h hz

theorem C33_nd_value (hP : P.Sound dom f) (hi : ∀ i, Proper (init i)) (hd : ∀ x : Fin n → ℝ, (∀ i, x i ∈ init i) → dom x)
    {Z : Interval D} (h : minimizeNdValue fuel P init limit = .ok Z) (hz : Minimiser dom f init z) : f z ∈ Z := by
  obtain ⟨l, hl, h⟩ := bind_ok.1 h
  have hr := C33_nd_boxes hi hl
  exact value_of hP hd hr (C33_nd hP hi hd hl hz) h hz

/-! ## template functions and `maximize` -/

section
variable {p : ℕ → Interval D} {ρ : ℕ → ℝ} {e : Expr n}

/-- C33 for a template function: it is called with intervals and with `autodif<interval>`. -/
theorem C33_template (hc : e.FinCst) (hk : e.ConstDom ρ) (hp : ∀ i, ρ i ∈ p i) (hi : ∀ i, Proper (init i))
    (h : minimize fuel (exprSProg fuel' p e) init limit uni = .ok l) (hz : Minimiser (e.Dom ρ) (e.real ρ) init z) : ∃ B ∈ l, ∀ i, z i ∈ B i :=
  C33 (exprSProg_sound hc hk hp) hi h hz

theorem C33_template_value (hc : e.FinCst) (hk : e.ConstDom ρ) (hp : ∀ i, ρ i ∈ p i) (hi : ∀ i, Proper (init i))
    (hd : ∀ x : Fin n → ℝ, (∀ i, x i ∈ init i) → e.Dom ρ x)
    {Z : Interval D} (h : minimizeValue fuel (exprSProg fuel' p e) init limit = .ok Z) (hz : Minimiser (e.Dom ρ) (e.real ρ) init z) : e.real ρ z ∈ Z :=
  C33_value (exprSProg_sound hc hk hp) hi hd h hz

/-- `z` is a point of the box where `f` is defined and has its greatest value -/
def Maximiser (dom : (Fin n → ℝ) → Prop) (f : (Fin n → ℝ) → ℝ) (init : Vec n (Interval D)) (z : Fin n → ℝ) : Prop :=
  ((∀ i, z i ∈ init i) ∧ dom z) ∧ ∀ y : Fin n → ℝ, (∀ i, y i ∈ init i) → dom y → f y ≤ f z

theorem Maximiser.minus (h : Maximiser (e.Dom ρ) (e.real ρ) init z) : Minimiser ((makeMinus e).Dom ρ) ((makeMinus e).real ρ) init z :=
  ⟨⟨h.1.1, h.1.2, trivial⟩, fun y hy hd => neg_le_neg (h.2 y hy hd.1)⟩

theorem minus_const (hk : e.ConstDom ρ) : (makeMinus e).ConstDom ρ := ⟨hk, fun _ => trivial⟩

/-- C33: every maximiser is in a box returned by `maximize`. -/
theorem C33_maximize (hc : e.FinCst) (hk : e.ConstDom ρ) (hp : ∀ i, ρ i ∈ p i) (hi : ∀ i, Proper (init i))
    (h : maximize fuel fuel' p e init limit uni = .ok l) (hz : Maximiser (e.Dom ρ) (e.real ρ) init z) : ∃ B ∈ l, ∀ i, z i ∈ B i :=
  C33_template (e := makeMinus e) hc (minus_const hk) hp hi h hz.minus

theorem C33_maximize_value (hc : e.FinCst) (hk : e.ConstDom ρ) (hp : ∀ i, ρ i ∈ p i) (hi : ∀ i, Proper (init i))
    (hd : ∀ x : Fin n → ℝ, (∀ i, x i ∈ init i) → e.Dom ρ x)
    {Z : Interval D} (h : maximizeValue fuel fuel' p e init limit = .ok Z) (hz : Maximiser (e.Dom ρ) (e.real ρ) init z) : e.real ρ z ∈ Z := by
  obtain ⟨r, hr, h⟩ := bind_ok.1 h
  cases h
  have := C33_template_value (e := makeMinus e) hc (minus_const hk) hp hi (fun x hx => ⟨hd x hx, trivial⟩) hr hz.minus
  have h2 := neg_mem this
  rwa [show - (makeMinus e).real ρ z = e.real ρ z from neg_neg _] at h2
end

/-! Concrete cases: `f(x) = x²` on `[-1, 1]`. -/

def parE : Expr 1 := .bin .mul (.var 0) (.var 0)

def par : SProg 1 := exprSProg 0 (fun _ => Interval.point (lit 0)) parE

theorem box11_proper : ∀ i, Proper (box11 i) := fun _ =>
  ⟨isFinD_iff.1 (by decide +kernel : isFinD (box11 0).inf = true), isFinD_iff.1 (by decide +kernel : isFinD (box11 0).sup = true),
    0, (C07_zero_in (box11 0)).1 (by decide +kernel)⟩

theorem par_min : Minimiser (parE.Dom fun _ => 0) (parE.real fun _ => 0) box11 (fun _ => 0) :=
  ⟨⟨fun _ => (C07_zero_in (box11 0)).1 (by decide +kernel), by simp [parE, Expr.Dom, Bin.Dom]⟩, fun y _ _ => by
    show (0 : ℝ) * 0 ≤ y 0 * y 0
    rw [zero_mul]; exact mul_self_nonneg _⟩

theorem par_run : (match minimize 40 par box11 (lit (1 / 4)) true with
    | .ok l => decide (l.length = 1)
    | _ => false) = true := by
  decide +kernel

theorem par_value : (match minimizeValue 40 par box11 (lit (1 / 4)) with
    | .ok Z => decide (Rop.lt (lit (-1 / 8)) Z.inf = true ∧ Rop.lt Z.sup (lit (1 / 8)) = true)
    | _ => false) = true := by
  decide +kernel

/-- the hypotheses of `C33_template` are met -/
example : ∃ l, minimize 40 par box11 (lit (1 / 4)) true = .ok l ∧ l.length = 1 ∧ ∃ B ∈ l, (0 : ℝ) ∈ B 0 := by
  have h := par_run
  split at h
  · rename_i l heq
    obtain ⟨B, hB, hz⟩ := C33_template (ρ := fun _ => 0) (p := fun _ => Interval.point (lit 0)) (e := parE) ⟨trivial, trivial⟩ (by simp [parE, Expr.ConstDom])
      (fun _ => point_mem is_zero) box11_proper heq par_min
    exact ⟨l, heq, of_decide_eq_true h, B, hB, hz 0⟩
  · cases h

/-- the hypotheses of `C33_template_value` are met -/
example : ∃ Z, minimizeValue 40 par box11 (lit (1 / 4)) = .ok Z ∧ (0 : ℝ) ∈ Z ∧ Z.inf ≠ dNinf := by
  have h := par_value
  split at h
  · rename_i Z heq
    have := C33_template_value (ρ := fun _ => 0) (p := fun _ => Interval.point (lit 0)) (e := parE) ⟨trivial, trivial⟩ (by simp [parE, Expr.ConstDom])
      (fun _ => point_mem is_zero) box11_proper (fun x _ => by simp [parE, Expr.Dom, Bin.Dom]) heq par_min
    rw [show parE.real (fun _ => 0) (fun _ => 0) = 0 from zero_mul _] at this
    refine ⟨Z, heq, this, fun e => ?_⟩
    have h1 := (of_decide_eq_true h).1
    rw [e] at h1
    exact absurd h1 (by decide +kernel)
  · cases h

theorem par_nd_run : (match minimizeNd 60 par box11 (lit (1 / 4)) false, minimizeNdValue 60 par box11 (lit (1 / 4)) with
    | .ok l, .ok _ => decide (l.length = 2)
    | _, _ => false) = true := by
  decide +kernel

/-- the hypotheses of `C33_nd`, `C33_nd_boxes` and `C33_nd_value` are met -/
example : ∃ l Z, minimizeNd 60 par box11 (lit (1 / 4)) false = .ok l ∧ minimizeNdValue 60 par box11 (lit (1 / 4)) = .ok Z ∧ l.length = 2 ∧
    (∃ B ∈ l, (0 : ℝ) ∈ B 0) ∧ (0 : ℝ) ∈ Z ∧ Returned box11 (lit (1 / 4)) false l := by
  have hP : par.Sound (parE.Dom fun _ => 0) (parE.real fun _ => 0) :=
    exprSProg_sound ⟨trivial, trivial⟩ (by simp [parE, Expr.ConstDom]) (fun _ => point_mem is_zero)
  have hd : ∀ x : Fin 1 → ℝ, (∀ i, x i ∈ box11 i) → parE.Dom (fun _ => 0) x := fun x _ => by simp [parE, Expr.Dom, Bin.Dom]
  have h := par_nd_run
  split at h
  · rename_i l Z h1 h2
    obtain ⟨B, hB, hz⟩ := C33_nd hP box11_proper hd h1 par_min
    have h3 := C33_nd_value hP box11_proper hd h2 par_min
    rw [show parE.real (fun _ => 0) (fun _ => 0) = 0 from zero_mul _] at h3
    exact ⟨l, Z, h1, h2, of_decide_eq_true h, ⟨B, hB, hz 0⟩, h3, C33_nd_boxes box11_proper h1⟩
  · cases h

def minusParE : Expr 1 := .un .neg parE

theorem minusPar_run : (match maximizeValue 40 0 (fun _ => Interval.point (lit 0)) minusParE box11 (lit (1 / 4)) with
    | .ok Z => decide (Rop.lt (lit (-1 / 8)) Z.inf = true ∧ Rop.lt Z.sup (lit (1 / 8)) = true)
    | _ => false) = true := by
  decide +kernel

/-- the hypotheses of `C33_maximize_value` are met: the maximum of `-x²` is 0 -/
example : ∃ Z, maximizeValue 40 0 (fun _ => Interval.point (lit 0)) minusParE box11 (lit (1 / 4)) = .ok Z ∧ (0 : ℝ) ∈ Z := by
  have h := minusPar_run
  split at h
  · rename_i Z heq
    have := C33_maximize_value (ρ := fun _ => 0) (e := minusParE) ⟨trivial, trivial⟩ (by simp [minusParE, parE, Expr.ConstDom, Un.Dom])
      (fun _ => point_mem is_zero) box11_proper (fun x _ => by simp [minusParE, parE, Expr.Dom, Bin.Dom, Un.Dom]) heq (z := fun _ => 0)
      ⟨⟨par_min.1.1, par_min.1.2, trivial⟩, fun y hy hd => neg_le_neg (par_min.2 y hy hd.1)⟩
    rw [show minusParE.real (fun _ => 0) (fun _ => 0) = 0 by simp [minusParE, parE, Expr.real, Un.real, Bin.real]] at this
    exact ⟨Z, heq, this⟩
  · cases h

/-! ## C53 -/

/-- only `domain_error` is thrown -/
def OnlyDom {α : Type} (r : Res α) : Prop := ∀ e, r = .error e → e = .domainError

theorem OnlyDom.ok {α : Type} (a : α) : OnlyDom (.ok a) := fun _ h => by cases h

theorem OnlyDom.dom' {α : Type} : OnlyDom (.error .domainError : Res α) := fun _ h => by cases h; rfl

theorem OnlyDom.bind {α β : Type} {r : Res α} {g : α → Res β} (h : OnlyDom r) (hg : ∀ a, OnlyDom (g a)) : OnlyDom (r >>= g) := by
  cases r with
  | ok a => exact hg a
  | error e => intro e' h'; cases h'; exact h _ rfl

theorem OnlyDom.catch {α : Type} {r : Res α} (h : OnlyDom r) : ∃ o, catchDom r = .ok o := by
  cases r with
  | ok a => exact ⟨_, rfl⟩
  | error e => rw [h e rfl]; exact ⟨_, rfl⟩

theorem onlyDom_vec1 {S : Type} {g : S → Res S} (hg : ∀ a, OnlyDom (g a)) : ∀ l : List S, OnlyDom (Autodif.vec1 g l)
  | [] => .ok _
  | a :: l => (hg a).bind fun _ => (onlyDom_vec1 hg l).bind fun _ => .ok _

/-- the template function `sqrt(x)` -/
def sqrtE : Expr 1 := .un .sqrt (.var 0)

section
variable {p : ℕ → Interval D}

theorem onlyDom_sqrt (X : Interval D) : OnlyDom (Interval.sqrt X) := by
  unfold Interval.sqrt
  split_ifs
  · exact OnlyDom.dom'
  · exact .ok _

theorem onlyDom_div (X Y : Interval D) : OnlyDom (Interval.div X Y) := by
  unfold Interval.div
  split_ifs <;> first | exact OnlyDom.dom' | exact OnlyDom.ok _

theorem sqrtE_F (B : Vec 1 (Interval D)) : OnlyDom ((exprSProg fuel' p sqrtE).F B) := onlyDom_sqrt (B 0)

theorem sqrtE_FD (B : Vec 1 (Interval D)) : OnlyDom ((exprSProg fuel' p sqrtE).FD B) := by
  refine OnlyDom.bind ?_ fun _ => .ok _
  refine OnlyDom.bind (.ok _) fun x => ?_
  refine OnlyDom.bind (onlyDom_sqrt _) fun r => ?_
  refine OnlyDom.bind (.ok _) fun s => ?_
  exact OnlyDom.bind (onlyDom_vec1 (fun t => onlyDom_div t s) _) fun _ => .ok _

theorem sqrtE_ex {init : Vec 1 (Interval D)} (delta : D) (B : Vec 1 (Interval D)) : (∃ r, Optimize.examine (exprSProg fuel' p sqrtE) init delta B = .ok r) ∧
    (Rop.lt (B 0).inf (lit 0) = true → Optimize.examine (exprSProg fuel' p sqrtE) init delta B = .ok (some (true, delta))) := by
  unfold Optimize.examine
  constructor
  · obtain ⟨o, ho⟩ := (sqrtE_F (fuel' := fuel') (p := p) B).catch
    rw [ho]
    cases o with
    | none => exact ⟨_, rfl⟩
    | some fi =>
      dsimp only [bind, Except.bind]
      by_cases c : Rop.lt delta fi.inf = true
      · rw [if_pos c]; exact ⟨_, rfl⟩
      rw [if_neg c]
      obtain ⟨o, ho⟩ := ((sqrtE_F (fuel' := fuel') (p := p) (pointV (midV B))).bind fun fc => (sqrtE_FD (fuel' := fuel') (p := p) B).bind fun r => OnlyDom.ok (fc, r.2)).catch
      dsimp only [bind, Except.bind] at ho
      rw [ho]
      cases o with
      | none => exact ⟨_, rfl⟩
      | some q =>
        obtain ⟨fc, fdi⟩ := q
        dsimp only
        split_ifs
        · exact ⟨_, rfl⟩
        · exact ⟨_, rfl⟩
        · obtain ⟨o, ho⟩ := (sqrtE_F (fuel' := fuel') (p := p) (Optimize.corner B fdi)).catch
          rw [ho]
          cases o <;> exact ⟨_, rfl⟩
  · intro h
    have : (exprSProg fuel' p sqrtE).F B = .error .domainError := by
      show Interval.sqrt (B 0) = _
      unfold Interval.sqrt
      rw [if_pos h]
    rw [this]; rfl
end

theorem maxWidth1 (m : Fin 1) (B : Vec 1 (Interval D)) : (Optimize.maxWidth (some m) B).2 = some 0 := by
  rw [Subsingleton.elim m 0]
  show (if _ then _ else _ : D × Option (Fin 1)).2 = _
  split_ifs <;> rfl

theorem sqrtE_loop {init : Vec 1 (Interval D)} {p : ℕ → Interval D} : ∀ (k : ℕ) (s : Optimize.St 1), (∃ B ∈ s.targets, Rop.lt (B 0).inf (lit 0) = true) → (s.mi ≠ none ∨ s.targets = [box11]) →
    Optimize.loop (Optimize.examine (exprSProg fuel' p sqrtE) init) uni limit k s = .error .outOfFuel := by
  intro k
  induction k with
  | zero =>
    rintro ⟨tg, so, de, mi⟩ ⟨B, hB, hlt⟩ hm
    rw [Optimize.loop.eq_def]
    cases tg with
    | nil => cases hB
    | cons I rest => rfl
  | succ k ih =>
    rintro ⟨tg, so, de, mi⟩ ⟨B, hB, hlt⟩ hm
    rw [Optimize.loop.eq_def]
    cases tg with
    | nil => cases hB
    | cons I rest =>
      dsimp only
      obtain ⟨⟨r, hr⟩, h2⟩ := sqrtE_ex (fuel' := fuel') (p := p) (init := init) de I
      have hw : (Optimize.maxWidth mi I).2 = some 0 := by
        rcases hm with hm | hm
        · cases mi with
          | none => exact absurd rfl hm
          | some m => exact maxWidth1 m I
        · have : I = box11 := (List.cons.inj hm).1
          rw [this]
          cases mi with
          | some m => exact maxWidth1 m _
          | none => decide +kernel
      by_cases hI : Rop.lt (I 0).inf (lit 0) = true
      · rw [h2 hI]
        dsimp only [bind, Except.bind, Optimize.finish]
        rw [Bool.not_true, Bool.and_false, if_neg (by simp), hw]
        refine ih _ ⟨AllsolSimple.setI I 0 ⟨(I 0).inf, Interval.mid (I 0)⟩, by simp, ?_⟩ (.inl (by simp))
        simpa [AllsolSimple.setI] using hI
      · have hB' : B ∈ rest := by
          rcases List.mem_cons.1 hB with rfl | hB
          · exact absurd hlt hI
          · exact hB
        have hm' : mi ≠ none := by
          rcases hm with hm | hm
          · exact hm
          · rw [(List.cons.inj hm).2] at hB'; cases hB'
        rw [hr]
        dsimp only [bind, Except.bind]
        cases r with
        | none => exact ih _ ⟨B, hB', hlt⟩ (.inl hm')
        | some r =>
          dsimp only [Optimize.finish]
          split_ifs with c
          · exact ih _ ⟨B, hB', hlt⟩ (.inl (by dsimp only; rw [hw]; simp))
          · rw [hw]
            exact ih _ ⟨B, List.mem_append_left _ hB', hlt⟩ (.inl (by simp))

/-- C53 is violated: the search for the minimum of `sqrt(x)` on `[-1, 1]` never ends, whatever the limit.  The box around `-1` raises `domain_error`, is never
accepted and is divided again and again. -/
theorem C53_violated (limit : D) (uni : Bool) (fuel fuel' : ℕ) (p : ℕ → Interval D) :
    minimize fuel (exprSProg fuel' p sqrtE) box11 limit uni = .error .outOfFuel := by
  unfold minimize
  rw [sqrtE_loop fuel _ ⟨box11, by simp, by decide +kernel⟩ (.inr rfl)]
  rfl

end Kv
