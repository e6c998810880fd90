import Verif.Psa.Hoare
import Verif.Psa.Inverse
import Verif.Psa.Eval

/-! # Operations on constant series give constant series; the inverse functions cannot be applied to them -/

namespace Kv
open PM Psa
open Rop (lit)
set_option linter.unusedVariables false

/-- the result has one coefficient -/
def Len1 {S : Type} (m : PM S (List S)) : Prop := ∀ st a st', m st = (.ok a, st') → a.length = 1

namespace Len1
variable {S α : Type}

theorem bind {m : PM S α} {k : α → PM S (List S)} (h : ∀ a, Len1 (k a)) : Len1 (m >>= k) := by
  intro st a st' e
  obtain ⟨b, s1, -, e2⟩ := bind_run e
  exact h b _ _ _ e2

theorem bind1 {m : PM S (List S)} {k : List S → PM S (List S)} (hm : Len1 m) (h : ∀ a, a.length = 1 → Len1 (k a)) : Len1 (m >>= k) := by
  intro st a st' e
  obtain ⟨b, s1, e1, e2⟩ := bind_run e
  exact h b (hm _ _ _ e1) _ _ _ e2

theorem pure {a : List S} (h : a.length = 1) : Len1 (Pure.pure a : PM S (List S)) := by
  intro st b st' e
  obtain ⟨rfl, -⟩ := pure_run e
  exact h

theorem lift {r : Res (List S)} (h : ∀ a, r = .ok a → a.length = 1) : Len1 (PM.lift r) := by
  intro st b st' e
  exact h b (lift_run e).1

end Len1

namespace Psa
variable {S : Type}

theorem len_tab {n : ℕ} {f : ℕ → Res S} {l : List S} (h : tab n f = .ok l) : l.length = n := (tab_ok h).1

theorem len1_finish {r : List S} (h : r.length = 1) : Len1 (finish r) :=
  Len1.bind fun _ => Len1.bind fun _ => Len1.pure h

variable [Scal S]


omit [Scal S] in
theorem len1_fill {n : ℕ} (hn : n = 1) (f e : ℕ → Res S) : Len1 (fill n f e) := by
  unfold fill
  refine Len1.bind fun st => ?_
  by_cases hu : st.use = true
  · rw [if_pos hu]
    cases st.hist with
    | nil => exact Len1.lift fun a h => by cases h
    | cons a l => exact Len1.lift fun a h => (len_tab h).trans hn
  · rw [if_neg hu]
    exact Len1.lift fun a h => (len_tab h).trans hn

theorem len_addHead {b z : List S} {a : S} (h : addHead b a = .ok z) : z.length = b.length := by
  unfold addHead at h
  split at h
  · cases h
  · obtain ⟨c, -, h⟩ := bind_ok.1 h; cases h; rfl

theorem len_subHead {b z : List S} {a : S} (h : subHead b a = .ok z) : z.length = b.length := by
  unfold subHead at h
  split at h
  · cases h
  · obtain ⟨c, -, h⟩ := bind_ok.1 h; cases h; rfl

theorem len_addHeadC {b z : List S} {a : D} (h : addHeadC b a = .ok z) : z.length = b.length := by
  unfold addHeadC at h
  split at h
  · cases h
  · obtain ⟨c, -, h⟩ := bind_ok.1 h; cases h; rfl

theorem len_subHeadC {b z : List S} {a : D} (h : subHeadC b a = .ok z) : z.length = b.length := by
  unfold subHeadC at h
  split at h
  · cases h
  · obtain ⟨c, -, h⟩ := bind_ok.1 h; cases h; rfl

theorem len1_add {a b : List S} (ha : a.length = 1) (hb : b.length = 1) : Len1 (add a b) := by
  unfold add
  rw [if_pos ha]
  refine Len1.bind1 (Len1.lift fun z h => ?_) fun r hr => len1_finish hr
  obtain ⟨c, -, h⟩ := bind_ok.1 h
  exact (len_addHead h).trans hb

theorem len1_sub {a b : List S} (ha : a.length = 1) (hb : b.length = 1) : Len1 (sub a b) := by
  unfold sub
  rw [if_pos ha]
  refine Len1.bind1 (Len1.lift fun z h => ?_) fun r hr => len1_finish hr
  obtain ⟨c, hc, h⟩ := bind_ok.1 h
  obtain ⟨d, -, h⟩ := bind_ok.1 h
  exact (len_addHead h).trans ((len_tab hc).trans hb)

theorem len1_mul {a b : List S} (ha : a.length = 1) (hb : b.length = 1) : Len1 (mul a b) := by
  unfold mul
  rw [if_pos ha]
  exact Len1.bind1 (len1_fill hb _ _) fun r hr => len1_finish hr

theorem len1_mulC {a : List S} (ha : a.length = 1) (k : D) : Len1 (mulC a k) := Len1.bind1 (len1_fill ha _ _) fun r hr => len1_finish hr
theorem len1_cMul {a : List S} (ha : a.length = 1) (k : D) : Len1 (cMul k a) := Len1.bind1 (len1_fill ha _ _) fun r hr => len1_finish hr

theorem len1_taylor {K : Type} {x : List S} (hx : x.length = 1) (hs : Res (List S)) (r0 : S) (κ0 : K) (stp : ℕ → K → Res (K × S))
    (lst : ℕ → K → PM S S) : Len1 (taylor x hs r0 κ0 stp lst) := by
  unfold taylor
  rw [hx]
  refine Len1.bind fun st => Len1.bind fun old => ?_
  intro s a s' h
  obtain ⟨⟨p, r, κ⟩, s1, e1, h1⟩ := bind_run h
  have := (pure_run e1).1
  cases this
  exact (Len1.bind fun _ => Len1.bind fun _ => len1_mulC rfl _) _ _ _ h1

theorem len1_inv {x : List S} (hx : x.length = 1) : Len1 (inv x) :=
  Len1.bind fun _ => Len1.bind fun _ => Len1.bind fun _ => Len1.bind fun _ => Len1.bind fun _ => len1_taylor hx _ _ _ _ _
theorem len1_sin {x : List S} (hx : x.length = 1) : Len1 (Psa.sin x) :=
  Len1.bind fun _ => Len1.bind fun _ => Len1.bind fun _ => Len1.bind fun _ => Len1.bind fun _ => len1_taylor hx _ _ _ _ _
theorem len1_cos {x : List S} (hx : x.length = 1) : Len1 (Psa.cos x) :=
  Len1.bind fun _ => Len1.bind fun _ => Len1.bind fun _ => Len1.bind fun _ => Len1.bind fun _ => len1_taylor hx _ _ _ _ _
theorem len1_exp {x : List S} (hx : x.length = 1) : Len1 (Psa.exp x) := Len1.bind fun _ => Len1.bind fun _ => len1_taylor hx _ _ _ _ _
theorem len1_sqrt {x : List S} (hx : x.length = 1) : Len1 (Psa.sqrt x) :=
  Len1.bind fun _ => Len1.bind fun _ => Len1.bind fun _ => Len1.bind fun _ => Len1.bind fun _ => Len1.bind fun _ => len1_taylor hx _ _ _ _ _
theorem len1_log {x : List S} (hx : x.length = 1) : Len1 (Psa.log x) :=
  Len1.bind fun _ => Len1.bind fun _ => Len1.bind fun _ => Len1.bind fun _ => len1_taylor hx _ _ _ _ _
theorem len1_sinh {x : List S} (hx : x.length = 1) : Len1 (Psa.sinh x) :=
  Len1.bind fun _ => Len1.bind fun _ => Len1.bind fun _ => len1_taylor hx _ _ _ _ _
theorem len1_cosh {x : List S} (hx : x.length = 1) : Len1 (Psa.cosh x) :=
  Len1.bind fun _ => Len1.bind fun _ => Len1.bind fun _ => len1_taylor hx _ _ _ _ _
theorem len1_div {a b : List S} (ha : a.length = 1) (hb : b.length = 1) : Len1 (Psa.div a b) :=
  Len1.bind1 (len1_inv hb) fun c hc => len1_mul ha hc
theorem len1_cDiv {b : List S} (hb : b.length = 1) (k : D) : Len1 (cDiv k b) := Len1.bind1 (len1_inv hb) fun c hc => len1_cMul hc k
theorem len1_pow {a b : List S} (ha : a.length = 1) (hb : b.length = 1) : Len1 (Psa.pow a b) :=
  Len1.bind1 (len1_log ha) fun c hc => Len1.bind1 (len1_mul hb hc) fun d hd => len1_exp hd

theorem len1_powLoop (k : ℕ) {r x : List S} (hr : r.length = 1) (hx : x.length = 1) : Len1 (powLoop k r x) := by
  induction k using Nat.strong_induction_on generalizing r x with
  | _ k ih =>
    unfold powLoop
    split_ifs with h0 h1
    · exact Len1.pure hr
    · exact Len1.bind1 (len1_mul hr hx) fun a ha => Len1.bind1 (len1_mul hx hx) fun b hb => ih _ (by omega) ha hb
    · exact Len1.bind1 (Len1.pure hr) fun a ha => Len1.bind1 (len1_mul hx hx) fun b hb => ih _ (by omega) ha hb

theorem len1_powI {x : List S} (hx : x.length = 1) (y : ℤ) : Len1 (powI x y) := by
  unfold powI
  split_ifs
  · exact Len1.pure rfl
  · exact Len1.lift fun a h => by cases h
  · exact Len1.bind1 (len1_powLoop _ rfl hx) fun r hr => len1_cDiv hr _
  · exact Len1.bind1 (len1_powLoop _ rfl hx) fun r hr => Len1.pure hr

theorem len1_un {f : Un} (hf : f.isInv = false) {x : List S} (hx : x.length = 1) : Len1 (Psa.un f x) := by
  cases f with
  | neg => exact Len1.lift fun a h => (len_tab h).trans hx
  | exp => exact len1_exp hx
  | log => exact len1_log hx
  | sqrt => exact len1_sqrt hx
  | sin => exact len1_sin hx
  | cos => exact len1_cos hx
  | tan => exact Len1.bind1 (len1_sin hx) fun s hs => Len1.bind1 (len1_cos hx) fun c hc => len1_div hs hc
  | sinh => exact len1_sinh hx
  | cosh => exact len1_cosh hx
  | tanh => exact Len1.bind1 (len1_sinh hx) fun s hs => Len1.bind1 (len1_cosh hx) fun c hc => len1_div hs hc
  | _ => cases hf

/-- the inverse functions are undefined for constant series -/
theorem un_inv_undef {f : Un} (hf : f.isInv = true) {x : List S} (hx : x.length = 1) (st : PSt S) : (Psa.un f x st).1 = .error .undefined := by
  obtain ⟨a, rfl⟩ := List.length_eq_one_iff.1 hx
  have key : ∀ (fn : S → Res S) dv, (Psa.invFn fn dv [a] st).1 = .error .undefined := by
    intro fn dv
    unfold Psa.invFn
    rw [PM.get_bind]
    by_cases hm : st.mode = 2
    · rw [if_pos hm]; rfl
    · rw [if_neg hm]; rfl
  cases f
  case asin => exact key _ _
  case acos => exact key _ _
  case atan => exact key _ _
  case asinh => exact key _ _
  case acosh => exact key _ _
  case atanh => exact key _ _
  all_goals cases hf

theorem len1_bin {o : Bin} {a b : List S} (ha : a.length = 1) (hb : b.length = 1) : Len1 (Psa.bin o a b) := by
  cases o
  exacts [len1_add ha hb, len1_sub ha hb, len1_mul ha hb, len1_div ha hb]

theorem len1_binC {o : Bin} {a : List S} (ha : a.length = 1) (k : D) : Len1 (Psa.binC o a k) := by
  cases o
  · exact Len1.lift fun z h => (len_addHeadC h).trans ha
  · exact Len1.lift fun z h => (len_subHeadC h).trans ha
  · exact len1_mulC ha k
  · exact Len1.lift fun z h => (len_tab h).trans ha

theorem len1_cBin {o : Bin} {a : List S} (ha : a.length = 1) (k : D) : Len1 (Psa.cBin o k a) := by
  cases o
  · exact Len1.lift fun z h => (len_addHeadC h).trans ha
  · refine Len1.lift fun z h => ?_
    obtain ⟨c, hc, h⟩ := bind_ok.1 h
    exact (len_addHeadC h).trans ((len_tab hc).trans ha)
  · exact len1_cMul ha k
  · exact len1_cDiv ha k

end Psa

/-- a template function that can be evaluated on constant series contains no inverse functions -/
theorem Expr.evalP_len1 {S : Type} [Scal S] {n : ℕ} {p : ℕ → S} {x : Fin n → List S} (hx : ∀ i, (x i).length = 1) :
    ∀ {e : Expr n} {st st' : PSt S} {z : List S}, e.evalP p x st = (.ok z, st') → z.length = 1 ∧ e.noInv
  | .var i, st, st', z, h => by obtain ⟨rfl, -⟩ := pure_run h; exact ⟨hx i, trivial⟩
  | .par i, st, st', z, h => by obtain ⟨rfl, -⟩ := pure_run h; exact ⟨rfl, trivial⟩
  | .cst k, st, st', z, h => by obtain ⟨rfl, -⟩ := pure_run h; exact ⟨rfl, trivial⟩
  | .un f a, st, st', z, h => by
    obtain ⟨u, s1, h1, h2⟩ := bind_run h
    obtain ⟨l1, n1⟩ := Expr.evalP_len1 hx h1
    cases hf : f.isInv
    · exact ⟨len1_un hf l1 _ _ _ h2, n1, hf⟩
    · have := un_inv_undef hf l1 s1
      rw [h2] at this; cases this
  | .bin o a b, st, st', z, h => by
    obtain ⟨u, s1, h1, h2⟩ := bind_run h
    obtain ⟨v, s2, h3, h4⟩ := bind_run h2
    obtain ⟨l1, n1⟩ := Expr.evalP_len1 hx h1
    obtain ⟨l2, n2⟩ := Expr.evalP_len1 hx h3
    exact ⟨len1_bin l1 l2 _ _ _ h4, n1, n2⟩
  | .binC o a k, st, st', z, h => by
    obtain ⟨u, s1, h1, h2⟩ := bind_run h
    obtain ⟨l1, n1⟩ := Expr.evalP_len1 hx h1
    exact ⟨len1_binC l1 k _ _ _ h2, n1⟩
  | .cBin o k b, st, st', z, h => by
    obtain ⟨u, s1, h1, h2⟩ := bind_run h
    obtain ⟨l1, n1⟩ := Expr.evalP_len1 hx h1
    exact ⟨len1_cBin l1 k _ _ _ h2, n1⟩
  | .powI a y, st, st', z, h => by
    obtain ⟨u, s1, h1, h2⟩ := bind_run h
    obtain ⟨l1, n1⟩ := Expr.evalP_len1 hx h1
    exact ⟨len1_powI l1 y _ _ _ h2, n1⟩
  | .pow a b, st, st', z, h => by
    obtain ⟨u, s1, h1, h2⟩ := bind_run h
    obtain ⟨v, s2, h3, h4⟩ := bind_run h2
    obtain ⟨l1, n1⟩ := Expr.evalP_len1 hx h1
    obtain ⟨l2, n2⟩ := Expr.evalP_len1 hx h3
    exact ⟨len1_pow l1 l2 _ _ _ h4, n1, n2⟩

end Kv
