import Verif.Props.Sets
import Verif.Float.Exact

/-!
# C04, C05 (rounding), C08: optimality of the endpoints and the midpoint, for hardware doubles
-/

namespace Kv
open RopSem Kv.Interval

variable {F : Format}

/-- `r` is the largest datum (double or `-∞`) that is not above any element of `S`. -/
def BestLower (S : Set ℝ) (r : Hw F) : Prop :=
  ¬ nan r ∧ (∀ s ∈ S, val r ≤ (s : EReal)) ∧
    ∀ t : Hw F, ¬ nan t → (∀ s ∈ S, val t ≤ (s : EReal)) → val t ≤ val r

/-- `r` is the smallest datum (double or `+∞`) that is not below any element of `S`. -/
def BestUpper (S : Set ℝ) (r : Hw F) : Prop :=
  ¬ nan r ∧ (∀ s ∈ S, (s : EReal) ≤ val r) ∧
    ∀ t : Hw F, ¬ nan t → (∀ s ∈ S, (s : EReal) ≤ val t) → val r ≤ val t

/-- The interval `Z` is the best possible enclosure of the set `S` of reals. -/
def BestEnclosure (S : Set ℝ) (Z : Interval (Hw F)) : Prop :=
  BestLower S Z.inf ∧ BestUpper S Z.sup

/-- The exact range of a binary operation over the box `X × Y`. -/
def exactRange (op : ℝ → ℝ → ℝ) (X Y : Interval (Hw F)) : Set ℝ :=
  {s | ∃ x y : ℝ, x ∈ X ∧ y ∈ Y ∧ s = op x y}

section
variable {a b : ℚ} (ha : F.Rep a) (hb : F.Rep b)

theorem addDown_best {t : Hw F} (ht : ¬ nan t) (h : val t ≤ ((a + b : ℝ) : EReal)) :
    val t ≤ val (Rop.addDown (Hw.fin a ha) (Hw.fin b hb)) :=
  (Fl.add_down_isDown (x := Fl.fin a ha) (y := Fl.fin b hb) (by simp) (by simp) (by simp) (by simp)).2.2
    t ht (by have h' := h; change Fl.toE t ≤ _ at h'; simpa using h')
theorem addUp_best {t : Hw F} (ht : ¬ nan t) (h : ((a + b : ℝ) : EReal) ≤ val t) :
    val (Rop.addUp (Hw.fin a ha) (Hw.fin b hb)) ≤ val t :=
  (Fl.add_up_isUp (x := Fl.fin a ha) (y := Fl.fin b hb) (by simp) (by simp) (by simp) (by simp)).2.2
    t ht (by have h' := h; change _ ≤ Fl.toE t at h'; simpa using h')
theorem subDown_best {t : Hw F} (ht : ¬ nan t) (h : val t ≤ ((a - b : ℝ) : EReal)) :
    val t ≤ val (Rop.subDown (Hw.fin a ha) (Hw.fin b hb)) :=
  (Fl.sub_down_isDown (x := Fl.fin a ha) (y := Fl.fin b hb) (by simp) (by simp) (by simp) (by simp)).2.2
    t ht (by have h' := h; change Fl.toE t ≤ _ at h'; simpa using h')
theorem subUp_best {t : Hw F} (ht : ¬ nan t) (h : ((a - b : ℝ) : EReal) ≤ val t) :
    val (Rop.subUp (Hw.fin a ha) (Hw.fin b hb)) ≤ val t :=
  (Fl.sub_up_isUp (x := Fl.fin a ha) (y := Fl.fin b hb) (by simp) (by simp) (by simp) (by simp)).2.2
    t ht (by have h' := h; change _ ≤ Fl.toE t at h'; simpa using h')
theorem mulDown_best {t : Hw F} (ht : ¬ nan t) (h : val t ≤ ((a * b : ℝ) : EReal)) :
    val t ≤ val (Rop.mulDown (Hw.fin a ha) (Hw.fin b hb)) :=
  (Fl.mul_down_isDown (x := Fl.fin a ha) (y := Fl.fin b hb) (by simp) (by simp) (by simp) (by simp)).2.2
    t ht (by have h' := h; change Fl.toE t ≤ _ at h'; simpa using h')
theorem mulUp_best {t : Hw F} (ht : ¬ nan t) (h : ((a * b : ℝ) : EReal) ≤ val t) :
    val (Rop.mulUp (Hw.fin a ha) (Hw.fin b hb)) ≤ val t :=
  (Fl.mul_up_isUp (x := Fl.fin a ha) (y := Fl.fin b hb) (by simp) (by simp) (by simp) (by simp)).2.2
    t ht (by have h' := h; change _ ≤ Fl.toE t at h'; simpa using h')
theorem divDown_best (hb0 : b ≠ 0) {t : Hw F} (ht : ¬ nan t) (h : val t ≤ ((a / b : ℝ) : EReal)) :
    val t ≤ val (Rop.divDown (Hw.fin a ha) (Hw.fin b hb)) :=
  (Fl.div_down_isDown (x := Fl.fin a ha) (y := Fl.fin b hb) (by simp) (by simp) (by simpa using hb0)
    (by simp)).2.2 t ht (by have h' := h; rw [EReal.coe_div] at h'; change Fl.toE t ≤ _ at h'; simpa using h')
theorem divUp_best (hb0 : b ≠ 0) {t : Hw F} (ht : ¬ nan t) (h : ((a / b : ℝ) : EReal) ≤ val t) :
    val (Rop.divUp (Hw.fin a ha) (Hw.fin b hb)) ≤ val t :=
  (Fl.div_up_isUp (x := Fl.fin a ha) (y := Fl.fin b hb) (by simp) (by simp) (by simpa using hb0)
    (by simp)).2.2 t ht (by have h' := h; rw [EReal.coe_div] at h'; change _ ≤ Fl.toE t at h'; simpa using h')
end

/-- From enclosure (`h`) and best endpoints. -/
theorem best_of {op : ℝ → ℝ → ℝ} {X Y Z : Interval (Hw F)}
    (ne : ∃ x y : ℝ, x ∈ X ∧ y ∈ Y) (h : ∀ x y : ℝ, x ∈ X → y ∈ Y → op x y ∈ Z)
    (h1 : ∀ t : Hw F, ¬ nan t → (∀ x y : ℝ, x ∈ X → y ∈ Y → val t ≤ ((op x y : ℝ) : EReal)) →
      val t ≤ val Z.inf)
    (h2 : ∀ t : Hw F, ¬ nan t → (∀ x y : ℝ, x ∈ X → y ∈ Y → ((op x y : ℝ) : EReal) ≤ val t) →
      val Z.sup ≤ val t) : BestEnclosure (exactRange op X Y) Z := by
  obtain ⟨x0, y0, hx0, hy0⟩ := ne
  have h0 := h x0 y0 hx0 hy0
  refine ⟨⟨h0.1.1, ?_, fun t ht hs => h1 t ht fun x y hx hy => hs _ ⟨x, y, hx, hy, rfl⟩⟩,
    ⟨h0.2.1, ?_, fun t ht hs => h2 t ht fun x y hx hy => hs _ ⟨x, y, hx, hy, rfl⟩⟩⟩
  · rintro s ⟨x, y, hx, hy, rfl⟩; exact (h x y hx hy).1.2
  · rintro s ⟨x, y, hx, hy, rfl⟩; exact (h x y hx hy).2.2

/-! ## C04 -/

theorem C04_add {X Y : Interval (Hw F)} (hX : Hw.FinIvl X) (hY : Hw.FinIvl Y) :
    BestEnclosure (exactRange (· + ·) X Y) (add X Y) := by
  obtain ⟨a, b, ha, hb, hab, rfl⟩ := hX
  obtain ⟨c, d, hc, hd, hcd, rfl⟩ := hY
  have hab' : (a : ℝ) ≤ b := by exact_mod_cast hab
  have hcd' : (c : ℝ) ≤ d := by exact_mod_cast hcd
  have ma : (a : ℝ) ∈ Hw.ivl a b ha hb := Hw.mem_ivl.2 ⟨le_rfl, hab'⟩
  have mb : (b : ℝ) ∈ Hw.ivl a b ha hb := Hw.mem_ivl.2 ⟨hab', le_rfl⟩
  have mc : (c : ℝ) ∈ Hw.ivl c d hc hd := Hw.mem_ivl.2 ⟨le_rfl, hcd'⟩
  have md : (d : ℝ) ∈ Hw.ivl c d hc hd := Hw.mem_ivl.2 ⟨hcd', le_rfl⟩
  exact best_of ⟨a, c, ma, mc⟩ (fun x y hx hy => C01_add hx hy)
    (fun t ht h => addDown_best ha hc ht (h _ _ ma mc))
    (fun t ht h => addUp_best hb hd ht (h _ _ mb md))

theorem C04_sub {X Y : Interval (Hw F)} (hX : Hw.FinIvl X) (hY : Hw.FinIvl Y) :
    BestEnclosure (exactRange (· - ·) X Y) (sub X Y) := by
  obtain ⟨a, b, ha, hb, hab, rfl⟩ := hX
  obtain ⟨c, d, hc, hd, hcd, rfl⟩ := hY
  have hab' : (a : ℝ) ≤ b := by exact_mod_cast hab
  have hcd' : (c : ℝ) ≤ d := by exact_mod_cast hcd
  have ma : (a : ℝ) ∈ Hw.ivl a b ha hb := Hw.mem_ivl.2 ⟨le_rfl, hab'⟩
  have mb : (b : ℝ) ∈ Hw.ivl a b ha hb := Hw.mem_ivl.2 ⟨hab', le_rfl⟩
  have mc : (c : ℝ) ∈ Hw.ivl c d hc hd := Hw.mem_ivl.2 ⟨le_rfl, hcd'⟩
  have md : (d : ℝ) ∈ Hw.ivl c d hc hd := Hw.mem_ivl.2 ⟨hcd', le_rfl⟩
  exact best_of ⟨a, c, ma, mc⟩ (fun x y hx hy => C01_sub hx hy)
    (fun t ht h => subDown_best ha hd ht (h _ _ ma md))
    (fun t ht h => subUp_best hb hc ht (h _ _ mb mc))

theorem C04_mul {X Y : Interval (Hw F)} (hX : Hw.FinIvl X) (hY : Hw.FinIvl Y) :
    BestEnclosure (exactRange (· * ·) X Y) (mul X Y) := by
  obtain ⟨a, b, ha, hb, hab, rfl⟩ := hX
  obtain ⟨c, d, hc, hd, hcd, rfl⟩ := hY
  have hab' : (a : ℝ) ≤ b := by exact_mod_cast hab
  have hcd' : (c : ℝ) ≤ d := by exact_mod_cast hcd
  have ma : (a : ℝ) ∈ Hw.ivl a b ha hb := Hw.mem_ivl.2 ⟨le_rfl, hab'⟩
  have mb : (b : ℝ) ∈ Hw.ivl a b ha hb := Hw.mem_ivl.2 ⟨hab', le_rfl⟩
  have mc : (c : ℝ) ∈ Hw.ivl c d hc hd := Hw.mem_ivl.2 ⟨le_rfl, hcd'⟩
  have md : (d : ℝ) ∈ Hw.ivl c d hc hd := Hw.mem_ivl.2 ⟨hcd', le_rfl⟩
  have e0 : ∀ {k : ℚ} {hk : F.Rep k}, Rop.eq (Hw.fin k hk) (O : Hw F) = true → k = 0 := by
    intro k hk h
    have := (eq_zero_right.1 h).2
    rw [Hw.val_fin] at this
    exact_mod_cast this
  have l0 : ∀ {k : ℚ} {hk : F.Rep k}, Rop.le (O : Hw F) (Hw.fin k hk) = true → 0 ≤ k := by
    intro k hk h
    have := (le_zero_left.1 h).2
    rw [Hw.val_fin] at this
    exact_mod_cast this
  have v0 : val (O : Hw F) = ((0 : ℝ) : EReal) := lit_zero.2
  refine best_of ⟨a, c, ma, mc⟩ (fun x y hx hy => C02_mul hx hy) (fun t ht h => ?_)
    (fun t ht h => ?_)
  · have dac := mulDown_best ha hc ht (h _ _ ma mc)
    have dad := mulDown_best ha hd ht (h _ _ ma md)
    have dbc := mulDown_best hb hc ht (h _ _ mb mc)
    have dbd := mulDown_best hb hd ht (h _ _ mb md)
    have z1 : Rop.eq (Hw.fin b hb) (O : Hw F) = true → val t ≤ val (O : Hw F) := fun hz => by
      have := h _ _ mb mc
      rw [v0]; simpa [e0 hz] using this
    have z2 : Rop.eq (Hw.fin d hd) (O : Hw F) = true → val t ≤ val (O : Hw F) := fun hz => by
      have := h _ _ ma md
      rw [v0]; simpa [e0 hz] using this
    generalize hZ : mul (Hw.ivl a b ha hb) (Hw.ivl c d hc hd) = Z
    unfold mul at hZ
    split_ifs at hZ with h1 h2 h3 h4 h5 h6 h7 h8 h9 h10 h11 h12 <;> subst hZ <;>
      first
        | assumption
        | exact z1 ‹_›
        | exact z2 ‹_›
        | (dsimp only; split_ifs <;> assumption)
  · have dac := mulUp_best ha hc ht (h _ _ ma mc)
    have dad := mulUp_best ha hd ht (h _ _ ma md)
    have dbc := mulUp_best hb hc ht (h _ _ mb mc)
    have dbd := mulUp_best hb hd ht (h _ _ mb md)
    have z1 : Rop.eq (Hw.fin b hb) (O : Hw F) = true → val (O : Hw F) ≤ val t := fun hz => by
      have := h _ _ mb mc
      rw [v0]; simpa [e0 hz] using this
    have z2 : Rop.eq (Hw.fin d hd) (O : Hw F) = true → val (O : Hw F) ≤ val t := fun hz => by
      have := h _ _ ma md
      rw [v0]; simpa [e0 hz] using this
    generalize hZ : mul (Hw.ivl a b ha hb) (Hw.ivl c d hc hd) = Z
    unfold mul at hZ
    split_ifs at hZ with h1 h2 h3 h4 h5 h6 h7 h8 h9 h10 h11 h12 <;> subst hZ <;>
      first
        | assumption
        | exact z1 ‹_›
        | exact z2 ‹_›
        | (dsimp only; split_ifs <;> assumption)

theorem C04_div {X Y Z : Interval (Hw F)} (hX : Hw.FinIvl X) (hY : Hw.FinIvl Y)
    (h : div X Y = .ok Z) : BestEnclosure (exactRange (· / ·) X Y) Z := by
  obtain ⟨a, b, ha, hb, hab, rfl⟩ := hX
  obtain ⟨c, d, hc, hd, hcd, rfl⟩ := hY
  have hab' : (a : ℝ) ≤ b := by exact_mod_cast hab
  have hcd' : (c : ℝ) ≤ d := by exact_mod_cast hcd
  have ma : (a : ℝ) ∈ Hw.ivl a b ha hb := Hw.mem_ivl.2 ⟨le_rfl, hab'⟩
  have mb : (b : ℝ) ∈ Hw.ivl a b ha hb := Hw.mem_ivl.2 ⟨hab', le_rfl⟩
  have mc : (c : ℝ) ∈ Hw.ivl c d hc hd := Hw.mem_ivl.2 ⟨le_rfl, hcd'⟩
  have md : (d : ℝ) ∈ Hw.ivl c d hc hd := Hw.mem_ivl.2 ⟨hcd', le_rfl⟩
  have hn : (0 : ℝ) ∉ Hw.ivl c d hc hd := fun h0 => by
    have := (C03_div_error_iff (Hw.ivl a b ha hb) h0).2 h0
    rw [h] at this; cases this
  have c0 : c ≠ 0 := by rintro rfl; exact hn (by simpa using mc)
  have d0 : d ≠ 0 := by rintro rfl; exact hn (by simpa using md)
  refine best_of ⟨a, c, ma, mc⟩ (fun x y hx hy => C03_div h hx hy) (fun t ht hh => ?_)
    (fun t ht hh => ?_)
  · have dac := divDown_best ha hc c0 ht (hh _ _ ma mc)
    have dad := divDown_best ha hd d0 ht (hh _ _ ma md)
    have dbc := divDown_best hb hc c0 ht (hh _ _ mb mc)
    have dbd := divDown_best hb hd d0 ht (hh _ _ mb md)
    unfold div at h
    split_ifs at h <;> cases h <;> assumption
  · have dac := divUp_best ha hc c0 ht (hh _ _ ma mc)
    have dad := divUp_best ha hd d0 ht (hh _ _ ma md)
    have dbc := divUp_best hb hc c0 ht (hh _ _ mb mc)
    have dbd := divUp_best hb hd d0 ht (hh _ _ mb md)
    unfold div at h
    split_ifs at h <;> cases h <;> assumption

theorem finIvl12 : Hw.FinIvl (Hw.ivl 1 2 rep1 rep2 : Interval D) := ⟨1, 2, rep1, rep2, by norm_num, rfl⟩
theorem finIvlm11 : Hw.FinIvl (Hw.ivl (-1) 1 repm1 rep1 : Interval D) :=
  ⟨-1, 1, repm1, rep1, by norm_num, rfl⟩

example : BestEnclosure (exactRange (· * ·) (Hw.ivl 1 2 rep1 rep2) (Hw.ivl (-1) 1 repm1 rep1))
    (mul (Hw.ivl 1 2 rep1 rep2 : Interval D) (Hw.ivl (-1) 1 repm1 rep1)) :=
  C04_mul finIvl12 finIvlm11

/-! ## C05: correct rounding of `sqrt` -/

theorem C05_sqrt_rounded {a b : ℚ} {ha : F.Rep a} {hb : F.Rep b} {Z : Interval (Hw F)}
    (hab : a ≤ b) (h : sqrt (Hw.ivl a b ha hb) = .ok Z) :
    BestLower {Real.sqrt a} Z.inf ∧ BestUpper {Real.sqrt b} Z.sup := by
  unfold sqrt at h
  split_ifs at h with h0
  cases h
  have ha0 : 0 ≤ a := by
    have := not_lt_zero_right h0 (by simp [Hw.ivl])
    simp only [Hw.ivl, Hw.val_fin] at this
    exact_mod_cast this
  obtain ⟨l1, l2, l3⟩ := Fl.sqrt_down_isDown ha ha0
  obtain ⟨u1, u2, u3⟩ := Fl.sqrt_up_isUp hb (ha0.trans hab)
  refine ⟨⟨l1, ?_, fun t ht hs => l3 t ht (hs _ rfl)⟩, ⟨u1, ?_, fun t ht hs => u3 t ht (hs _ rfl)⟩⟩
  · rintro s rfl; exact l2
  · rintro s rfl; exact u2

/-! ## C08 -/

/-- `mid` of a finite interval of doubles is a finite double inside the interval. -/
theorem C08_mid {a b : ℚ} {ha : F.Rep a} {hb : F.Rep b} (hab : a ≤ b) :
    ∃ (m : ℚ) (hm : F.Rep m), mid (Hw.ivl a b ha hb) = Hw.fin m hm ∧ a ≤ m ∧ m ≤ b := by
  have absfin : ∀ {q : ℚ} (h : F.Rep q), Rop.lt (Rop.lit 1 : Hw F) (Rop.abs (Hw.fin q h)) = true ↔
      1 < |q| := by
    intro q h
    have e1 : (Rop.lit 1 : Hw F) = Fl.fin 1 Format.rep_one := Fl.round_of_rep _ _
    rw [e1]
    show Fl.lt (Fl.fin 1 Format.rep_one) (Fl.abs (Fl.fin q h)) = true ↔ _
    simp only [Fl.abs]
    split_ifs with h0
    · rw [abs_of_nonneg h0]; simp [Fl.lt]
    · rw [abs_of_neg (not_le.1 h0)]; simp [Fl.lt]
  have ehalf : (Rop.lit (1 / 2) : Hw F) = Fl.fin (1 / 2) Format.rep_half := Fl.round_of_rep _ _
  unfold mid
  split_ifs with h
  · rw [Bool.and_eq_true] at h
    simp only [Hw.ivl] at h ⊢
    rw [absfin, absfin] at h
    have ra := rep_half_mul ha h.1.le
    have rb := rep_half_mul hb h.2.le
    have ea : Rop.mul (Hw.fin a ha) (Rop.lit (1 / 2) : Hw F) = Fl.fin _ ra := by
      rw [ehalf]; exact Fl.round_of_rep _ _
    have eb : Rop.mul (Hw.fin b hb) (Rop.lit (1 / 2) : Hw F) = Fl.fin _ rb := by
      rw [ehalf]; exact Fl.round_of_rep _ _
    rw [ea, eb]
    exact round_near_eq_fin ha hb (by linarith) (by linarith)
  · simp only [Hw.ivl] at h ⊢
    rw [Bool.and_eq_true, absfin, absfin, not_and_or, not_lt, not_lt] at h
    have ha' := abs_le.1 ha.abs_le
    have hb' := abs_le.1 hb.abs_le
    have hup : a + b ≤ F.maxQ + 1 := by
      rcases h with h | h
      · have := abs_le.1 h; linarith
      · have := abs_le.1 h; linarith
    have hlo : -(a + b) ≤ F.maxQ + 1 := by
      rcases h with h | h
      · have := abs_le.1 h; linarith
      · have := abs_le.1 h; linarith
    have o1 := roundQ_near_no_overflow hup
    have o2 := roundQ_near_no_overflow hlo
    rw [Format.roundQ_neg_near] at o2
    have habs : |F.roundQ .near (a + b)| ≤ F.maxQ := by rw [abs_le]; constructor <;> linarith
    set s := F.roundQ .near (a + b) with hs
    have hsr : F.Rep s := Format.rep_of_repU (Format.roundQ_repU _ _) habs
    have es : Rop.add (Hw.fin a ha) (Hw.fin b hb) = (Fl.fin s hsr : Fl F) := by
      show Fl.round .near (a + b) = _
      unfold Fl.round Fl.pack
      rw [dif_pos habs]
    have l : 2 * a ≤ s := Format.le_roundQ_of_le .near (RepU.two_mul ha.repU) (by linarith)
    have u : s ≤ 2 * b := Format.roundQ_le_of_le .near (RepU.two_mul hb.repU) (by linarith)
    rw [es, ehalf]
    exact round_near_eq_fin ha hb (by linarith) (by linarith)

/-- With C09: for finite intervals of doubles the centre is real and the radius bounds. -/
theorem C09_midrad_double {a b : ℚ} {ha : F.Rep a} {hb : F.Rep b} (hab : a ≤ b) :
    ∃ (m : ℚ) (hm : F.Rep m), (midrad (Hw.ivl a b ha hb)).1 = Hw.fin m hm ∧ a ≤ m ∧ m ≤ b ∧
      ∀ x : ℝ, x ∈ Hw.ivl a b ha hb → Hi (midrad (Hw.ivl a b ha hb)).2 |x - m| := by
  obtain ⟨m, hm, e, h1, h2⟩ := C08_mid (ha := ha) (hb := hb) hab
  have e' : (midrad (Hw.ivl a b ha hb)).1 = Hw.fin m hm := e
  exact ⟨m, hm, e', h1, h2, fun x hx => C09_midrad hx (by rw [e']; simp) (by rw [e']; rfl)⟩

/-- the largest finite interval -/
example : ∃ (m : ℚ) (hm : binary64.Rep m),
    mid (Hw.ivl (-binary64.maxQ) binary64.maxQ Format.maxQ_rep.neg Format.maxQ_rep) = Hw.fin m hm :=
  let ⟨m, hm, h, _⟩ := C08_mid (F := binary64) (ha := Format.maxQ_rep.neg) (hb := Format.maxQ_rep)
    (by have := Format.maxQ_pos (F := binary64); linarith)
  ⟨m, hm, h⟩

end Kv
