import Verif.Props.Arith

/-!
# C06, C07, C09, C10: comparisons, set operations, width, magnitude

Specification: statements about all real members of the intervals.
`Interval.Nonempty X` means that some real number belongs to `X`.
-/

namespace Kv
open RopSem Kv.Interval

variable {T : Type} [RopSem T]

/-- Some real number belongs to the interval. -/
def Interval.Nonempty (X : Interval T) : Prop := ∃ x : ℝ, x ∈ X

theorem E_real_between {a b : EReal} (h : a ≤ b) (ha : a ≠ ⊤) (hb : b ≠ ⊥) :
    ∃ r : ℝ, a ≤ (r : EReal) ∧ (r : EReal) ≤ b := by
  induction a with
  | top => exact absurd rfl ha
  | coe a => exact ⟨a, le_rfl, h⟩
  | bot =>
    induction b with
    | bot => exact absurd rfl hb
    | coe b => exact ⟨b, bot_le, le_rfl⟩
    | top => exact ⟨0, bot_le, le_top⟩

/-- membership when the ends are known not to be NaN -/
theorem Interval.mem_iff' {X : Interval T} (h : X.Nonempty) {x : ℝ} :
    x ∈ X ↔ val X.inf ≤ (x : EReal) ∧ (x : EReal) ≤ val X.sup := by
  obtain ⟨y, h1, h2⟩ := h
  rw [mem_iff]; simp [h1.1, h2.1]

/-- every extended real below the supremum is exceeded by a member, up to the supremum -/
theorem Interval.exists_ge {X : Interval T} (h : X.Nonempty) {c : EReal} (hc : c < val X.sup) :
    ∃ x : ℝ, x ∈ X ∧ c < (x : EReal) := by
  obtain ⟨x0, h0⟩ := h
  have hm := fun x : ℝ => mem_iff' (x := x) ⟨x0, h0⟩
  rw [hm _] at h0
  obtain ⟨r, hr1, hr2⟩ := EReal.lt_iff_exists_real_btwn.1 hc
  refine ⟨Max.max r x0, (hm _).2 ⟨h0.1.trans (by exact_mod_cast le_max_right _ _), ?_⟩, ?_⟩
  · rcases max_cases r x0 with h | h <;> rw [h.1]
    · exact hr2.le
    · exact h0.2
  · exact hr1.trans_le (by exact_mod_cast le_max_left _ _)

theorem Interval.exists_le {X : Interval T} (h : X.Nonempty) {c : EReal} (hc : val X.inf < c) :
    ∃ x : ℝ, x ∈ X ∧ (x : EReal) < c := by
  obtain ⟨x0, h0⟩ := h
  have hm := fun x : ℝ => mem_iff' (x := x) ⟨x0, h0⟩
  rw [hm _] at h0
  obtain ⟨r, hr1, hr2⟩ := EReal.lt_iff_exists_real_btwn.1 hc
  refine ⟨Min.min r x0, (hm _).2 ⟨?_, le_trans (by exact_mod_cast min_le_right _ _) h0.2⟩, ?_⟩
  · rcases min_cases r x0 with h | h <;> rw [h.1]
    · exact hr1.le
    · exact h0.1
  · exact lt_of_le_of_lt (by exact_mod_cast min_le_left _ _) hr2

theorem Interval.Nonempty.not_nan {X : Interval T} (h : X.Nonempty) :
    ¬ nan X.inf ∧ ¬ nan X.sup ∧ val X.inf ≠ ⊤ ∧ val X.sup ≠ ⊥ ∧ val X.inf ≤ val X.sup := by
  obtain ⟨x, h1, h2⟩ := h
  exact ⟨h1.1, h2.1, h1.ne_top, h2.ne_bot, h1.2.trans h2.2⟩

/-- the supremum of a nonempty interval is finite and attained, or it is `⊤` -/
theorem Interval.sup_mem_or {X : Interval T} (h : X.Nonempty) :
    (∃ s : ℝ, val X.sup = s ∧ s ∈ X) ∨ val X.sup = ⊤ := by
  obtain ⟨n1, n2, n3, n4, n5⟩ := h.not_nan
  rcases E_cases (val X.sup) with (hs | hs) | ⟨s, hs⟩
  · exact Or.inr hs
  · exact absurd hs n4
  · exact Or.inl ⟨s, hs, (mem_iff' h).2 ⟨hs ▸ n5, hs.ge⟩⟩

theorem Interval.inf_mem_or {X : Interval T} (h : X.Nonempty) :
    (∃ s : ℝ, val X.inf = s ∧ s ∈ X) ∨ val X.inf = ⊥ := by
  obtain ⟨n1, n2, n3, n4, n5⟩ := h.not_nan
  rcases E_cases (val X.inf) with (hs | hs) | ⟨s, hs⟩
  · exact absurd hs n3
  · exact Or.inr hs
  · exact Or.inl ⟨s, hs, (mem_iff' h).2 ⟨hs.le, hs ▸ n5⟩⟩

/-! ## C06 -/

theorem C06_lt {X Y : Interval T} (hX : X.Nonempty) (hY : Y.Nonempty) :
    ltI X Y = true ↔ ∀ x y : ℝ, x ∈ X → y ∈ Y → x < y := by
  unfold ltI
  rw [lt_iff]
  constructor
  · rintro ⟨-, -, h⟩ x y hx hy
    exact_mod_cast (hx.2.2.trans_lt h).trans_le hy.1.2
  · intro h
    refine ⟨hX.not_nan.2.1, hY.not_nan.1, ?_⟩
    by_contra hc
    rcases lt_or_eq_of_le (not_lt.1 hc) with hc | hc
    · obtain ⟨x, hx, hx'⟩ := exists_ge hX hc
      obtain ⟨y, hy, hy'⟩ := exists_le hY (c := x) hx'
      exact absurd (h x y hx hy) (not_lt.2 (by exact_mod_cast hy'.le))
    · rcases sup_mem_or hX with ⟨s, hs, hs'⟩ | hs
      · rcases inf_mem_or hY with ⟨t, ht, ht'⟩ | ht
        · have := h s t hs' ht'
          rw [hs, ht] at hc
          have : s = t := by exact_mod_cast hc.symm
          subst this; exact absurd (h s s hs' ht') (lt_irrefl _)
        · rw [hs, ht] at hc; simp at hc
      · rw [hs] at hc; exact hY.not_nan.2.2.1 hc

theorem C06_le {X Y : Interval T} (hX : X.Nonempty) (hY : Y.Nonempty) :
    leI X Y = true ↔ ∀ x y : ℝ, x ∈ X → y ∈ Y → x ≤ y := by
  unfold leI
  rw [le_iff]
  constructor
  · rintro ⟨-, -, h⟩ x y hx hy
    exact_mod_cast (hx.2.2.trans h).trans hy.1.2
  · intro h
    refine ⟨hX.not_nan.2.1, hY.not_nan.1, ?_⟩
    by_contra hc
    obtain ⟨x, hx, hx'⟩ := exists_ge hX (not_le.1 hc)
    obtain ⟨y, hy, hy'⟩ := exists_le hY (c := x) hx'
    exact absurd (h x y hx hy) (not_le.2 (by exact_mod_cast hy'))

theorem C06_gt {X Y : Interval T} (hX : X.Nonempty) (hY : Y.Nonempty) :
    gtI X Y = true ↔ ∀ x y : ℝ, x ∈ X → y ∈ Y → x > y := by
  have := C06_lt hY hX
  unfold gtI; unfold ltI at this
  rw [this]
  exact ⟨fun h x y hx hy => h y x hy hx, fun h y x hy hx => h x y hx hy⟩

theorem C06_ge {X Y : Interval T} (hX : X.Nonempty) (hY : Y.Nonempty) :
    geI X Y = true ↔ ∀ x y : ℝ, x ∈ X → y ∈ Y → x ≥ y := by
  have := C06_le hY hX
  unfold geI; unfold leI at this
  rw [this]
  exact ⟨fun h x y hx hy => h y x hy hx, fun h y x hy hx => h x y hx hy⟩

theorem C06_eq {X Y : Interval T} (hX : X.Nonempty) (hY : Y.Nonempty) :
    eqI X Y = true ↔ ∃ c : ℝ, (∀ x : ℝ, x ∈ X ↔ x = c) ∧ ∀ y : ℝ, y ∈ Y ↔ y = c := by
  unfold eqI
  rw [Bool.and_eq_true, Bool.and_eq_true, eq_iff, eq_iff, eq_iff]
  have nx := hX.not_nan
  have ny := hY.not_nan
  constructor
  · rintro ⟨⟨⟨-, -, e1⟩, -, -, e2⟩, -, -, e3⟩
    obtain ⟨c, hc⟩ : ∃ c : ℝ, val X.inf = c := by
      rcases E_cases (val X.inf) with (h | h) | h
      · exact absurd h nx.2.2.1
      · exact absurd (e1.symm.trans h) nx.2.2.2.1
      · exact h
    refine ⟨c, fun x => ?_, fun y => ?_⟩
    · rw [mem_iff' hX, ← e1, hc]
      constructor
      · rintro ⟨h1, h2⟩; exact le_antisymm (by exact_mod_cast h2) (by exact_mod_cast h1)
      · rintro rfl; exact ⟨le_rfl, le_rfl⟩
    · rw [mem_iff' hY, ← e3, ← e2, ← e1, hc]
      constructor
      · rintro ⟨h1, h2⟩; exact le_antisymm (by exact_mod_cast h2) (by exact_mod_cast h1)
      · rintro rfl; exact ⟨le_rfl, le_rfl⟩
  · rintro ⟨c, h1, h2⟩
    have key : ∀ {Z : Interval T}, Z.Nonempty → (∀ x : ℝ, x ∈ Z ↔ x = c) →
        val Z.inf = c ∧ val Z.sup = c := by
      intro Z hZ h
      constructor
      · rcases inf_mem_or hZ with ⟨s, hs, hs'⟩ | hs
        · rw [hs, (h s).1 hs']
        · obtain ⟨x, hx, hx'⟩ := exists_le hZ (c := (c : EReal)) (by rw [hs]; exact EReal.bot_lt_coe c)
          rw [(h x).1 hx] at hx'; exact absurd hx' (lt_irrefl _)
      · rcases sup_mem_or hZ with ⟨s, hs, hs'⟩ | hs
        · rw [hs, (h s).1 hs']
        · obtain ⟨x, hx, hx'⟩ := exists_ge hZ (c := (c : EReal)) (by rw [hs]; exact EReal.coe_lt_top c)
          rw [(h x).1 hx] at hx'; exact absurd hx' (lt_irrefl _)
    obtain ⟨a, b⟩ := key hX h1
    obtain ⟨a', b'⟩ := key hY h2
    exact ⟨⟨⟨nx.1, nx.2.1, a.trans b.symm⟩, nx.2.1, ny.1, b.trans a'.symm⟩, ny.1, ny.2.1,
      a'.trans b'.symm⟩

/-- the common points of two intervals -/
theorem Interval.mem_intersect {X Y : Interval T} (hX : ¬ nan X.inf ∧ ¬ nan X.sup)
    (hY : ¬ nan Y.inf ∧ ¬ nan Y.sup) {x : ℝ} : x ∈ intersect X Y ↔ x ∈ X ∧ x ∈ Y := by
  have m : ∀ Z : Interval T, (¬ nan Z.inf ∧ ¬ nan Z.sup) →
      (x ∈ Z ↔ val Z.inf ≤ (x : EReal) ∧ (x : EReal) ≤ val Z.sup) := by
    intro Z hZ; rw [mem_iff]; simp [hZ.1, hZ.2]
  have n1 : ¬ nan (intersect X Y).inf ∧ ¬ nan (intersect X Y).sup := by
    unfold intersect; dsimp only
    constructor <;> split_ifs <;> tauto
  rw [m X hX, m Y hY, m _ n1]
  unfold intersect; dsimp only
  have e1 : val (if Rop.lt X.inf Y.inf then Y.inf else X.inf) = Max.max (val X.inf) (val Y.inf) := by
    split_ifs with h <;> rw [lt_iff] at h
    · exact (max_eq_right h.2.2.le).symm
    · push Not at h; exact (max_eq_left (h hX.1 hY.1)).symm
  have e2 : val (if Rop.lt Y.sup X.sup then Y.sup else X.sup) = Min.min (val X.sup) (val Y.sup) := by
    split_ifs with h <;> rw [lt_iff] at h
    · exact (min_eq_right h.2.2.le).symm
    · push Not at h; exact (min_eq_left (h hY.2 hX.2)).symm
  rw [e1, e2, max_le_iff, le_min_iff]
  tauto

theorem overlap_iff {X Y : Interval T} (hX : X.Nonempty) (hY : Y.Nonempty) :
    overlap X Y = true ↔ ∃ x : ℝ, x ∈ X ∧ x ∈ Y := by
  have nx := hX.not_nan
  have ny := hY.not_nan
  have e : overlap X Y = Rop.le (intersect X Y).inf (intersect X Y).sup := rfl
  rw [e, le_iff]
  constructor
  · rintro ⟨h1, h2, h3⟩
    have t1 : val (intersect X Y).inf ≠ ⊤ := by
      unfold intersect; dsimp only; split_ifs
      · exact ny.2.2.1
      · exact nx.2.2.1
    have t2 : val (intersect X Y).sup ≠ ⊥ := by
      unfold intersect; dsimp only; split_ifs
      · exact ny.2.2.2.1
      · exact nx.2.2.2.1
    obtain ⟨r, hr1, hr2⟩ := E_real_between h3 t1 t2
    exact ⟨r, (mem_intersect ⟨nx.1, nx.2.1⟩ ⟨ny.1, ny.2.1⟩).1 ⟨⟨h1, hr1⟩, h2, hr2⟩⟩
  · rintro ⟨x, hx, hy⟩
    have := (mem_intersect ⟨nx.1, nx.2.1⟩ ⟨ny.1, ny.2.1⟩).2 ⟨hx, hy⟩
    exact ⟨this.1.1, this.2.1, this.1.2.trans this.2.2⟩

theorem C06_ne {X Y : Interval T} (hX : X.Nonempty) (hY : Y.Nonempty) :
    neI X Y = true ↔ ∀ x : ℝ, ¬ (x ∈ X ∧ x ∈ Y) := by
  unfold neI
  rw [Bool.not_eq_true', ← Bool.not_eq_true, overlap_iff hX hY, not_exists]

/-- The mixed comparisons agree with the comparison with the point interval. -/
theorem C06_mixed (X : Interval T) (k : T) :
    ltIS X k = ltI X (point k) ∧ ltSI k X = ltI (point k) X ∧
    leIS X k = leI X (point k) ∧ leSI k X = leI (point k) X ∧
    gtIS X k = gtI X (point k) ∧ gtSI k X = gtI (point k) X ∧
    geIS X k = geI X (point k) ∧ geSI k X = geI (point k) X ∧
    neIS X k = neI X (point k) ∧ neSI k X = neI (point k) X ∧
    (¬ nan k → eqIS X k = eqI X (point k) ∧ eqSI k X = eqI (point k) X) := by
  refine ⟨rfl, rfl, rfl, rfl, rfl, rfl, rfl, rfl, rfl, rfl, fun hk => ?_⟩
  have hkk : Rop.eq k k = true := (eq_iff k k).2 ⟨hk, hk, rfl⟩
  have hc : ∀ a b : T, Rop.eq a b = Rop.eq b a := by
    intro a b; rw [Bool.eq_iff_iff, eq_iff, eq_iff]; constructor <;> rintro ⟨p, q, r⟩ <;>
      exact ⟨q, p, r.symm⟩
  constructor
  · simp [eqIS, eqI, point, hkk]
  · simp only [eqSI, eqI, point, hkk, Bool.true_and]
    rw [Bool.eq_iff_iff, Bool.and_eq_true, Bool.and_eq_true, eq_iff, eq_iff, eq_iff]
    constructor
    · rintro ⟨⟨a, b, c⟩, d, e, f⟩; exact ⟨⟨e, a, f.symm.trans c.symm⟩, a, b, c⟩
    · rintro ⟨⟨a, b, c⟩, d, e, f⟩; exact ⟨⟨d, e, f⟩, e, a, f.symm.trans c.symm⟩

/-- NaN endpoints: the four order comparisons and `==` are false when an endpoint they look at is
NaN. -/
theorem C06_nan (X Y : Interval T) :
    (nan X.sup ∨ nan Y.inf → ltI X Y = false ∧ leI X Y = false) ∧
    (nan X.inf ∨ nan Y.sup → gtI X Y = false ∧ geI X Y = false) ∧
    (nan X.inf ∨ nan X.sup ∨ nan Y.inf ∨ nan Y.sup → eqI X Y = false) := by
  refine ⟨fun h => ⟨?_, ?_⟩, fun h => ⟨?_, ?_⟩, fun h => ?_⟩
  · rw [← Bool.not_eq_true]; unfold ltI; rw [lt_iff]; tauto
  · rw [← Bool.not_eq_true]; unfold leI; rw [le_iff]; tauto
  · rw [← Bool.not_eq_true]; unfold gtI; rw [lt_iff]; tauto
  · rw [← Bool.not_eq_true]; unfold geI; rw [le_iff]; tauto
  · rw [← Bool.not_eq_true]; unfold eqI
    rw [Bool.and_eq_true, Bool.and_eq_true, eq_iff, eq_iff, eq_iff]; tauto

theorem ivl12_nonempty : (Hw.ivl 1 2 rep1 rep2 : Interval D).Nonempty :=
  ⟨1, Hw.mem_ivl.2 (by norm_num)⟩
theorem ivl23_nonempty : (Hw.ivl 2 3 rep2 rep3 : Interval D).Nonempty :=
  ⟨2, Hw.mem_ivl.2 (by norm_num)⟩

/-- `[1,2] <= [2,3]` holds, `[1,2] < [2,3]` does not -/
example : leI (Hw.ivl 1 2 rep1 rep2 : Interval D) (Hw.ivl 2 3 rep2 rep3) = true ∧
    ltI (Hw.ivl 1 2 rep1 rep2 : Interval D) (Hw.ivl 2 3 rep2 rep3) = false := by
  rw [C06_le ivl12_nonempty ivl23_nonempty, ← Bool.not_eq_true, C06_lt ivl12_nonempty ivl23_nonempty]
  constructor
  · intro x y hx hy; rw [Hw.mem_ivl] at hx hy; push_cast at hx hy; linarith
  · intro h
    have := h 2 2 (Hw.mem_ivl.2 (by norm_num)) (Hw.mem_ivl.2 (by norm_num))
    exact lt_irrefl _ this

/-! ## C07 -/

theorem C07_in {X : Interval T} {k : T} {c : ℝ} (hk : ¬ nan k ∧ val k = c) :
    mem k X = true ↔ c ∈ X := by
  unfold mem
  rw [Bool.and_eq_true, le_iff, le_iff, mem_iff, hk.2]
  have := hk.1; tauto

theorem C07_zero_in (X : Interval T) : zeroIn X = true ↔ (0 : ℝ) ∈ X := by
  have := C07_in (X := X) (k := (Rop.lit 0 : T)) (c := 0) ⟨lit_zero.1, by rw [lit_zero.2]; rfl⟩
  exact this

theorem C07_subset {X Y : Interval T} (hX : X.Nonempty) :
    subset X Y = true ↔ ∀ x : ℝ, x ∈ X → x ∈ Y := by
  have nx := hX.not_nan
  unfold subset
  rw [Bool.and_eq_true, le_iff, le_iff]
  constructor
  · rintro ⟨⟨h1, h2, h3⟩, h4, h5, h6⟩ x hx
    exact ⟨⟨h1, h3.trans hx.1.2⟩, h5, hx.2.2.trans h6⟩
  · intro h
    obtain ⟨x0, hx0⟩ := hX
    have hY := h x0 hx0
    refine ⟨⟨hY.1.1, nx.1, ?_⟩, nx.2.1, hY.2.1, ?_⟩
    · by_contra hc
      obtain ⟨x, hx, hx'⟩ := exists_le ⟨x0, hx0⟩ (not_le.1 hc)
      exact absurd (h x hx).1.2 (not_le.2 hx')
    · by_contra hc
      obtain ⟨x, hx, hx'⟩ := exists_ge ⟨x0, hx0⟩ (not_le.1 hc)
      exact absurd (h x hx).2.2 (not_le.2 hx')

theorem C07_proper_subset {X Y : Interval T} (hX : X.Nonempty) :
    properSubset X Y = true ↔ (∀ x : ℝ, x ∈ X → x ∈ Y) ∧ ∃ y : ℝ, y ∈ Y ∧ y ∉ X := by
  have nx := hX.not_nan
  unfold properSubset
  rw [Bool.and_eq_true, C07_subset hX, Bool.or_eq_true, lt_iff, lt_iff]
  refine and_congr_right fun hs => ?_
  obtain ⟨x0, hx0⟩ := hX
  have hY := hs x0 hx0
  have hYn : Y.Nonempty := ⟨x0, hY⟩
  constructor
  · rintro (⟨-, -, h⟩ | ⟨-, -, h⟩)
    · obtain ⟨y, hy, hy'⟩ := exists_le hYn h
      exact ⟨y, hy, fun hc => absurd hc.1.2 (not_le.2 hy')⟩
    · obtain ⟨y, hy, hy'⟩ := exists_ge hYn h
      exact ⟨y, hy, fun hc => absurd hc.2.2 (not_le.2 hy')⟩
  · rintro ⟨y, hy, hy'⟩
    rw [mem_iff' ⟨x0, hx0⟩, not_and_or, not_le, not_le] at hy'
    rcases hy' with h | h
    · exact Or.inl ⟨hY.1.1, nx.1, hy.1.2.trans_lt h⟩
    · exact Or.inr ⟨nx.2.1, hY.2.1, h.trans_le hy.2.2⟩

theorem C07_overlap {X Y : Interval T} (hX : X.Nonempty) (hY : Y.Nonempty) :
    overlap X Y = true ↔ ∃ x : ℝ, x ∈ X ∧ x ∈ Y := overlap_iff hX hY

/-- `intersect` denotes exactly the common points, also when there are none. -/
theorem C07_intersect {X Y : Interval T} (hX : ¬ nan X.inf ∧ ¬ nan X.sup)
    (hY : ¬ nan Y.inf ∧ ¬ nan Y.sup) (x : ℝ) : x ∈ intersect X Y ↔ x ∈ X ∧ x ∈ Y :=
  mem_intersect hX hY

/-- `hull` contains both operands ... -/
theorem C07_hull_contains {X Y : Interval T} (hX : X.Nonempty) (hY : Y.Nonempty) {x : ℝ}
    (h : x ∈ X ∨ x ∈ Y) : x ∈ hull X Y :=
  ⟨hull_lo (h.imp (·.1) (·.1)) hX.not_nan.1 hY.not_nan.1,
   hull_hi (h.imp (·.2) (·.2)) hX.not_nan.2.1 hY.not_nan.2.1⟩

/-- ... and is contained in every interval that contains both. -/
theorem C07_hull_least {X Y Z : Interval T} (hX : X.Nonempty) (hY : Y.Nonempty)
    (hXZ : ∀ x : ℝ, x ∈ X → x ∈ Z) (hYZ : ∀ y : ℝ, y ∈ Y → y ∈ Z) {x : ℝ} (h : x ∈ hull X Y) :
    x ∈ Z := by
  have s1 := (C07_subset hX).2 hXZ
  have s2 := (C07_subset hY).2 hYZ
  unfold subset at s1 s2
  rw [Bool.and_eq_true, le_iff, le_iff] at s1 s2
  obtain ⟨⟨z1, -, a⟩, -, z2, b⟩ := s1
  obtain ⟨⟨-, -, a'⟩, -, -, b'⟩ := s2
  refine ⟨⟨z1, le_trans ?_ h.1.2⟩, z2, h.2.2.trans ?_⟩
  · unfold hull; dsimp only; split_ifs <;> assumption
  · unfold hull; dsimp only; split_ifs <;> assumption

/-- The scalar forms of `hull`. -/
theorem C07_hull_mixed {X : Interval T} {k : T} {x c : ℝ} (hX : X.Nonempty) (hk : ¬ nan k ∧ val k = c)
    (h : x ∈ X ∨ x = c) : x ∈ hullS X k ∧ x ∈ sHull k X := by
  have nx := hX.not_nan
  have l : Lo X.inf x ∨ Lo k x := h.imp (·.1) (by rintro rfl; exact ⟨hk.1, hk.2.le⟩)
  have u : Hi X.sup x ∨ Hi k x := h.imp (·.2) (by rintro rfl; exact ⟨hk.1, hk.2.ge⟩)
  exact ⟨⟨lo_ite_min l.symm hk.1 nx.1, hi_ite_max u nx.2.1 hk.1⟩,
    ⟨lo_ite_min l nx.1 hk.1, hi_ite_max u.symm hk.1 nx.2.1⟩⟩

theorem C07_hull_scalars {k l : T} {c d x : ℝ} (hk : ¬ nan k ∧ val k = c) (hl : ¬ nan l ∧ val l = d) :
    x ∈ hullSS k l ↔ Min.min c d ≤ x ∧ x ≤ Max.max c d := by
  unfold hullSS
  have hlt : Rop.lt k l = true ↔ c < d := by
    rw [lt_iff, hk.2, hl.2]
    have := hk.1; have := hl.1
    simp only [*, not_false_iff, true_and]; exact_mod_cast Iff.rfl
  split_ifs with h
  · have h' := hlt.1 h
    rw [mem_iff, min_eq_left h'.le, max_eq_right h'.le]
    simp [hk.1, hl.1, hk.2, hl.2]
  · have h' : d ≤ c := not_lt.1 fun hc => h (hlt.2 hc)
    rw [mem_iff, min_eq_right h', max_eq_left h']
    simp [hk.1, hl.1, hk.2, hl.2]

example : ∃ x : ℝ, x ∈ hull (Hw.ivl 1 2 rep1 rep2 : Interval D) (Hw.ivl 2 3 rep2 rep3) :=
  ⟨1, C07_hull_contains ivl12_nonempty ivl23_nonempty (Or.inl (Hw.mem_ivl.2 (by norm_num)))⟩

example : overlap (Hw.ivl 1 2 rep1 rep2 : Interval D) (Hw.ivl 2 3 rep2 rep3) = true :=
  (C07_overlap ivl12_nonempty ivl23_nonempty).2
    ⟨2, Hw.mem_ivl.2 (by norm_num), Hw.mem_ivl.2 (by norm_num)⟩

/-! ## C09 -/

theorem C09_width {X : Interval T} {x y : ℝ} (hx : x ∈ X) (hy : y ∈ X) :
    Hi (width X) |x - y| := by
  have h1 : Hi (width X) (x - y) := hx.2.sub hy.1
  have h2 : Hi (width X) (y - x) := hy.2.sub hx.1
  rcases abs_cases (x - y) with h | h <;> rw [h.1]
  · exact h1
  · rwa [neg_sub]

theorem C09_rad {X : Interval T} {x y : ℝ} (hx : x ∈ X) (hy : y ∈ X) :
    Hi (rad X) (|x - y| / 2) := by
  have h := C09_width hx hy
  unfold rad
  have hz : NoZI (val (Rop.subUp X.sup X.inf)) (val (Rop.lit (1 / 2) : T)) := by
    rw [lit_half.2]
    refine ⟨fun _ => ⟨EReal.coe_ne_top _, EReal.coe_ne_bot _⟩, fun h => ?_⟩
    rw [EReal.coe_eq_zero] at h; norm_num at h
  refine hi_mul h.1 lit_half.1 hz ?_
  rw [lit_half.2, div_eq_mul_one_div]
  exact E_mul1 (abs_nonneg _) h.2 le_rfl (by
    have : (0 : ℝ) ≤ 1 / 2 := by norm_num
    exact_mod_cast this)

/-- If the computed centre is a real number `c`, the computed radius bounds the distance from it. -/
theorem C09_midrad {X : Interval T} {x c : ℝ} (hx : x ∈ X) (hm : ¬ nan (midrad X).1)
    (hc : val (midrad X).1 = c) : Hi (midrad X).2 |x - c| := by
  unfold midrad at hm hc ⊢
  dsimp only at hm hc ⊢
  have l : Lo (mid X) c := ⟨hm, hc.le⟩
  have h : Hi (mid X) c := ⟨hm, hc.ge⟩
  have h1 := hx.2.sub l
  have h2 := h.sub hx.1
  rcases abs_cases (x - c) with h' | h' <;> rw [h'.1]
  · exact hi_ite_max (Or.inl h1) h1.1 h2.1
  · rw [neg_sub]; exact hi_ite_max (Or.inr h2) h1.1 h2.1

/-! ## C10 -/

/-- `mag` is an upper bound of `|x|` over the interval ... -/
theorem C10_mag_bound {X : Interval T} {x : ℝ} (hx : x ∈ X) : Hi (mag X) |x| := norm_hi hx

/-- ... and is attained, unless it is `+∞`. -/
theorem C10_mag_attained {X : Interval T} (hX : X.Nonempty) :
    val (mag X) = ⊤ ∨ ∃ x : ℝ, x ∈ X ∧ val (mag X) = (|x| : ℝ) := by
  have nx := hX.not_nan
  have S := sup_mem_or hX
  have I := inf_mem_or hX
  unfold mag norm
  simp only [O]
  have viaSup : 0 ≤ val X.sup → (val X.sup = ⊤ ∨ ∃ x : ℝ, x ∈ X ∧ val X.sup = (|x| : ℝ)) := by
    intro h
    rcases S with ⟨s, hs, hs'⟩ | hs
    · right; refine ⟨s, hs', ?_⟩
      rw [hs] at h ⊢; rw [abs_of_nonneg (by exact_mod_cast h)]
    · exact Or.inl hs
  have viaInf : val X.inf ≤ 0 → (val (Rop.neg X.inf) = ⊤ ∨
      ∃ x : ℝ, x ∈ X ∧ val (Rop.neg X.inf) = (|x| : ℝ)) := by
    intro h
    rw [val_neg _ nx.1]
    rcases I with ⟨s, hs, hs'⟩ | hs
    · right; refine ⟨s, hs', ?_⟩
      rw [hs] at h ⊢; rw [abs_of_nonpos (by exact_mod_cast h)]; simp
    · left; rw [hs]; rfl
  split_ifs with h1 h2 h3
  · rw [le_zero_left] at h1; exact viaSup (h1.2.trans nx.2.2.2.2)
  · rw [le_zero_right] at h2; exact viaInf (nx.2.2.2.2.trans h2.2)
  · exact viaSup (not_le_zero_right h2 nx.2.1).le
  · exact viaInf (not_le_zero_left h1 nx.1).le

/-- `mig` is a lower bound of `|x|` ... -/
theorem C10_mig_bound {X : Interval T} {x : ℝ} (hx : x ∈ X) : Lo (mig X) |x| := by
  unfold mig
  split_ifs with h1 h2
  · exact lo_zero_iff.2 (abs_nonneg x)
  · simp only [O] at h2
    rw [lt_zero_left] at h2
    exact hx.1.mono (le_abs_self x)
  · have nz : ¬ zeroIn X = true := h1
    have h3 := not_lt_zero_left h2 hx.1.1
    have h4 : val X.sup < 0 := by
      by_contra hc
      exact nz ((C07_zero_in X).2 ⟨⟨hx.1.1, h3⟩, hx.2.1, not_lt.1 hc⟩)
    have := hx.2.neg
    rwa [abs_of_neg (E_neg_of h4 hx.2.2)]

/-- ... and is attained. -/
theorem C10_mig_attained {X : Interval T} (hX : X.Nonempty) :
    ∃ x : ℝ, x ∈ X ∧ val (mig X) = (|x| : ℝ) := by
  have nx := hX.not_nan
  unfold mig
  split_ifs with h1 h2
  · exact ⟨0, (C07_zero_in X).1 h1, by rw [abs_zero]; exact lit_zero.2⟩
  · simp only [O] at h2; rw [lt_zero_left] at h2
    rcases inf_mem_or hX with ⟨s, hs, hs'⟩ | hs
    · refine ⟨s, hs', ?_⟩
      rw [hs] at h2 ⊢; rw [abs_of_pos (by exact_mod_cast h2.2)]
    · rw [hs] at h2; simp at h2
  · have h3 := not_lt_zero_left h2 nx.1
    have h4 : val X.sup < 0 := by
      by_contra hc
      exact h1 ((C07_zero_in X).2 ⟨⟨nx.1, h3⟩, nx.2.1, not_lt.1 hc⟩)
    rcases sup_mem_or hX with ⟨s, hs, hs'⟩ | hs
    · refine ⟨s, hs', ?_⟩
      rw [val_neg _ nx.2.1, hs]; rw [hs] at h4
      rw [abs_of_neg (by exact_mod_cast h4)]; simp
    · rw [hs] at h4; simp at h4

/-- `abs X` denotes exactly the absolute values of the members. -/
theorem C10_abs {X : Interval T} (hX : X.Nonempty) (y : ℝ) :
    y ∈ abs X ↔ ∃ x : ℝ, x ∈ X ∧ |x| = y := by
  have nx := hX.not_nan
  have M := fun {x : ℝ} => mem_iff' (x := x) hX
  unfold Interval.abs
  simp only [O]
  split_ifs with h1 h2 h3
  · rw [le_zero_left] at h1
    constructor
    · intro h; exact ⟨y, h, abs_of_nonneg (coe_nonneg h1.2 h.1.2)⟩
    · rintro ⟨x, hx, rfl⟩; rwa [abs_of_nonneg (coe_nonneg h1.2 hx.1.2)]
  · rw [le_zero_right] at h2
    constructor
    · intro h
      have hn : Hi X.sup (-y) := by
        have := h.1
        refine ⟨nx.2.1, ?_⟩
        have h' := this.2
        change val (Rop.neg X.sup) ≤ _ at h'
        rw [val_neg _ nx.2.1] at h'
        rw [EReal.coe_neg]; exact EReal.neg_le_of_neg_le h'
      have hn' : Lo X.inf (-y) := by
        have := h.2
        refine ⟨nx.1, ?_⟩
        have h' := this.2
        change _ ≤ val (Rop.neg X.inf) at h'
        rw [val_neg _ nx.1] at h'
        rw [EReal.coe_neg]; exact EReal.le_neg_of_le_neg h'
      refine ⟨-y, ⟨hn', hn⟩, ?_⟩
      rw [abs_of_nonpos (coe_nonpos h2.2 hn.2)]; simp
    · rintro ⟨x, hx, rfl⟩
      rw [abs_of_nonpos (coe_nonpos h2.2 hx.2.2)]
      exact C01_neg hx
  all_goals
    have p := not_le_zero_left h1 nx.1
    have q := not_le_zero_right h2 nx.2.1
    have hneg : ¬ nan (Rop.neg X.inf) := fun h => nx.1 ((nan_neg _).1 h)
    have vneg := val_neg X.inf nx.1
  · rw [lt_iff] at h3
    have h3 := h3.2.2
    rw [vneg] at h3
    constructor
    · intro h
      have hy0 : 0 ≤ y := lo_zero_iff.1 h.1
      exact ⟨y, M.2 ⟨p.le.trans (by exact_mod_cast hy0), h.2.2⟩, abs_of_nonneg hy0⟩
    · rintro ⟨x, hx, rfl⟩
      refine ⟨lo_zero_iff.2 (abs_nonneg _), nx.2.1, ?_⟩
      rcases abs_cases x with h | h <;> rw [h.1]
      · exact hx.2.2
      · exact ((vneg ▸ hx.1.neg.2 : ((-x : ℝ) : EReal) ≤ -val X.inf)).trans h3.le
  · rw [lt_iff] at h3
    have h3 : val X.sup ≤ val (Rop.neg X.inf) := by push Not at h3; exact h3 hneg nx.2.1
    constructor
    · intro h
      have hy0 : 0 ≤ y := lo_zero_iff.1 h.1
      have hy1 := h.2.2
      change _ ≤ val (Rop.neg X.inf) at hy1
      rw [vneg] at hy1
      refine ⟨-y, M.2 ⟨by rw [EReal.coe_neg]; exact EReal.le_neg_of_le_neg hy1,
        le_trans ?_ q.le⟩, by rw [abs_neg, abs_of_nonneg hy0]⟩
      have : -y ≤ 0 := by linarith
      exact_mod_cast this
    · rintro ⟨x, hx, rfl⟩
      refine ⟨lo_zero_iff.2 (abs_nonneg _), hneg, ?_⟩
      rcases abs_cases x with h | h <;> rw [h.1]
      · exact hx.2.2.trans h3
      · exact hx.1.neg.2

theorem C10_max {X Y : Interval T} {x y : ℝ} (hx : x ∈ X) (hy : y ∈ Y) :
    Max.max x y ∈ Interval.max X Y := by
  refine ⟨?_, ?_⟩
  · unfold Interval.max; dsimp only
    split_ifs with h
    · exact hy.1.mono (le_max_right _ _)
    · exact hx.1.mono (le_max_left _ _)
  · rcases max_choice x y with h | h <;> rw [h]
    · exact hi_ite_max (Or.inl hx.2) hx.2.1 hy.2.1
    · exact hi_ite_max (Or.inr hy.2) hx.2.1 hy.2.1

theorem C10_min {X Y : Interval T} {x y : ℝ} (hx : x ∈ X) (hy : y ∈ Y) :
    Min.min x y ∈ Interval.min X Y := by
  refine ⟨?_, ?_⟩
  · rcases min_choice x y with h | h <;> rw [h]
    · exact lo_ite_min (Or.inr hx.1) hy.1.1 hx.1.1
    · exact lo_ite_min (Or.inl hy.1) hy.1.1 hx.1.1
  · unfold Interval.min; dsimp only
    split_ifs with h
    · exact hy.2.mono (min_le_right _ _)
    · exact hx.2.mono (min_le_left _ _)

theorem C10_floor_ceil [RopFloor T] {X : Interval T} {x : ℝ} (hx : x ∈ X) :
    ((⌊x⌋ : ℤ) : ℝ) ∈ floor X ∧ ((⌈x⌉ : ℤ) : ℝ) ∈ ceil X := by
  have f1 := RopFloor.floor_sem X.inf hx.1.1
  have f2 := RopFloor.floor_sem X.sup hx.2.1
  have c1 := RopFloor.ceil_sem X.inf hx.1.1
  have c2 := RopFloor.ceil_sem X.sup hx.2.1
  exact ⟨⟨⟨f1.1, f1.2.1 x hx.1.2⟩, f2.1, f2.2.2 x hx.2.2⟩,
    ⟨⟨c1.1, c1.2.1 x hx.1.2⟩, c2.1, c2.2.2 x hx.2.2⟩⟩

/-- an interval with both signs: `|−1| = 1` is in `abs [-1,1]` -/
example : (1 : ℝ) ∈ abs (Hw.ivl (-1) 1 repm1 rep1 : Interval D) :=
  (C10_abs ⟨1, Hw.mem_ivl.2 (by norm_num)⟩ 1).2 ⟨-1, Hw.mem_ivl.2 (by norm_num), by simp⟩

end Kv
