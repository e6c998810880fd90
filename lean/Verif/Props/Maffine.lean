import Verif.Ode.Maffine
import Verif.Props.OdeQr
import Verif.Props.Affine
import Verif.Affine.Reduce

/-!
# C96: `odelong_maffine` encloses the flow
-/

namespace Kv
open Rop (lit)
open Kv.AM Kv.LA Kv.Affine

variable {n : ℕ}

namespace Maffine

/-- What the loop relies on in the programs used: the solvers of a single step are correct (as for `odelong_qr`) and `std::partial_sort` permutes. -/
structure ToolsOk (T : Tools n) (φ : Flow n) (dom : ℝ → ℝ → (Fin n → ℝ) → Prop) : Prop where
  A : ∀ x t stop Dm t1 r, T.A x t stop = .ok (some (Dm, t1, r)) → (r = 2 → t1 = stop) ∧ (r ≠ 2 → ∃ b : ℝ, b ∈ t1) ∧
    ∀ a b : ℝ, a ∈ t → b ∈ t1 → ∀ q ∈ inBox x, dom a b q ∧ ∃ J : Fin n → Fin n → ℝ, (∀ i j, J i j ∈ Dm i j) ∧ Qr.HasJac (φ a b) J (inBox x) q
  C : ∀ c t t1 fc, T.C c t t1 = .ok fc → ∀ a b : ℝ, a ∈ t → b ∈ t1 → ∀ q ∈ inBox c, φ a b q ∈ inBox fc
  sort : ∀ l k, (T.sort l k).Perm (List.range l.length)

/-- forms without overflow -/
def Good (x : Fin n → Form) : Prop := ∀ i, (x i).Fin ∧ Bd (toI (x i))

/-- `f` returns a form for `w`, also after further noise symbols have been made -/
def Spec (ε : ℕ → ℝ) (m : ℕ) (f : AM Form) (w : ℝ) : Prop :=
  ∀ ε' m' m'' r, Noise ε' → m ≤ m' → (∀ i ≤ m, ε' i = ε i) → f m' = (.ok r, m'') → Out ε' m' m'' r w True

theorem Spec.mono {ε ε1 : ℕ → ℝ} {m m1 : ℕ} {f : AM Form} {w : ℝ} (h : Spec ε m f w) (hm : m ≤ m1) (he : ∀ i ≤ m, ε1 i = ε i) : Spec ε1 m1 f w :=
  fun ε' m' m'' r hn hm' he' hr => h ε' m' m'' r hn (hm.trans hm') (fun i hi => (he' i (hi.trans hm)).trans (he i hi)) hr

theorem seqF_out : ∀ {k : ℕ} {f : Fin k → AM Form} {w : Fin k → ℝ} {ε : ℕ → ℝ} {m m' : ℕ} {l : List Form}, Noise ε → (∀ i, Spec ε m (f i) (w i)) → seqF f m = (.ok l, m') →
    l.length = k ∧ m ≤ m' ∧ ∃ ε', Noise ε' ∧ (∀ i ≤ m, ε' i = ε i) ∧ ∀ i : Fin k, In ε' m' (l.getD i.val ⟨[], lit 0⟩) (w i) True
  | 0, f, w, ε, m, m', l, hε, hf, h => by
    obtain ⟨rfl, rfl⟩ := AM.pure_run h
    exact ⟨rfl, le_rfl, ε, hε, fun _ _ => rfl, fun i => i.elim0⟩
  | k + 1, f, w, ε, m, m', l, hε, hf, h => by
    obtain ⟨a, s1, g1, g2⟩ := AM.bind_run h
    obtain ⟨l', s2, g3, g4⟩ := AM.bind_run g2
    obtain ⟨rfl, rfl⟩ := AM.pure_run g4
    obtain ⟨h1, e1, n1, a1, i1⟩ := hf 0 ε m s1 a hε le_rfl (fun _ _ => rfl) g1
    obtain ⟨h0, h2, e2, n2, a2, i2⟩ := seqF_out (w := fun i => w i.succ) n1 (fun i => (hf i.succ).mono h1 a1) g3
    refine ⟨by simp [h0], h1.trans h2, e2, n2, fun i hi => (a2 i (hi.trans h1)).trans (a1 i hi), fun i => ?_⟩
    refine Fin.cases ?_ (fun i => ?_) i
    · exact i1.mono h2 a2
    · simpa using i2 i

theorem dotF_out : ∀ {k : ℕ} {d : Fin k → Interval D} {y : Fin k → AM Form} {t : Form} {s : ℝ} {J v : Fin k → ℝ} {ε : ℕ → ℝ} {m m' : ℕ} {r : Form}, Noise ε → In ε m t s True → (∀ i, J i ∈ d i) →
    (∀ i, Spec ε m (y i) (v i)) → dotF d y t m = (.ok r, m') → Out ε m m' r (s + ∑ i, J i * v i) True
  | 0, d, y, t, s, J, v, ε, m, m', r, hε, ht, hJ, hy, h => by
    obtain ⟨rfl, rfl⟩ := AM.pure_run h
    simpa using Out.of hε ht
  | k + 1, d, y, t, s, J, v, ε, m, m', r, hε, ht, hJ, hy, h => by
    obtain ⟨a, s1, g1, h⟩ := AM.bind_run h
    obtain ⟨b, s2, g2, h⟩ := AM.bind_run h
    obtain ⟨z, s3, g3, h⟩ := AM.bind_run h
    refine (hy 0 ε m s1 a hε le_rfl (fun _ _ => rfl) g1).trans fun ε1 n1 m1 a1 i1 => ?_
    refine (ofInterval_out n1 (hJ 0) g2).trans fun ε2 n2 m2 a2 i2 => ?_
    refine (mul_out n2 i2 (i1.mono m2 a2) g3).trans fun ε3 n3 m3 a3 i3 => ?_
    have a02 : ∀ i ≤ m, ε2 i = ε i := fun i hi => (a2 i (hi.trans m1)).trans (a1 i hi)
    have a03 : ∀ i ≤ m, ε3 i = ε i := fun i hi => (a3 i (hi.trans (m1.trans m2))).trans (a02 i hi)
    have hm : m ≤ s3 := m1.trans (m2.trans m3)
    have := dotF_out (J := fun i => J i.succ) (v := fun i => v i.succ) n3 ((add_in n3 (ht.mono hm a03) i3).imp fun _ => trivial) (fun i => hJ i.succ)
      (fun i => (hy i.succ).mono hm a03) h
    rw [Fin.sum_univ_succ, ← add_assoc]
    exact this

theorem row_spec {Dm : Mat n n (Interval D)} {x : Fin n → Form} {cv fc : Vec n (Interval D)} {i : Fin n} {ε : ℕ → ℝ} {m : ℕ} {q c u : Fin n → ℝ} {J : Fin n → Fin n → ℝ}
    (hx : ∀ k, In ε m (x k) (q k) True) (hc : ∀ k, c k ∈ cv k) (hu : ∀ k, u k ∈ fc k) (hJ : ∀ i j, J i j ∈ Dm i j) : Spec ε m (row Dm x cv fc i) (u i + ∑ k, J i k * (q k - c k)) := by
  intro ε' m' m'' r hn hm he h
  obtain ⟨t, s1, g1, h⟩ := AM.bind_run h
  obtain ⟨f, s2, g2, h⟩ := AM.bind_run h
  obtain ⟨rfl, rfl⟩ := AM.pure_run h
  have hz : In ε' m' (ofScalar (lit 0)) 0 True := by
    have := scalar_in (m := m') hn fin_zero
    rwa [dbl_zero] at this
  have h1 := dotF_out (J := J i) (v := fun k => q k - c k) hn hz (hJ i) (fun k => by
    intro ε1 m1 m2 r1 n1 l1 b1 h1
    obtain ⟨f, s3, g3, h1⟩ := AM.bind_run h1
    obtain ⟨rfl, rfl⟩ := AM.pure_run h1
    refine (ofInterval_out n1 (hc k) g3).trans fun ε2 n2 l2 b2 i2 => ?_
    refine Out.of n2 ((sub_in n2 ((((hx k).mono hm he).mono l1 b1).mono l2 b2) i2).imp fun _ => trivial)) g1
  refine h1.trans fun ε1 n1 l1 b1 i1 => ?_
  refine (ofInterval_out n1 (hu i) g2).trans fun ε2 n2 l2 b2 i2 => ?_
  have := (add_in n2 i2 (i1.mono l2 b2)).imp fun _ => trivial
  rw [zero_add] at this
  exact Out.of n2 this

theorem toIV_ok {x : Fin n → Form} {I : Vec n (Interval D)} (h : toIV x = .ok I) : (∀ i, size (x i) ≠ 0) ∧ I = fun i => toI (x i) := by
  unfold toIV at h
  split_ifs at h with h0
  cases h
  exact ⟨h0, rfl⟩

theorem toI_mem {ε : ℕ → ℝ} {x : Form} {u : ℝ} (hε : Noise ε) (h0 : size x ≠ 0) (hf : x.Fin) (hx : x.Rep ε u) : u ∈ toI x :=
  toInterval_mem hε hx hf (by simp [toInterval, h0, toI])

/-- the values `q` are represented by `x` -/
def Reps (ε : ℕ → ℝ) (m : ℕ) (x : Fin n → Form) (q : Fin n → ℝ) : Prop := ∀ i, (x i).Rep ε (q i) ∧ size (x i) ≤ m + 1

theorem step_out {T : Tools n} (hs : ∀ l k, (T.sort l k).Perm (List.range l.length)) {x x1 : Fin n → Form} {t stop t1 : Interval D} {r : ℤ} {Dm : Mat n n (Interval D)} {m m1 : ℕ}
    (h : odeMaffine T x t stop m = (.ok (some (x1, t1, r, Dm)), m1)) (hG : Good x) :
    ∃ fc, T.A (fun i => toI (x i)) t stop = .ok (some (Dm, t1, r)) ∧ T.C (pointV (midV fun i => toI (x i))) t t1 = .ok fc ∧ (∀ i, size (x i) ≠ 0) ∧
      ∀ {ε : ℕ → ℝ} {q c u : Fin n → ℝ} {J : Fin n → Fin n → ℝ}, Noise ε → Reps ε m x q → (∀ k, c k ∈ pointV (midV fun i => toI (x i)) k) → (∀ k, u k ∈ fc k) → (∀ i j, J i j ∈ Dm i j) →
        ∃ ε', Noise ε' ∧ (T.epReduce = 0 → m ≤ m1 ∧ ∀ i ≤ m, ε' i = ε i) ∧ Reps ε' m1 x1 fun i => u i + ∑ k, J i k * (q k - c k) := by
  obtain ⟨I, s1, g1, q1⟩ := AM.bind_run h
  obtain ⟨k1, rfl⟩ := AM.lift_run g1
  obtain ⟨h0, rfl⟩ := toIV_ok k1
  obtain ⟨a, s2, g2, q2⟩ := AM.bind_run q1
  obtain ⟨k2, rfl⟩ := AM.lift_run g2
  rcases a with _ | ⟨Dm', t1', r'⟩
  · have := (AM.pure_run q2).1
    cases this
  obtain ⟨fc, s3, g3, q3⟩ := AM.bind_run q2
  obtain ⟨k3, rfl⟩ := AM.lift_run g3
  obtain ⟨save, s4, g4, q4⟩ := AM.bind_run q3
  obtain ⟨rfl, rfl⟩ := AM.get_run g4
  obtain ⟨res, s5, g5, q5⟩ := AM.bind_run q4
  obtain ⟨red, s6, g6, q6⟩ := AM.bind_run q5
  obtain ⟨e, rfl⟩ := AM.pure_run q6
  cases e
  refine ⟨fc, k2, k3, h0, fun {ε q c u J} hε hx hc hu hJ => ?_⟩
  have hin : ∀ k, In ε s4 (x k) (q k) True := fun k =>
    ⟨(hx k).2, ⟨h0 k, fun _ => Fin.c (hG k).1 0⟩, fun _ => trivial, (hx k).1⟩
  obtain ⟨hl, hm, ε1, n1, a1, i1⟩ := seqF_out (w := fun i => u i + ∑ k, J i k * (q k - c k)) hε (fun i => row_spec hin hc hu hJ) g5
  let w : ℕ → ℝ := fun i => if hi : i < n then u ⟨i, hi⟩ + ∑ k, J ⟨i, hi⟩ k * (q k - c k) else 0
  have hw : ∀ i : Fin n, w i.val = u i + ∑ k, J i k * (q k - c k) := fun i => by simp [w]
  have i1' : ∀ i < res.length, size (res.getD i ⟨[], lit 0⟩) ≤ s5 + 1 ∧ (res.getD i ⟨[], lit 0⟩).Rep ε1 (w i) := fun i hi => by
    have := i1 ⟨i, by omega⟩
    rw [← hw] at this
    exact ⟨this.size, this.rep⟩
  unfold reduce at g6
  split_ifs at g6 with hep
  · obtain ⟨e1, e2, ε2, n2, a2, i2⟩ := epsReduce2_rep n1 (fun i hi => (i1' i hi).2) g6
    refine ⟨ε2, n2, fun _ => ⟨by omega, fun i hi => (a2 i hi).trans (a1 i hi)⟩, fun i => ?_⟩
    have := i2 i.val (by omega)
    rw [hw] at this
    exact this
  · obtain ⟨e2, ε2, n2, i2⟩ := epsReduce_rep n1 hs i1' g6
    refine ⟨ε2, n2, fun h => absurd h hep, fun i => ?_⟩
    have := i2 i.val (by omega)
    rw [hw] at this
    exact this

theorem loop_log {T : Tools n} {stop : Interval D} {l' : ℕ} : ∀ {k : ℕ} {b : Bool} {x : Fin n → Form} {M : Mat n l' (Interval D)} {t : Interval D} {l : List (Fin n → Form)} {m m' : ℕ} {R : Result n l'},
    loop T stop k b x M t l m = (.ok R, m') → ∀ s ∈ l, s ∈ R.log
  | 0, b, x, M, t, l, m, m', R, h => by
    have := (AM.lift_run h).1
    cases this
  | k + 1, b, x, M, t, l, m, m', R, h => by
    intro s hs
    unfold loop at h
    obtain ⟨a, s1, h1, h⟩ := AM.bind_run h
    rcases a with _ | ⟨x1, t1, r, Dm⟩
    · have := (AM.pure_run h).1
      rw [this]
      split_ifs <;> exact hs
    obtain ⟨ix, s2, h2, h⟩ := AM.bind_run h
    obtain ⟨ix1, s3, h3, h⟩ := AM.bind_run h
    obtain ⟨go, s4, h4, h⟩ := AM.bind_run h
    split_ifs at h
    · have := (AM.pure_run h).1
      rw [this]
      exact List.mem_cons_of_mem _ hs
    · have := (AM.pure_run h).1
      rw [this]
      exact List.mem_cons_of_mem _ hs
    · exact loop_log h s (List.mem_cons_of_mem _ hs)

/-- what is known at the time `b`: `S` is a set of parameters, `g` the starting points, `e` the values of the noise symbols at the beginning, `m₀` their number -/
def At {d : ℕ} (T : Tools n) (φ : Flow n) (dom : ℝ → ℝ → (Fin n → ℝ) → Prop) (S : Set (Fin d → ℝ)) (g : (Fin d → ℝ) → Fin n → ℝ) (e : (Fin d → ℝ) → ℕ → ℝ) (m₀ : ℕ) (a₀ : ℝ) (m : ℕ) (x : Fin n → Form)
    (M : Mat n d (Interval D)) (b : ℝ) : Prop :=
  ∀ p ∈ S, dom a₀ b (g p) ∧ (∃ ε, Noise ε ∧ (T.epReduce = 0 → m₀ ≤ m ∧ ∀ i ≤ m₀, ε i = e p i) ∧ Reps ε m x (φ a₀ b (g p))) ∧
    ∃ K : Fin n → Fin d → ℝ, (∀ i j, K i j ∈ M i j) ∧ Qr.HasJac (fun p => φ a₀ b (g p)) K S p

theorem loop_mem {d : ℕ} {T : Tools n} {φ : Flow n} {dom : ℝ → ℝ → (Fin n → ℝ) → Prop} (hφ : IsFlow φ dom) (hT : ToolsOk T φ dom) {stop : Interval D} {a₀ : ℝ} {S : Set (Fin d → ℝ)}
    {g : (Fin d → ℝ) → Fin n → ℝ} {e : (Fin d → ℝ) → ℕ → ℝ} {m₀ : ℕ} :
    ∀ {k : ℕ} {b : Bool} {x : Fin n → Form} {M : Mat n d (Interval D)} {t : Interval D} {l : List (Fin n → Form)} {m m' : ℕ} {R : Result n d},
    loop T stop k b x M t l m = (.ok R, m') → Good x → (∀ s ∈ R.log, Good s) → (∃ a : ℝ, a ∈ t ∧ At T φ dom S g e m₀ a₀ m x M a) → (b = true → ∀ a : ℝ, a ∈ t → At T φ dom S g e m₀ a₀ m x M a) →
    R.ret ≠ 0 → (R.ret = 1 ∨ R.ret = 3 ∨ R.ret = 2 ∧ R.stop = stop) ∧ Good R.x ∧ ∀ b : ℝ, b ∈ R.stop → At T φ dom S g e m₀ a₀ m' R.x R.mat b
  | 0, b, x, M, t, l, m, m', R, h => by
    have := (AM.lift_run h).1
    cases this
  | k + 1, b, x, M, t, l, m, m', R, h => by
    intro hGx hG hex hall hret
    unfold loop at h
    obtain ⟨v, m1, h1, z0⟩ := AM.bind_run h
    clear h
    rcases v with _ | ⟨x1, t1, r, Dm⟩
    · obtain ⟨eR, rfl⟩ := AM.pure_run z0
      have hmm : m' = m := by
        obtain ⟨I, s1, g1, q1⟩ := AM.bind_run h1
        obtain ⟨-, rfl⟩ := AM.lift_run g1
        obtain ⟨w, s2, g2, q2⟩ := AM.bind_run q1
        obtain ⟨-, rfl⟩ := AM.lift_run g2
        rcases w with _ | ⟨Dm', t1', r'⟩
        · exact (AM.pure_run q2).2
        obtain ⟨fc, s3, g3, q3⟩ := AM.bind_run q2
        obtain ⟨save, s4, g4, q4⟩ := AM.bind_run q3
        obtain ⟨res, s5, g5, q5⟩ := AM.bind_run q4
        obtain ⟨red, s6, g6, q6⟩ := AM.bind_run q5
        have := (AM.pure_run q6).1
        cases this
      subst hmm
      split_ifs at eR with hb
      · rw [eR]
        exact ⟨.inl rfl, hGx, hall hb⟩
      · rw [eR] at hret
        exact absurd rfl hret
    obtain ⟨fc, hA, hC, hs0, hstep⟩ := step_out hT.sort h1 hGx
    obtain ⟨ix, s2, h2, z1⟩ := AM.bind_run z0
    clear z0
    obtain ⟨-, rfl⟩ := AM.lift_run h2
    obtain ⟨ix1, s3, h3, z2⟩ := AM.bind_run z1
    clear z1
    obtain ⟨-, rfl⟩ := AM.lift_run h3
    obtain ⟨go, s4, h4, h⟩ := AM.bind_run z2
    clear z2
    obtain ⟨-, rfl⟩ := AM.lift_run h4
    obtain ⟨hr2, hr1, hA⟩ := hT.A _ _ _ _ _ _ hA
    have hC := hT.C _ _ _ _ hC
    obtain ⟨a, hat, hAt⟩ := hex
    have hgood : Good x1 := by
      split_ifs at h
      · have eR := (AM.pure_run h).1
        rw [eR] at hG
        exact hG _ (List.mem_cons_self ..)
      · have eR := (AM.pure_run h).1
        rw [eR] at hG
        exact hG _ (List.mem_cons_self ..)
      · exact hG _ (loop_log h _ (List.mem_cons_self ..))
    have hbox : ∀ p ∈ S, φ a₀ a (g p) ∈ inBox fun i => toI (x i) := fun p hp i => by
      obtain ⟨-, ⟨ε, hε, -, hx⟩, -⟩ := hAt p hp
      exact toI_mem hε (hs0 i) (hGx i).1 (hx i).1
    have key : ∀ b : ℝ, b ∈ t1 → At T φ dom S g e m₀ a₀ s4 x1 (Qr.prodIM Dm M) b := by
      intro b hb p hp
      obtain ⟨hda, ⟨ε, hε, hε0, hx⟩, K, hK, hjK⟩ := hAt p hp
      have hax := hbox p hp
      have hc : ∀ i, FinD (Interval.mid (toI (x i))) ∧ dbl (Interval.mid (toI (x i))) ∈ toI (x i) := fun i => mid_bd (hGx i).2 ⟨_, hax i⟩
      have hcp : ∀ i, dbl (Interval.mid (toI (x i))) ∈ (pointV (midV fun i => toI (x i))) i := fun i => Interval.point_mem (Qr.is_of_fin (hc i).1)
      obtain ⟨J, hJ, eJ⟩ := Qr.mean_value (g := φ a b) (fun q hq => (hA a b hat hb q hq).2) (fun i => (hc i).2) hax
      obtain ⟨ε', n', a', hx'⟩ := hstep hε hx hcp (hC a b hat hb _ hcp) hJ
      obtain ⟨hd, ef⟩ := hφ.trans a₀ a b (g p) hda (hA a b hat hb _ hax).1
      obtain ⟨J', hJ', hjJ⟩ := (hA a b hat hb _ hax).2
      refine ⟨hd, ⟨ε', n', fun he => ?_, ?_⟩, fun i j => ∑ k, J' i k * K k j, fun i j => sumI_mem fun k => Interval.mul_mem (hJ' i k) (hK k j), ?_⟩
      · obtain ⟨l1, l2⟩ := hε0 he
        obtain ⟨l3, l4⟩ := a' he
        exact ⟨l1.trans l3, fun i hi => (l4 i (hi.trans l1)).trans (l2 i hi)⟩
      · have : φ a₀ b (g p) = fun i => φ a b (fun i => dbl (Interval.mid (toI (x i)))) i + ∑ k, J i k * (φ a₀ a (g p) k - dbl (Interval.mid (toI (x k)))) := by
          rw [ef]
          funext i
          exact eJ i
        rw [this]
        exact hx'
      · refine (Qr.HasJac.comp (g := φ a b) (f := fun p => φ a₀ a (g p)) hjJ hjK hbox).congr hp fun q hq => ?_
        obtain ⟨hdq, -, -⟩ := hAt q hq
        exact (hφ.trans a₀ a b (g q) hdq (hA a b hat hb _ (hbox q hq)).1).2
    split_ifs at h with hgo hr
    · obtain ⟨eR, rfl⟩ := AM.pure_run h
      rw [eR]
      exact ⟨.inr (.inl rfl), hgood, key⟩
    · obtain ⟨eR, rfl⟩ := AM.pure_run h
      rw [eR]
      exact ⟨.inr (.inr ⟨rfl, rfl⟩), hgood, fun b hb => key b (by rw [hr2 hr]; exact hb)⟩
    · obtain ⟨b₀, hb₀⟩ := hr1 hr
      exact loop_mem hφ hT h hgood hG ⟨b₀, hb₀, key b₀ hb₀⟩ (fun _ => key) hret

theorem loop_log_self {T : Tools n} {stop : Interval D} {d k : ℕ} {x : Fin n → Form} {M : Mat n d (Interval D)} {t : Interval D} {m m' : ℕ} {R : Result n d}
    (h : loop T stop k false x M t [x] m = (.ok R, m')) : x ∈ R.log := loop_log h x (List.mem_singleton.2 rfl)

end Maffine

open Maffine

/-- C96 for affine vectors and calls without overflow (missing: a form in the run has an infinite or NaN coefficient or range): let `S` be a set of starting points, each represented by the forms `init`
with some values of the noise symbols.  If `odelong_maffine` does not return 0, then for every starting time in `start` the solutions from these points exist up to every time in the new `end`; the forms
returned represent their values there, with the same values of the old noise symbols if `ep_reduce` is 0; the derivative with respect to parameters is in `*mat` (`g`: the starting points depending on
parameters, with derivatives in the given `*mat`).  The returned value is 1, 3 or, with unchanged `end`, 2. -/
theorem C96_affine_partial {d : ℕ} {T : Tools n} {φ : Flow n} {dom : ℝ → ℝ → (Fin n → ℝ) → Prop} (hφ : IsFlow φ dom) (hT : Maffine.ToolsOk T φ dom) {fuel : ℕ} {init : Fin n → Form}
    {M : Mat n d (Interval D)} {start stop : Interval D} {m m' : ℕ} {R : Maffine.Result n d} (h : Maffine.odelong T fuel init M start stop m = (.ok R, m')) (hG : ∀ x ∈ R.log, Maffine.Good x)
    (hret : R.ret ≠ 0) {S : Set (Fin d → ℝ)} {g : (Fin d → ℝ) → Fin n → ℝ} {e : (Fin d → ℝ) → ℕ → ℝ} (he : ∀ p ∈ S, Noise (e p)) (hs : ∀ i, size (init i) ≤ m + 1)
    (hi : ∀ p ∈ S, ∀ i, (init i).Val (e p) (g p i)) (hM : ∀ p ∈ S, ∃ K : Fin n → Fin d → ℝ, (∀ i j, K i j ∈ M i j) ∧ Qr.HasJac g K S p) {a : ℝ} (ha : a ∈ start) :
    (R.ret = 1 ∨ R.ret = 3 ∨ R.ret = 2 ∧ R.stop = stop) ∧ ∀ b : ℝ, b ∈ R.stop → ∀ p ∈ S, dom a b (g p) ∧
      (∃ ε, Noise ε ∧ (T.epReduce = 0 → m ≤ m' ∧ ∀ i ≤ m, ε i = e p i) ∧ ∀ i, (R.x i).Val ε (φ a b (g p) i) ∧ size (R.x i) ≤ m' + 1) ∧
      ∃ K : Fin n → Fin d → ℝ, (∀ i j, K i j ∈ R.mat i j) ∧ Qr.HasJac (fun p => φ a b (g p)) K S p := by
  have hself := hG _ (loop_log_self h)
  have hst : Maffine.At T φ dom S g e m a m init M a := fun p hp => by
    obtain ⟨K, hK, hj⟩ := hM p hp
    have e0 : ∀ q, φ a a (g q) = g q := fun q => (hφ.refl a (g q)).2
    refine ⟨(hφ.refl a (g p)).1, ⟨e p, he p hp, fun _ => ⟨le_rfl, fun _ _ => rfl⟩, fun i => ⟨fun _ => ?_, hs i⟩⟩, K, hK, hj.congr hp fun q _ => e0 q⟩
    rw [e0]
    exact hi p hp i
  obtain ⟨h1, h2, h3⟩ := Maffine.loop_mem hφ hT (a₀ := a) (S := S) (g := g) (e := e) (m₀ := m) h hself hG ⟨a, ha, hst⟩ (fun hb => by cases hb) hret
  refine ⟨h1, fun b hb p hp => ?_⟩
  obtain ⟨k1, ⟨ε, k2, k3, k4⟩, k5⟩ := h3 b hb p hp
  exact ⟨k1, ⟨ε, k2, k3, fun i => ⟨(k4 i).1 (h2 i).1, (k4 i).2⟩⟩, k5⟩

/-- C96 for intervals and `autodif`, for calls without overflow (missing: a form in the run has an infinite or NaN coefficient or range): let `g` be a function on `S` with values in the values of `init`
whose derivatives are in the derivatives of `init`.  If `odelong_maffine` does not return 0, then for every starting time in `start` the solutions starting from the values of `g` exist up to every time in
the new `end`, and their values there and the derivatives with respect to the parameters are in the new `init`; the returned value is 1, 3 or, with unchanged `end`, 2. -/
theorem C96_partial {d : ℕ} {T : Tools n} {φ : Flow n} {dom : ℝ → ℝ → (Fin n → ℝ) → Prop} (hφ : IsFlow φ dom) (hT : Maffine.ToolsOk T φ dom) {fuel : ℕ} {init init' : Qr.Ad n d}
    {start stop stop' : Interval D} {m m' : ℕ} {r : ℤ} {l : List (Fin n → Form)} (h : Maffine.odelongAd T fuel init start stop m = (.ok (r, init', stop', l), m')) (hG : ∀ x ∈ l, Maffine.Good x)
    (hret : r ≠ 0) {S : Set (Fin d → ℝ)} {g : (Fin d → ℝ) → Fin n → ℝ} (hg : ∀ p ∈ S, g p ∈ inBox init.v)
    (hM : ∀ p ∈ S, ∃ K : Fin n → Fin d → ℝ, (∀ i j, K i j ∈ init.d i j) ∧ Qr.HasJac g K S p) {a : ℝ} (ha : a ∈ start) :
    (r = 1 ∨ r = 3 ∨ r = 2 ∧ stop' = stop) ∧ ∀ b : ℝ, b ∈ stop' → ∀ p ∈ S, dom a b (g p) ∧ φ a b (g p) ∈ inBox init'.v ∧
      ∃ K : Fin n → Fin d → ℝ, (∀ i j, K i j ∈ init'.d i j) ∧ Qr.HasJac (fun p => φ a b (g p)) K S p := by
  obtain ⟨save, s1, g1, q1⟩ := AM.bind_run h
  obtain ⟨u1, s2, g2, q2⟩ := AM.bind_run q1
  obtain ⟨x, s3, g3, q3⟩ := AM.bind_run q2
  obtain ⟨R, s4, g4, q4⟩ := AM.bind_run q3
  obtain ⟨u2, s5, g5, q5⟩ := AM.bind_run q4
  cases g2
  split_ifs at q5 with hr
  · have e := (AM.pure_run q5).1
    simp only [Prod.mk.injEq] at e
    exact absurd e.1 hret
  obtain ⟨v, s6, g6, q6⟩ := AM.bind_run q5
  have e := (AM.pure_run q6).1
  simp only [Prod.mk.injEq] at e
  obtain ⟨e1, e2, e3, e4⟩ := e
  subst e1 e2 e3 e4
  obtain ⟨h0, rfl⟩ := Maffine.toIV_ok (AM.lift_run g6).1
  have hn : Noise (fun i => if i = 0 then (1 : ℝ) else 0) := ⟨by simp, fun i => by split_ifs <;> simp⟩
  have hbox : ∀ p ∈ S, ∃ ε, Noise ε ∧ ∀ i : Fin n, In ε s3 (x.getD i.val ⟨[], lit 0⟩) (g p i) True := fun p hp => by
    obtain ⟨-, ε, k1, -, k2⟩ := ofBox_out hn (ξ := fun i => if hi : i < n then g p ⟨i, hi⟩ else 0) (fun i hi => by
      have hi' : i < n := by simpa using hi
      simpa [hi', List.getD_eq_getElem _ _ hi] using hg p hp ⟨i, hi'⟩) g3
    exact ⟨ε, k1, fun i => by simpa using k2 i.val (by simp)⟩
  have hself := hG _ (loop_log_self g4)
  choose! e he1 he2 using hbox
  have hst : Maffine.At T φ dom S g e s3 a s3 (fun i : Fin n => x.getD i.val ⟨[], lit 0⟩) init.d a := fun p hp => by
    obtain ⟨K, hK, hj⟩ := hM p hp
    have e0 : ∀ q, φ a a (g q) = g q := fun q => (hφ.refl a (g q)).2
    refine ⟨(hφ.refl a (g p)).1, ⟨e p, he1 p hp, fun _ => ⟨le_rfl, fun _ _ => rfl⟩, fun i => ⟨?_, (he2 p hp i).size⟩⟩, K, hK, hj.congr hp fun q _ => e0 q⟩
    rw [e0]
    exact (he2 p hp i).rep
  obtain ⟨h1, h2, h3⟩ := Maffine.loop_mem hφ hT (a₀ := a) (S := S) (g := g) (e := e) (m₀ := s3) g4 hself hG ⟨a, ha, hst⟩ (fun hb => by cases hb) hret
  refine ⟨h1, fun b hb p hp => ?_⟩
  obtain ⟨k1, ⟨ε, k2, -, k4⟩, k5⟩ := h3 b hb p hp
  exact ⟨k1, fun i => Maffine.toI_mem k2 (h0 i) (h2 i).1 (k4 i).1, k5⟩

/-- C96, the counter of noise symbols: a call for intervals or `autodif` which returns leaves it as it was. -/
theorem C96_maxnum {d : ℕ} {T : Tools n} {fuel : ℕ} {init : Qr.Ad n d} {start stop : Interval D} {m m' : ℕ} {R} (h : Maffine.odelongAd T fuel init start stop m = (.ok R, m')) : m' = m := by
  obtain ⟨save, s1, g1, q1⟩ := AM.bind_run h
  obtain ⟨e1, -⟩ := AM.get_run g1
  obtain ⟨u1, s2, g2, q2⟩ := AM.bind_run q1
  obtain ⟨x, s3, g3, q3⟩ := AM.bind_run q2
  obtain ⟨R, s4, g4, q4⟩ := AM.bind_run q3
  obtain ⟨u2, s5, g5, q5⟩ := AM.bind_run q4
  have e2 : s5 = save := by cases g5; rfl
  split_ifs at q5 with hr
  · rw [(AM.pure_run q5).2, e2, e1]
  obtain ⟨v, s6, g6, q6⟩ := AM.bind_run q5
  rw [(AM.pure_run q6).2, (AM.lift_run g6).2, e2, e1]

/-! ## examples -/

/-- tools for the equation `x' = 1`, whose flow is `φ a b p = p + (b - a)`; the first step stops at 1 -/
def exMaTools (ep : ℕ) : Maffine.Tools 1 where
  A _ t stop := .ok (some (fun _ _ => Interval.point (lit 1), if Rop.lt t.sup (lit 1) then (Interval.point (lit 1), 1) else (stop, 2)))
  C c t t1 := .ok fun i => Interval.add (c i) (Interval.sub t1 t)
  sort l _ := List.range l.length
  callback _ _ _ _ := .ok true
  epReduce := ep
  epLimit := 0

theorem exMaTools_ok (ep : ℕ) : Maffine.ToolsOk (exMaTools ep) exQrFlow fun _ _ _ => True := by
  refine ⟨fun x t stop Dm t1 r h => ?_, fun c t t1 fc h a b ha hb q hq i => ?_, fun l k => List.Perm.refl _⟩
  · have hder : ∀ (S : Set (Fin 1 → ℝ)) (a b : ℝ) q, Qr.HasJac (exQrFlow a b) (fun _ _ => 1) S q := by
      intro S a b q i
      have : HasFDerivWithinAt (fun q : Fin 1 → ℝ => q i + (b - a)) (ContinuousLinearMap.proj i : (Fin 1 → ℝ) →L[ℝ] ℝ) S q :=
        ((ContinuousLinearMap.proj i : (Fin 1 → ℝ) →L[ℝ] ℝ).hasFDerivWithinAt).add_const _
      have e : (∑ j, (1 : ℝ) • (ContinuousLinearMap.proj j : (Fin 1 → ℝ) →L[ℝ] ℝ)) = ContinuousLinearMap.proj i := by
        rw [Subsingleton.elim i 0]; simp
      rw [e]
      exact this
    have hD : ∀ a b : ℝ, a ∈ t → b ∈ t1 → ∀ q ∈ inBox x, True ∧ ∃ J : Fin 1 → Fin 1 → ℝ, (∀ i j, J i j ∈ (fun _ _ => Interval.point (lit 1) : Mat 1 1 (Interval D)) i j) ∧ Qr.HasJac (exQrFlow a b) J (inBox x) q :=
      fun a b _ _ q _ => ⟨trivial, fun _ _ => 1, fun _ _ => Interval.point_mem Interval.is_one, hder _ a b q⟩
    simp only [exMaTools, Except.ok.injEq, Option.some.injEq, Prod.mk.injEq] at h
    obtain ⟨e1, e2⟩ := h
    subst e1
    split_ifs at e2 with hlt
    · simp only [Prod.mk.injEq] at e2
      obtain ⟨e2, e3⟩ := e2
      subst e2 e3
      exact ⟨fun h => absurd h (by decide), fun _ => ⟨1, Interval.point_mem Interval.is_one⟩, hD⟩
    · simp only [Prod.mk.injEq] at e2
      obtain ⟨e2, e3⟩ := e2
      subst e2 e3
      exact ⟨fun _ => rfl, fun h => absurd rfl h, hD⟩
  · cases h
    exact Interval.add_mem (hq i) (Interval.sub_mem hb ha)

instance (x : Fin n → Form) : Decidable (Maffine.Good x) := by unfold Maffine.Good Form.Fin; infer_instance

def exMaRun (ep : ℕ) : Res (ℤ × Qr.Ad 1 1 × Interval D × List (Fin 1 → Form)) :=
  (Maffine.odelongAd (exMaTools ep) 2 ⟨fun _ => ⟨lit 0, lit 1⟩, fun _ _ => Interval.point (lit 1)⟩ (Interval.point (lit 0)) (Interval.point (lit 2)) 5).1

/-- the hypotheses of `C96_partial` are met by the equation `x' = 1` with `init = [0,1]`, `start = 0`, `end = 2` and two steps, and the result is the value 2 with a narrow enclosure of [2,3]; with both ways to
reduce the noise symbols -/
example : ∀ ep, ep = 0 ∨ ep = 2 → ∃ r init' stop' l, exMaRun ep = .ok (r, init', stop', l) ∧ r = 2 ∧ l.length = 3 ∧ (∀ x ∈ l, Maffine.Good x) ∧ (0 : ℝ) ∈ Interval.point (lit 0 : D) ∧
    (⟨lit 2, lit 3⟩ : Interval D).subset (init'.v 0) ∧ (init'.v 0).subset ⟨lit 1.9, lit 3.1⟩ := by
  intro ep hep
  have h : (match exMaRun ep with
      | .ok (r, init', _, l) => decide (r = 2 ∧ l.length = 3 ∧ (∀ x ∈ l, Maffine.Good x) ∧ (⟨lit 2, lit 3⟩ : Interval D).subset (init'.v 0) ∧ (init'.v 0).subset ⟨lit 1.9, lit 3.1⟩)
      | .error _ => false) = true := by
    rcases hep with rfl | rfl <;> decide +kernel
  rcases e : exMaRun ep with _ | ⟨r, init', stop', l⟩
  · rw [e] at h; cases h
  · rw [e] at h
    have h := of_decide_eq_true h
    exact ⟨r, init', stop', l, rfl, h.1, h.2.1, h.2.2.1, Interval.point_mem Interval.is_zero, h.2.2.2⟩

/-- a program which makes the affine variables `x` (the second one) and, after a call of `odelong_maffine` whose exception it catches, `y` for the same interval [-1,1], and returns `to_interval(x - y)` -/
def exMaxnum : AM (Interval D) := do
  let _ ← ofInterval ⟨lit (-1), lit 1⟩
  let x ← ofInterval ⟨lit (-1), lit 1⟩
  let _ ← (fun s => (.ok (), (Maffine.odelongAd { exMaTools 0 with A := fun _ _ _ => .error .domainError } 2 (⟨fun _ => ⟨lit 0, lit 1⟩, fun _ _ => Interval.point (lit 1)⟩ : Qr.Ad 1 1)
    (Interval.point (lit 0)) (Interval.point (lit 2)) s).2) : AM Unit)
  let y ← ofInterval ⟨lit (-1), lit 1⟩
  lift (toInterval (sub x y))

/-- C96 is violated if the function throws: the counter of noise symbols is not restored, so the variables made later depend on the earlier ones.  The difference of the independent variables `x` and `y`
with values in [-1,1] is said to be less than 1 in absolute value, although it can be 2. -/
theorem C96_maxnum_violated : ∃ J : Interval D, (exMaxnum 0).1 = .ok J ∧ (1 : ℝ) ∈ (⟨lit (-1), lit 1⟩ : Interval D) ∧ (-1 : ℝ) ∈ (⟨lit (-1), lit 1⟩ : Interval D) ∧ ¬ ((1 : ℝ) - (-1) ∈ J) := by
  have h : (match (exMaxnum 0).1 with
      | .ok J => decide (FinD J.sup ∧ Rop.le J.sup (lit 1) = true)
      | .error _ => false) = true := by
    decide +kernel
  rcases e : (exMaxnum 0).1 with _ | J
  · rw [e] at h; cases h
  · rw [e] at h
    obtain ⟨h1, h2⟩ := of_decide_eq_true h
    refine ⟨J, rfl, ?_, ?_, fun hm => ?_⟩
    · exact mem_of_is Interval.is_one (by decide +kernel)
    · exact mem_of_is Interval.is_neg_one (by decide +kernel)
    · have h3 := (hiD_iff h1).1 hm.2
      have h4 := (Interval.le_of_is (is_dbl' h1) Interval.is_one).1 h2
      linarith

end Kv
