import Verif.Conv.ReadMain

/-!
# `stringtod` of small integers
-/

namespace Kv
namespace Conv
open Rop (lit)

theorem accum_exact {mode : RMode} {neg : Bool} {mx : ℤ} (hmx : mx ≤ 1023) {t : List ℕ} (ht : ∀ d ∈ t, d < 2) {i : ℤ} {n K : ℕ}
    (hn : mx = i + n) (hn53 : n + t.length ≤ 53) (hi : -1 ≤ i - t.length) (hK : K < 2 ^ n)
    {R : ℚ} (hRK : R = K * 2 ^ (i + 1)) (hR : binary64.Rep R) :
    accum neg mode mx t i (Hw.fin R hR) = lit (R + fv 2 t * 2 ^ (i + 1)) := by
  induction t generalizing i n K R with
  | nil =>
    simp only [accum, fv, zero_mul, add_zero]
    rw [lit_fin hR]
  | cons b t ih =>
    rw [accum_cons]
    rw [List.length_cons] at hn53 hi
    push_cast at hi
    rw [if_neg (by omega)]
    have hb := ht b List.mem_cons_self
    have hz : (2 : ℚ) ^ (i + 1) = 2 * 2 ^ i := by rw [zpow_add₀ (by norm_num), zpow_one]; ring
    have hlit : binary64.Rep ((b : ℚ) * 2 ^ i) :=
      rep64 (K := b) (e := i) (n := 1) (mx := i) (by omega) (by norm_num) (by omega) (by push_cast; ring) (by omega)
    have hsum : R + (b : ℚ) * 2 ^ i = ((2 * K + b : ℕ) : ℚ) * 2 ^ i := by rw [hRK, hz]; push_cast; ring
    have hK' : 2 * K + b < 2 ^ (n + 1) := by rw [pow_succ]; omega
    have hrep : binary64.Rep (R + (b : ℚ) * 2 ^ i) := by
      rw [hsum]
      exact rep64 (n := n + 1) (mx := mx) hK' (by omega) (by omega) (by push_cast; omega) hmx
    rw [lit_add_fin hR hlit, lit_fin hrep]
    rw [ih (fun x hx => ht x (List.mem_cons_of_mem _ hx)) (i := i - 1) (n := n + 1) (K := 2 * K + b) (by push_cast; omega) (by omega)
      (by omega) hK' (by rw [hsum, sub_add_cancel]) hrep]
    congr 1
    rw [fv, sub_add_cancel, hz]
    push_cast
    field_simp
    ring

theorem convert_int {p : Parsed} (hp : p.Digits) (h2 : p.num2 = []) (hx : p.nume = []) (hlen : p.num1.length ≤ 100000000)
    (hv : vBE 10 p.num1 < 2 ^ 53) (mode : RMode) :
    convert p mode = .ok (signed p.neg (lit (vBE 10 p.num1 : ℚ))) := by
  have e0 : atoi p.nume = 0 := by rw [hx]; rfl
  obtain ⟨n1, hn1⟩ : ∃ n1, n1 = p.num1.dropWhile (· = 0) := ⟨_, rfl⟩
  have hval : vBE 10 n1 = vBE 10 p.num1 := by rw [hn1, vBE_dropWhile]
  have hd : ∀ d ∈ n1, d < 10 := fun d h => hp.1 d (mem_dropWhile (hn1 ▸ h))
  obtain ⟨r1, hr⟩ : ∃ r1, r1 = intLoop 10 2 mBin (4 * n1.length) n1 := ⟨_, rfl⟩
  have hfuel : vBE 10 n1 < 2 ^ (4 * n1.length) := lt_of_lt_of_le (vBE_lt hd) (pow10_lt _)
  rw [convert_eq (e10 := 0) (n1 := n1) (n2 := []) (all := n1) (ip := n1) (fp := []) (r1 := r1) (by rw [e0, h2]; simpa using hlen)
    (by rw [e0]; simp) hn1 (by rw [h2]; rfl) (by simp) (by simp) (by simp; omega) hr]
  have hb : ∀ st, binLoop 60 [] st = .ok st := fun st => rfl
  rw [List.length_nil, zero_add, hb]
  have hr2 := intLoop_val (b := 10) (B := 2) (by norm_num) mBin_pos hfuel
  rw [← hr] at hr2
  by_cases h0 : r1 = []
  · simp only [h0, if_true]
    show Except.ok (signed p.neg (lit 0)) = _
    rw [h0, Nat.ofDigits_nil] at hr2
    rw [← hval, ← hr2]
    simp
  · have hpos := List.length_pos_iff.2 h0
    have hl : r1.length ≤ 53 := by
      by_contra hc
      have := intLoop_big hfuel (by rw [← hr]; omega)
      rw [← hr, hval] at this
      have h3 : 2 ^ 53 ≤ 2 ^ (r1.length - 1) := Nat.pow_le_pow_right (by norm_num) (by omega)
      omega
    simp only [h0, if_false]
    show Except.ok (finish p.neg mode (r1.length - 1) (r1.reverse ++ [])) = _
    rw [finish, if_neg (by omega), if_neg (by omega), List.append_nil, lit_fin rep_zero64]
    rw [accum_exact (mx := (r1.length : ℤ) - 1) (by omega) (t := r1.reverse) (fun d h => by
        rw [hr] at h; exact intLoop_digits (by norm_num) d (List.mem_reverse.1 h))
      (i := (r1.length : ℤ) - 1) (n := 0) (K := 0) (by simp) (by simpa using hl) (by simp) (by norm_num) (by simp)]
    congr 3
    have h5 := fv_eq (b := 2) (by norm_num) r1.reverse
    rw [vBE_reverse, hr2, hval, List.length_reverse] at h5
    rw [← h5, zero_add, sub_add_cancel, zpow_natCast]
    push_cast
    rfl

end Conv
end Kv
