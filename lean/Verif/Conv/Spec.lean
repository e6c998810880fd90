import Mathlib.Data.Rat.Defs
import Mathlib.Data.Rat.Cast.Defs
import Mathlib.Algebra.Order.Field.Rat

/-!
# Decimal literals: what they look like and what they mean

Independent of the conversion functions.  A literal is
`[sign] digits [ "." digits ] [ ("e" | "E") [sign] digits ]`.
-/

namespace Kv

/-- the characters of a sequence of decimal digits -/
def digitChars (ds : List ℕ) : List Char := ds.map fun d => ['0', '1', '2', '3', '4', '5', '6', '7', '8', '9'].getD d '?'

/-- the natural number written with the given decimal digits, most significant first -/
def decNat (ds : List ℕ) : ℕ := ds.foldl (fun a d => 10 * a + d) 0

/-- the characters of an optional sign -/
def signChars : Option Bool → List Char
  | none => []
  | some true => ['-']
  | some false => ['+']

/-- a decimal literal; a sign is `some true` for a minus -/
structure Lit where
  sgn : Option Bool
  ip : List ℕ
  fp : Option (List ℕ)
  /-- capital `E`?, sign, digits -/
  ex : Option (Bool × Option Bool × List ℕ)

namespace Lit

/-- the digits are digits, there is one before or after the point, and there is one in the exponent -/
def Valid (L : Lit) : Prop :=
  (∀ d ∈ L.ip, d < 10) ∧ (∀ d ∈ L.fp.getD [], d < 10) ∧ L.ip ++ L.fp.getD [] ≠ [] ∧
  (∀ e ∈ L.ex, (∀ d ∈ e.2.2, d < 10) ∧ e.2.2 ≠ [])

instance (L : Lit) : Decidable L.Valid := by
  unfold Valid
  have : Decidable (∀ e ∈ L.ex, (∀ d ∈ e.2.2, d < 10) ∧ e.2.2 ≠ []) := by
    cases h : L.ex with
    | none => exact isTrue (by simp)
    | some e => exact decidable_of_iff ((∀ d ∈ e.2.2, d < 10) ∧ e.2.2 ≠ []) (by simp)
  infer_instance

/-- the literal as a string -/
def text (L : Lit) : List Char :=
  signChars L.sgn ++ digitChars L.ip ++
  (match L.fp with | none => [] | some f => '.' :: digitChars f) ++
  (match L.ex with | none => [] | some (E, s, ds) => (if E then 'E' else 'e') :: signChars s ++ digitChars ds)

/-- the exponent -/
def exponent (L : Lit) : ℤ :=
  match L.ex with
  | none => 0
  | some (_, some true, ds) => -(decNat ds : ℤ)
  | some (_, _, ds) => decNat ds

/-- the absolute value of the mantissa -/
def mantissa (L : Lit) : ℚ := decNat L.ip + decNat (L.fp.getD []) / 10 ^ (L.fp.getD []).length

/-- the number the literal means -/
def value (L : Lit) : ℚ := (if L.sgn = some true then -1 else 1) * L.mantissa * 10 ^ L.exponent

end Lit

/-- the string `s` is a decimal literal that means `v` -/
def Denotes (s : List Char) (v : ℚ) : Prop := ∃ L : Lit, L.Valid ∧ s = L.text ∧ v = L.value

end Kv
