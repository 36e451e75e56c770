import Mathlib.Data.Rat.Defs

/-!
# Alphabets by code points
-/

namespace ICPC.Spec

/-- The capital letters of ASCII. -/
def CapitalLetter (c : Char) : Prop := 65 ≤ c.toNat ∧ c.toNat ≤ 90
/-- The small letters of ASCII. -/
def SmallLetter (c : Char) : Prop := 97 ≤ c.toNat ∧ c.toNat ≤ 122
/-- The decimal digits. -/
def DecimalDigit (c : Char) : Prop := 48 ≤ c.toNat ∧ c.toNat ≤ 57
/-- The letters A, E, I, O, U in capitals. -/
def CapitalVowel (c : Char) : Prop := c.toNat = 65 ∨ c.toNat = 69 ∨ c.toNat = 73 ∨ c.toNat = 79 ∨ c.toNat = 85
/-- The letters a, e, i, o, u. -/
def SmallVowel (c : Char) : Prop := c.toNat = 97 ∨ c.toNat = 101 ∨ c.toNat = 105 ∨ c.toNat = 111 ∨ c.toNat = 117

instance : DecidablePred CapitalLetter := fun _ => inferInstanceAs (Decidable (_ ∧ _))
instance : DecidablePred SmallLetter := fun _ => inferInstanceAs (Decidable (_ ∧ _))
instance : DecidablePred DecimalDigit := fun _ => inferInstanceAs (Decidable (_ ∧ _))
instance : DecidablePred CapitalVowel := fun _ => inferInstanceAs (Decidable (_ ∨ _))
instance : DecidablePred SmallVowel := fun _ => inferInstanceAs (Decidable (_ ∨ _))

/-- A list of characters is an alphabet for a class: it contains exactly the characters of the class and none of them twice. -/
def AlphabetOf (a : List Char) (p : Char → Prop) : Prop := a.Nodup ∧ ∀ c, c ∈ a ↔ p c

end ICPC.Spec
