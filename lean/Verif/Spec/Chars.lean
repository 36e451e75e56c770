/-!
# Specification of ASCII case handling, by code points only.
-/
namespace ICPC.Spec

/-- The ASCII lower case letter of the `i`-th letter of the alphabet (0-based). -/
def lowerLetter (i : Fin 26) : Char := Char.ofNat (97 + i.val)
/-- The ASCII upper case letter of the `i`-th letter of the alphabet. -/
def upperLetter (i : Fin 26) : Char := Char.ofNat (65 + i.val)

/-- Equal up to ASCII case: identical, or the upper and lower case variant of one letter. -/
inductive SameLetter : Char → Char → Prop
  | refl (c : Char) : SameLetter c c
  | lu (i : Fin 26) : SameLetter (lowerLetter i) (upperLetter i)
  | ul (i : Fin 26) : SameLetter (upperLetter i) (lowerLetter i)

/-- The white space characters of the C locale: tab, newline, vertical tab, form feed, carriage return, space. -/
def IsSpace (c : Char) : Prop := (9 ≤ c.toNat ∧ c.toNat ≤ 13) ∨ c.toNat = 32

end ICPC.Spec
