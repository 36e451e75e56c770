import Verif.Spec.Stream
import Verif.Spec.Chars
import Verif.Spec.Validator

/-! # What the example programs accept -/

namespace ICPC.Spec.Examples

/-- Two words are the same, with or without case. -/
def SameWord (case : Bool) (a b : List Char) : Prop := if case then a = b else List.Forall₂ SameLetter a b

/-- The whole text is one word of the kind `P`: the word and a line break if white space matters, otherwise with white space anywhere. -/
def OneWord (space : Bool) (P : List Char → Prop) (s : List Char) : Prop :=
  ∃ t, P t ∧ if space then s = t ++ ['\n'] else tokens s = [t]

/-- The input of example/inputValidator.cpp: two words on the first line, of which the second has 5 or 6 characters; a 5 or a 6 on the
second line. -/
def WordsFile (s : List Char) : Prop :=
  ∃ a b : List Char, StrictToken a ∧ StrictToken b ∧ 5 ≤ b.length ∧ b.length ≤ 6 ∧ ∃ d, (d = '5' ∨ d = '6') ∧
    s = a ++ ' ' :: (b ++ '\n' :: d :: '\n' :: [])

/-- One number in [0, 100) on each line. -/
def Lines (t : Int) (s : List Char) : Prop :=
  ∃ vs : List Int, (vs.length : Int) = t ∧ (∀ v ∈ vs, 0 ≤ v ∧ v < 100) ∧ s = separate ['\n'] (vs.map decimal) ++ ['\n']

end ICPC.Spec.Examples
