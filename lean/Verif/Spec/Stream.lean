import Verif.Model.Regex

/-!
# Specification of the input and output streams

Nothing here refers to the model of the streams.
-/

namespace ICPC.Spec

/-- The white space characters: space, `\t`, `\n`, `\v`, `\f`, `\r`. -/
def White (c : Char) : Prop := c = ' ' ∨ c = '\t' ∨ c = '\n' ∨ c = '\x0b' ∨ c = '\x0c' ∨ c = '\r'

instance (c : Char) : Decidable (White c) := inferInstanceAs (Decidable (_ ∨ _))

/-- The input ends here or goes on with white space. -/
def Delimited (rest : List Char) : Prop := rest = [] ∨ ∃ c r, rest = c :: r ∧ White c

/-- Decimal notation of a natural number. -/
def natDecimal (n : Nat) : List Char :=
  if n < 10 then [Char.ofNat (48 + n)] else natDecimal (n / 10) ++ [Char.ofNat (48 + n % 10)]

/-- Canonical decimal notation of an integer. -/
def decimal (v : Int) : List Char := if v < 0 then '-' :: natDecimal v.natAbs else natDecimal v.natAbs

/-- The words described by a regular expression. -/
inductive Lang : Re → List Char → Prop
  | chr {p c} : p c = true → Lang (.chr p) [c]
  | eps : Lang .eps []
  | left {a b w} : Lang a w → Lang (.alt a b) w
  | right {a b w} : Lang b w → Lang (.alt a b) w
  | cat {a b v w} : Lang a v → Lang b w → Lang (.cat a b) (v ++ w)
  | starNil {a} : Lang (.star a) []
  | starCons {a v w} : Lang a v → Lang (.star a) w → Lang (.star a) (v ++ w)

/-- A token: not empty, no white space. -/
def Token (t : List Char) : Prop := t ≠ [] ∧ ∀ c ∈ t, ¬ White c

/-- The white space separated tokens of a text, where `cur` is the token that is being read. -/
def tokensFrom (cur : List Char) : List Char → List (List Char)
  | [] => if cur = [] then [] else [cur]
  | c :: s =>
    if White c then (if cur = [] then tokensFrom [] s else cur :: tokensFrom [] s)
    else tokensFrom (cur ++ [c]) s

/-- The white space separated tokens of a text. -/
def tokens (s : List Char) : List (List Char) := tokensFrom [] s

/-- A visible ASCII character. -/
def Visible (c : Char) : Prop := 33 ≤ c.toNat ∧ c.toNat ≤ 126

/-- The list with `sep` between neighbours. -/
def separate (sep : List Char) : List (List Char) → List Char
  | [] => []
  | [a] => a
  | a :: b :: l => a ++ sep ++ separate sep (b :: l)

end ICPC.Spec
