import Verif.Model.Basic

/-!
# Regular expressions (src/validate.h 141-143)

The three patterns of the library only use characters, classes, alternatives, concatenation, `?`, `*` and `+`.
`std::regex_match` on such a pattern decides membership in its language; `Re.matches` does this by derivatives.
-/

namespace ICPC

/-- Regular expressions. -/
inductive Re where
  /-- one character of a class -/
  | chr (p : Char → Bool)
  | eps
  | none
  | alt (a b : Re)
  | cat (a b : Re)
  | star (a : Re)

namespace Re

/-- `a?` -/
def opt (a : Re) : Re := alt eps a

/-- `a+` -/
def plus (a : Re) : Re := cat a (star a)

/-- One given character. -/
def lit (c : Char) : Re := chr fun x => x == c

/-- A range of characters. -/
def range (a b : Char) : Re := chr fun x => decide (a ≤ x) && decide (x ≤ b)

/-- Whether the empty word matches. -/
def nullable : Re → Bool
  | chr _ => false
  | eps => true
  | none => false
  | alt a b => a.nullable || b.nullable
  | cat a b => a.nullable && b.nullable
  | star _ => true

/-- What has to match after the character `c`. -/
def deriv (c : Char) : Re → Re
  | chr p => if p c then eps else none
  | eps => none
  | none => none
  | alt a b => alt (a.deriv c) (b.deriv c)
  | cat a b => if a.nullable then alt (cat (a.deriv c) b) (b.deriv c) else cat (a.deriv c) b
  | star a => cat (a.deriv c) (star a)

/-- `std::regex_match(s, r)`. -/
def «matches» (r : Re) : List Char → Bool
  | [] => r.nullable
  | c :: cs => (r.deriv c).matches cs

end Re

/-- `INTEGER_REGEX("0|-?[1-9][0-9]*")` (src/validate.h 141). -/
def INTEGER_REGEX : Re :=
  .alt (.lit '0') (.cat (.opt (.lit '-')) (.cat (.range '1' '9') (.star (.range '0' '9'))))

/-- `[+-]` -/
def reSign : Re := .alt (.lit '+') (.lit '-')

/-- `[0-9]` -/
def reDigit : Re := .range '0' '9'

/-- `REAL_REGEX("[+-]?(([0-9]*\\.[0-9]+)|([0-9]+\\.)|([0-9]+))([eE][+-]?[0-9]+)?")` (src/validate.h 142). -/
def REAL_REGEX : Re :=
  .cat (.opt reSign) (.cat
    (.alt (.cat (.star reDigit) (.cat (.lit '.') (.plus reDigit))) (.alt (.cat (.plus reDigit) (.lit '.')) (.plus reDigit)))
    (.opt (.cat (.alt (.lit 'e') (.lit 'E')) (.cat (.opt reSign) (.plus reDigit)))))

/-- `STRICT_REAL_REGEX("-?(0|([1-9][0-9]*))\\.?[0-9]*")` (src/validate.h 143). -/
def STRICT_REAL_REGEX : Re :=
  .cat (.opt (.lit '-')) (.cat (.alt (.lit '0') (.cat (.range '1' '9') (.star reDigit))) (.cat (.opt (.lit '.')) (.star reDigit)))

end ICPC
