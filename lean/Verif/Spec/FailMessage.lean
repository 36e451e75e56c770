import Verif.Spec.Stream

/-!
# Positions in a text

Nothing here refers to the model.
-/

namespace ICPC.Spec.Position

/-- The number of the line after the text `before`, counted from one. -/
def lineNumber (before : List Char) : Nat := 1 + before.count '\n'

/-- `cur` is the part of `before` after its last newline. -/
def CurrentLine (before cur : List Char) : Prop :=
  '\n' ∉ cur ∧ ∃ p, before = p ++ cur ∧ (p = [] ∨ ∃ q, p = q ++ ['\n'])

/-- No word reaches beyond the end of the text. -/
def Closed (before : List Char) : Prop := before = [] ∨ ∃ p c, before = p ++ [c] ∧ White c

/-- A piece of the input that is not a newline: a word up to the white space behind it, or a single character that no word
begins with. -/
def Piece (piece after : List Char) : Prop :=
  (∃ c, piece = [c] ∧ ¬ Visible c ∧ c ≠ '\n') ∨
    (Token piece ∧ (∃ c r, piece = c :: r ∧ Visible c) ∧ ∃ w r, after = w :: r ∧ White w)

/-- The lines of a message: position, excerpt of the input, and a mark with `width` characters under column `col`. -/
def layout (line column : List Char) (excerpt : List Char) (col width : Nat) : List Char :=
  " Line: ".toList ++ line ++ ", Char: ".toList ++ column ++ ['\n'] ++ excerpt ++ ['\n'] ++
    List.replicate col ' ' ++ '^' :: List.replicate (width - 1) '~'

end ICPC.Spec.Position
