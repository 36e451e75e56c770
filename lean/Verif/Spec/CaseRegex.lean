import Verif.Model.CaseRegex
import Verif.Spec.Examples

/-! # The words of a pattern (C108) -/

namespace ICPC.Spec

/-- The words that a pattern stands for, letter by letter. -/
inductive Denotes : Pattern → List Char → Prop
  | empty : Denotes .empty []
  | lit (c : Char) : Denotes (.lit c) [c]
  | range {a b c : Char} (h : a ≤ c) (h' : c ≤ b) : Denotes (.range a b) [c]
  | left {p q : Pattern} {w : List Char} : Denotes p w → Denotes (.alt p q) w
  | right {p q : Pattern} {w : List Char} : Denotes q w → Denotes (.alt p q) w
  | cat {p q : Pattern} {u v : List Char} : Denotes p u → Denotes q v → Denotes (.cat p q) (u ++ v)
  | none {p : Pattern} : Denotes (.star p) []
  | more {p : Pattern} {u v : List Char} : Denotes p u → Denotes (.star p) v → Denotes (.star p) (u ++ v)

end ICPC.Spec
