import Mathlib.Data.List.Basic

/-!
# Specification of balanced bracket sequences
-/

namespace ICPC.Spec

/-- Balanced bracket sequences: the empty one, and a bracket pair around a balanced sequence followed by a
balanced sequence. -/
inductive Balanced (opn cls : Char) : List Char → Prop
  | nil : Balanced opn cls []
  | pair {s t : List Char} : Balanced opn cls s → Balanced opn cls t → Balanced opn cls (opn :: (s ++ cls :: t))

end ICPC.Spec
