import Mathlib.Data.List.Basic

/-!
# Excerpts
-/

namespace ICPC.Spec.Shown

/-- The mark for parts that are left out. -/
def dots : List Char := ['[', '.', '.', '.', ']']

/-- `e` is the string `s` with at most two parts replaced by dots; the character at `pos` is kept if there is one. -/
inductive Excerpt (pos : Nat) : List Char → List Char → Prop
  | whole (s : List Char) : Excerpt pos s s
  | front (a b : List Char) : b ≠ [] → pos < a.length ∨ (a ++ b).length ≤ pos → Excerpt pos (a ++ b) (a ++ dots)
  | ends (a b c : List Char) : b ≠ [] → (a ++ b).length ≤ pos → pos < (a ++ b ++ c).length → Excerpt pos (a ++ b ++ c) (a ++ dots ++ c)
  | middle (a b c d : List Char) : b ≠ [] → d ≠ [] → (a ++ b).length ≤ pos → pos < (a ++ b ++ c).length →
      Excerpt pos (a ++ b ++ c ++ d) (a ++ dots ++ c ++ dots)

/-- The strings `a` and `b` agree (by `R`) before the position `k`, and not at `k`. -/
def DifferAt (R : Char → Char → Prop) (a b : List Char) (k : Nat) : Prop :=
  List.Forall₂ R (a.take k) (b.take k) ∧ ¬ List.Forall₂ R (a.take (k + 1)) (b.take (k + 1))

end ICPC.Spec.Shown
