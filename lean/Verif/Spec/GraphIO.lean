import Verif.Spec.Stream
import Verif.Spec.Graph

/-! # Graphs as text -/

namespace ICPC.Spec

/-- One line for every edge. -/
def edgeLines : List (Int × Int) → List Char
  | [] => []
  | (a, b) :: E => decimal a ++ ' ' :: decimal b ++ '\n' :: edgeLines E

/-- The number of vertices and the number of edges on the first line, then one line for every edge. -/
def graphText (n : Int) (E : List (Int × Int)) : List Char :=
  decimal n ++ ' ' :: decimal E.length ++ '\n' :: edgeLines E

/-- The inputs that the task of the example describes: a tree with the vertices 1, ..., n. -/
def TreeFile (s : List Char) : Prop :=
  ∃ (n : Int) (E : List (Int × Int)), 1 ≤ n ∧ n < 100000 ∧ 1 ≤ E.length ∧ E.length < 200000 ∧
    (∀ e ∈ E, (1 ≤ e.1 ∧ e.1 ≤ n) ∧ 1 ≤ e.2 ∧ e.2 ≤ n) ∧ Forest E ∧ Connected 1 (n + 1) E ∧ s = graphText n E

end ICPC.Spec
