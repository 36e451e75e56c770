import Verif.Spec.GraphGen
import Mathlib.Data.Finset.Card
import Mathlib.Order.Interval.Finset.Defs
import Mathlib.Data.Int.Interval

/-!
# Degree sequences
-/

namespace ICPC.Spec

open Classical in
/-- There is a simple undirected graph with the vertices `0, 1, ...` in which vertex `i` has `degree[i]` neighbours. -/
def Graphic (degree : List Int) : Prop := ∃ adj : Int → Int → Prop, (∀ u v, adj u v → adj v u) ∧ (∀ u, ¬ adj u u) ∧
  ∀ i (h : i < degree.length), ((((Finset.Ico (0 : Int) degree.length).filter fun v => adj i v).card : Nat) : Int) = degree[i]

end ICPC.Spec
