import Verif.Spec.GraphOps
import Verif.Spec.Rand
import Mathlib.Data.Finset.Prod
import Mathlib.Data.Int.Interval

/-!
# Sets of possible edges

An edge of an undirected graph is written with the smaller vertex first.
-/

namespace ICPC.Spec.EdgeMap

open ICPC ICPC.Gen

/-- All possible edges between the vertices `[0, n)`. -/
def allPairs (dir : Bool) (n : Nat) : Finset (Int × Int) :=
  (Finset.Ico (0 : Int) n ×ˢ Finset.Ico (0 : Int) n).filter fun p => if dir then p.1 ≠ p.2 else p.1 < p.2

/-- All possible edges between `[0, n)` and `[n, n + m)`. -/
def crossPairs (dir : Bool) (n m : Nat) : Finset (Int × Int) :=
  (allPairs dir (n + m)).filter fun p => (p.1 < n ∧ n ≤ p.2) ∨ (n ≤ p.1 ∧ p.2 < n)

/-- `hasEdge` holds exactly for the pairs in `S` (in both directions if the graph is undirected). -/
def HasExactly {E : Type} (g : Graph E) (dir : Bool) (n : Nat) (S : Finset (Int × Int)) : Prop :=
  ∀ u v, In 0 n u → In 0 n v → g.hasEdge u v = .ok (decide ((u, v) ∈ S ∨ (dir = false ∧ (v, u) ∈ S)))

open Classical in
/-- The probability that the edges are exactly the pairs in `S`. -/
noncomputable def probEdges {E : Type} (r : Rand (Graph E)) (dir : Bool) (n : Nat) (S : Finset (Int × Int)) : ℚ :=
  expect r fun g => if HasExactly g dir n S then 1 else 0

end ICPC.Spec.EdgeMap
