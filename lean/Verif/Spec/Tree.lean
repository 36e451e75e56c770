import Mathlib.Logic.Relation
import Mathlib.Data.Finset.Card
import Mathlib.Data.Int.Interval

/-!
# Trees

The edges of an undirected graph are a finite set of pairs with the smaller vertex first.
-/

namespace ICPC.Spec.Tree

/-- `u` and `v` are joined by an edge. -/
def Adj (S : Finset (Int × Int)) (u v : Int) : Prop := (u, v) ∈ S ∨ (v, u) ∈ S

/-- A tree with the vertices `V`: connected, with one edge less than vertices. -/
structure IsTree (V : Finset Int) (S : Finset (Int × Int)) : Prop where
  valid : ∀ p ∈ S, p.1 ∈ V ∧ p.2 ∈ V ∧ p.1 < p.2
  connected : ∀ u ∈ V, ∀ v ∈ V, Relation.ReflTransGen (Adj S) u v
  count : S.card + 1 = V.card

/-- Number of edges at `v`. -/
def degreeOf (S : Finset (Int × Int)) (v : Int) : Nat := (S.filter fun p => p.1 = v ∨ p.2 = v).card

/-- The pair without its direction. -/
def sortPair (p : Int × Int) : Int × Int := (min p.1 p.2, max p.1 p.2)

/-- A tree whose edges are directed away from `r`: every other vertex has exactly one incoming edge, and `r` has none. -/
structure IsRooted (V : Finset Int) (A : Finset (Int × Int)) (r : Int) : Prop where
  tree : IsTree V (A.image sortPair)
  root : r ∈ V ∧ ∀ u, (u, r) ∉ A
  parent : ∀ v ∈ V, v ≠ r → ∃! u, (u, v) ∈ A

/-- The vertices `[0, n)`. -/
def verts (n : Nat) : Finset Int := Finset.Ico 0 (n : Int)

end ICPC.Spec.Tree
