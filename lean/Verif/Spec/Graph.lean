import Mathlib.Logic.Relation
import Mathlib.Data.List.Nodup

/-!
# What graph queries mean

A graph is the list of its edges, in order of insertion.
-/

namespace ICPC.Spec

/-- There is a path between `a` and `b` that uses edges in either direction. -/
def Joined {α : Type} (E : List (α × α)) (a b : α) : Prop := Relation.EqvGen (fun x y => (x, y) ∈ E) a b

/-- Any two vertices in [l, r) are joined by a path. -/
def Connected (l r : Int) (E : List (Int × Int)) : Prop :=
  ∀ a b, l ≤ a → a < r → l ≤ b → b < r → Joined E a b

/-- The edges with the given positions, used in either direction, form a walk from `a` to `b`. -/
inductive UWalk {α : Type} (E : List (α × α)) : α → List Nat → α → Prop
  | nil (a : α) : UWalk E a [] a
  | cons {a b c : α} {i : Nat} {w : List Nat} :
      E[i]? = some (a, b) ∨ E[i]? = some (b, a) → UWalk E b w c → UWalk E a (i :: w) c

/-- There is no cycle: no closed walk uses each of its edges once.  (Loops and repeated edges are cycles.) -/
def Forest (E : List (Int × Int)) : Prop := ∀ a w, UWalk E a w a → w.Nodup → w = []

/-- The vertices can be coloured with two colours so that every edge joins different colours. -/
def TwoColourable (E : List (Int × Int)) : Prop :=
  ∃ c : Int → Bool, ∀ e ∈ E, c e.1 ≠ c e.2

/-- `b` is a neighbour of `a`. -/
def Adjacent (E : List (Int × Int)) (a b : Int) : Prop := (a, b) ∈ E ∨ (b, a) ∈ E

/-- Two of the edges join `a` and `b`. -/
def Twice (E : List (Int × Int)) (a b : Int) : Prop :=
  ∃ i j : Nat, i < j ∧ (E[i]? = some (a, b) ∨ E[i]? = some (b, a)) ∧ (E[j]? = some (a, b) ∨ E[j]? = some (b, a))

/-- Two of the edges go from `a` to `b`. -/
def DiTwice (E : List (Int × Int)) (a b : Int) : Prop :=
  ∃ i j : Nat, i < j ∧ E[i]? = some (a, b) ∧ E[j]? = some (a, b)

/-- The edges with the given positions form a walk from `a` to `b`. -/
inductive Walk (E : List (Int × Int)) : Int → List Nat → Int → Prop
  | nil (a : Int) : Walk E a [] a
  | cons {a b c : Int} {i : Nat} {w : List Nat} : E[i]? = some (a, b) → Walk E b w c → Walk E a (i :: w) c

/-- There is no directed cycle. -/
def Acyclic (E : List (Int × Int)) : Prop := ∀ a w, Walk E a w a → w = []

/-- `o` lists every vertex in [l, r) once, and all edges go from earlier to later vertices. -/
def TopologicalOrder (l r : Int) (E : List (Int × Int)) (o : List Int) : Prop :=
  o.Nodup ∧ (∀ x, x ∈ o ↔ l ≤ x ∧ x < r) ∧
  ∀ e ∈ E, ∃ i j : Nat, i < j ∧ o[i]? = some e.1 ∧ o[j]? = some e.2

/-- Every vertex in [l, r) is reached from `x` in exactly one way. -/
def DirectedTree (l r : Int) (E : List (Int × Int)) (x : Int) : Prop :=
  (l ≤ x ∧ x < r) ∧ ∀ v, l ≤ v → v < r → ∃! w, Walk E x w v

end ICPC.Spec
