import Verif.Spec.GraphIO

/-! # The graph that example/generator.graph.cpp describes -/

namespace ICPC.Spec

/-- The edges of a cube whose vertices are `k, …, k + 7`. -/
def cubeEdges (k : Int) : List (Int × Int) :=
  [(k, k + 1), (k + 2, k + 3), (k + 4, k + 5), (k + 6, k + 7), (k, k + 2), (k + 1, k + 3), (k + 4, k + 6), (k + 5, k + 7),
    (k, k + 4), (k + 1, k + 5), (k + 2, k + 6), (k + 3, k + 7)]

/-- Two cubes and a triangle that is joined to three vertices of a face of each of them. -/
def twoCubes : List (Int × Int) :=
  cubeEdges 0 ++ cubeEdges 8 ++ [(16, 17), (17, 18), (18, 16)] ++ [(16, 0), (17, 1), (18, 2), (16, 8), (17, 9), (18, 10)]

/-- `σ` numbers the `n` vertices from 0 on by the `n` numbers from `lo` on. -/
def Numbering (n : Nat) (lo : Int) (σ : Int → Int) : Prop :=
  (∀ a : Int, 0 ≤ a → a < n → lo ≤ σ a ∧ σ a < lo + n) ∧ ∀ a b : Int, 0 ≤ a → a < n → 0 ≤ b → b < n → σ a = σ b → a = b

/-- The edge with the vertices renamed by `σ`, directed from the vertex that is first in the numbering `ρ` to the other one. -/
def directedEdge (ρ σ : Int → Int) (e : Int × Int) : Int × Int :=
  if ρ e.1 < ρ e.2 then (σ e.1, σ e.2) else (σ e.2, σ e.1)

end ICPC.Spec
