import Mathlib.Data.Real.Basic

/-!
# Simple polygons

The polygon with vertices `P 0, …, P (n - 1)` has the edges from `P i` to `P (i + 1)`, indices modulo `n`.
-/

namespace ICPC.Spec

/-- The point `p` of the plane is on the closed segment from `a` to `b`. -/
def OnSegment (a b : Int × Int) (p : ℝ × ℝ) : Prop :=
  ∃ t : ℝ, 0 ≤ t ∧ t ≤ 1 ∧ p.1 = a.1 + t * (b.1 - a.1) ∧ p.2 = a.2 + t * (b.2 - a.2)

/-- The vertex number `i`, modulo the number of vertices. -/
def vertex (pts : List (Int × Int)) (i : Nat) : Int × Int := pts.getD (i % pts.length) (0, 0)

/-- The point `p` is on edge number `i`. -/
def OnEdge (pts : List (Int × Int)) (i : Nat) (p : ℝ × ℝ) : Prop :=
  OnSegment (vertex pts i) (vertex pts (i + 1)) p

/-- `p` is the vertex number `i`. -/
def IsVertex (pts : List (Int × Int)) (i : Nat) (p : ℝ × ℝ) : Prop :=
  p = (((vertex pts i).1 : ℝ), ((vertex pts i).2 : ℝ))

/-- A simple polygon: at least three vertices, no edge of length zero, and two edges have no common point but the
vertex between neighbours. -/
def SimplePolygon (pts : List (Int × Int)) : Prop :=
  3 ≤ pts.length ∧
  (∀ i < pts.length, vertex pts i ≠ vertex pts (i + 1)) ∧
  ∀ i j, i < j → j < pts.length → ∀ p, OnEdge pts i p → OnEdge pts j p →
    (j = i + 1 ∧ IsVertex pts j p) ∨ (i = 0 ∧ j = pts.length - 1 ∧ IsVertex pts 0 p)

/-- No edge has length zero and no edge folds back onto the edge before it. -/
def NoSpikes (pts : List (Int × Int)) : Prop :=
  (∀ i < pts.length, vertex pts i ≠ vertex pts (i + 1)) ∧
  ∀ i < pts.length, ∀ p, OnEdge pts i p → OnEdge pts (i + 1) p → IsVertex pts (i + 1) p

end ICPC.Spec
