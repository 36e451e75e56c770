import Verif.Spec.Geo

/-!
# Convex hulls of integer points
-/

namespace ICPC.Spec

/-- All points are on one side of a line through `p` (or on it). -/
def OnBoundary (pts : List (Int × Int)) (p : Int × Int) : Prop :=
  ∃ d : Int × Int, d ≠ (0, 0) ∧ ∀ q ∈ pts, 0 ≤ d.1 * (q.2 - p.2) - d.2 * (q.1 - p.1)

/-- All points are on one line. -/
def Collinear (pts : List (Int × Int)) : Prop := ∀ a ∈ pts, ∀ b ∈ pts, ∀ c ∈ pts, turn a b c = 0

/-- A closed path over points of `pts` that has all points on its left. -/
def Surrounds (h pts : List (Int × Int)) : Prop :=
  (∀ x ∈ h, x ∈ pts) ∧ h.head? = h.getLast? ∧
  ∀ i (hi : i + 1 < h.length), h[i] ≠ h[i + 1] ∧ ∀ q ∈ pts, 0 ≤ turn h[i] h[i + 1] q

end ICPC.Spec
