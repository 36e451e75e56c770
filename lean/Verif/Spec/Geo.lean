import Mathlib.Order.Defs.LinearOrder
import Mathlib.Data.Int.Notation

/-!
# Specifications for plane geometry on integer points
-/

namespace ICPC.Spec

/-- Twice the signed area of the triangle `p a b`: positive iff `p, a, b` make a left turn. -/
def turn (p a b : Int × Int) : Int := (a.1 - p.1) * (b.2 - p.2) - (a.2 - p.2) * (b.1 - p.1)

/-- The points are different and no three of them lie on a line. -/
def GeneralPosition (pts : List (Int × Int)) : Prop :=
  (∀ i j (hi : i < pts.length) (hj : j < pts.length), i < j → pts[i] ≠ pts[j]) ∧
  ∀ i j k (hi : i < pts.length) (hj : j < pts.length) (hk : k < pts.length), i < j → j < k →
    turn pts[i] pts[j] pts[k] ≠ 0

/-- The polygon `pts` is strictly convex and listed counter-clockwise: at least three vertices, and any three of
them, in their order, make a left turn. -/
def StrictlyConvexPolygon (pts : List (Int × Int)) : Prop :=
  3 ≤ pts.length ∧
  ∀ i j k (hi : i < pts.length) (hj : j < pts.length) (hk : k < pts.length), i < j → j < k →
    0 < turn pts[i] pts[j] pts[k]

/-- The polygon `pts` is convex and listed counter-clockwise, with vertices inside of edges allowed: any three
vertices, in their order, make no right turn, neighbours are different, and not all vertices are on a line. -/
def ConvexPolygon (pts : List (Int × Int)) : Prop :=
  3 ≤ pts.length ∧
  (∀ i j k (hi : i < pts.length) (hj : j < pts.length) (hk : k < pts.length), i < j → j < k →
    0 ≤ turn pts[i] pts[j] pts[k]) ∧
  (∀ i (hi : i < pts.length), pts[i] ≠ pts[(i + 1) % pts.length]'(Nat.mod_lt _ (by omega))) ∧
  ∃ i j k, ∃ (hi : i < pts.length) (hj : j < pts.length) (hk : k < pts.length), turn pts[i] pts[j] pts[k] ≠ 0

/-- The absolute coordinates are at most `2^30 - 1`. -/
def SmallCoordinates (pts : List (Int × Int)) : Prop :=
  ∀ p ∈ pts, (-1073741823 ≤ p.1 ∧ p.1 ≤ 1073741823) ∧ -1073741823 ≤ p.2 ∧ p.2 ≤ 1073741823

/-- Twice the signed area of a polygon with first vertex `o`: the sum over the triangles spanned by `o` and the
edges of the rest. -/
def fanArea (o : Int × Int) : List (Int × Int) → Int
  | a :: b :: rest => turn o a b + fanArea o (b :: rest)
  | _ => 0

/-- Twice the signed area enclosed by a closed polygon. -/
def doubleArea : List (Int × Int) → Int
  | [] => 0
  | o :: rest => fanArea o rest

end ICPC.Spec
