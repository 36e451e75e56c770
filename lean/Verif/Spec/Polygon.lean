import Verif.Spec.Geo

/-!
# Points without degeneracies
-/

namespace ICPC.Spec

/-- No three different points of the list form a right angle (with the corner `a`). -/
def NoRightAngle (pts : List (Int × Int)) : Prop :=
  ∀ a ∈ pts, ∀ b ∈ pts, ∀ c ∈ pts, a ≠ b → a ≠ c → b ≠ c → (b.1 - a.1) * (c.1 - a.1) + (b.2 - a.2) * (c.2 - a.2) ≠ 0

end ICPC.Spec
