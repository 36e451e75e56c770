import Verif.Spec.Png

/-!
# What the example visualizers are to show
-/

namespace ICPC.Spec.PngFormat

open ICPC.Png

/-- The pixels of an image of the given size that can be reached from the corner `(0, 0)` without crossing `ink`. -/
inductive Outside (width height : Nat) (ink : Point → Prop) : Point → Prop
  | corner : Outside width height ink ⟨0, 0⟩
  | step (q r : Point) : Outside width height ink q → Adjacent q r → (0 ≤ r.x ∧ r.x < width ∧ 0 ≤ r.y ∧ r.y < height) → ¬ ink r →
      Outside width height ink r

end ICPC.Spec.PngFormat
