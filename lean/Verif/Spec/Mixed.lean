import Verif.Spec.Ideal
import Verif.Spec.GraphLaw

/-!
# Programs that draw real numbers and then integers
-/

namespace ICPC.Spec

/-- The probability that the result of `next` is in `A` after the result of `prog` was handed to it.  All draws are independent, so this is
the formula of total probability. -/
noncomputable def probThen {α : Type} (prog : ℕ → Ideal.Draw ℤ) (next : ℤ → Rand α) (A : α → Prop) : ENNReal :=
  ∑' x : ℤ, probIn prog {x} * ENNReal.ofReal ((EdgeMap.probThat (next x) A : ℚ) : ℝ)

end ICPC.Spec
