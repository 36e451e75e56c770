import Verif.Model.Float
import Mathlib.Analysis.SpecialFunctions.Log.Basic

/-!
# What is known about the logarithms of the standard library

The C++ standard says nothing about the error of `std::log` and `std::log1p`; the common implementations state relative errors
of about one unit in the last place.
-/

namespace ICPC.Spec.Fp

open ICPC.Fp (Flt)

/-- The relative error of `std::log` on `(0, 1]` is at most `ε`. -/
def LogWithin (ε : ℚ) (log : Flt → Flt) : Prop :=
  ∀ x : ℚ, 0 < x → x ≤ 1 → ∃ y : ℚ, log (.fin x) = .fin y ∧ |(y : ℝ) - Real.log x| ≤ ε * |Real.log x|

/-- The relative error of `std::log1p`, the logarithm of `1 + x`, on `(-1, 0]` is at most `ε`. -/
def Log1pWithin (ε : ℚ) (log1p : Flt → Flt) : Prop :=
  ∀ x : ℚ, -1 < x → x ≤ 0 → ∃ y : ℚ, log1p (.fin x) = .fin y ∧ |(y : ℝ) - Real.log (1 + x)| ≤ ε * |Real.log (1 + x)|

end ICPC.Spec.Fp
