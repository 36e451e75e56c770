import Verif.Spec.FloatDist
import Verif.Spec.Float
import Mathlib.Analysis.Real.Sqrt
import Mathlib.Analysis.SpecialFunctions.Trigonometric.Basic

/-!
# What is known about `std::sqrt` and `std::cos`

IEEE 754 demands a correctly rounded square root; the C++ standard says nothing about the cosine, whose common implementations have errors of
about one unit in the last place.
-/

namespace ICPC.Spec.Fp

open ICPC.Fp (Flt Format)

/-- The relative error of `std::sqrt` is at most `ε`. -/
def SqrtWithin (ε : ℚ) (sqrt : Flt → Flt) : Prop :=
  ∀ x : ℚ, 0 ≤ x → ∃ y : ℚ, sqrt (.fin x) = .fin y ∧ |(y : ℝ) - √(x : ℝ)| ≤ ε * √(x : ℝ)

/-- The absolute error of `std::cos` on `[0, 7]` (a bit more than one period) is at most `ε`. -/
def CosWithin (ε : ℚ) (cos : Flt → Flt) : Prop :=
  ∀ x : ℚ, 0 ≤ x → x ≤ 7 → ∃ y : ℚ, cos (.fin x) = .fin y ∧ |(y : ℝ) - Real.cos x| ≤ ε

/-- The absolute error of `std::sin` on `[0, 7]` is at most `ε`. -/
def SinWithin (ε : ℚ) (sin : Flt → Flt) : Prop :=
  ∀ x : ℚ, 0 ≤ x → x ≤ 7 → ∃ y : ℚ, sin (.fin x) = .fin y ∧ |(y : ℝ) - Real.sin x| ≤ ε

/-- The assumptions about the format and the functions of the standard library: no relative error exceeds `ε`, numbers as small as
`2^-56 ε` do not matter, and `W` is a number of the format. -/
structure Accurate (F : Format) (log sqrt cos : Flt → Flt) (ε W : ℚ) : Prop where
  log : LogWithin ε log
  sqrt : SqrtWithin ε sqrt
  cos : CosWithin ε cos
  unit : unit F ≤ ε
  digits : 1 / 2 ^ 64 ≤ ε
  small : ε ≤ 1 / 2 ^ 10
  tiny : (2 : ℚ) ^ (F.emin - 1) ≤ ε / 2 ^ 56
  rep : Rep F W

end ICPC.Spec.Fp
