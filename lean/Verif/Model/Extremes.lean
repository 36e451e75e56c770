import Verif.Model.Ideal
import Verif.Model.RealRange
import Verif.Model.RandSeq
import Mathlib.Analysis.SpecialFunctions.Log.Base
import Mathlib.Analysis.SpecialFunctions.Pow.Real

/-!
# `Random::maximum` and `Random::minimum` for large `n` (src/validate.h 1558-1571)

The branch for `n >= 5`, once with `Real` as the field of real numbers and once with `Real` as a floating point format.  The branch for smaller
`n`, the assertions before the branches and `minmax` are in `Verif.Model.RandSeq`.
-/

namespace ICPC

/-- The last lines of the branch (src/validate.h 1559, 1561, 1562) where `z` is the value that `static_cast<UInteger>` truncates to.  The cast is
not defined if it does not fit. -/
def clampMaximum (lower upper z : Int) : Out Int :=
  if 0 ≤ z ∧ z < 2 ^ 64 then .ok (min (upper - 1) (toI64 ((z.toNat + toU64 lower) % 2 ^ 64)))
  else .error .ub

namespace Ideal

/-- The branch of `maximum(lower, upper, n)` for `n >= 5` (src/validate.h 1558-1563) in exact arithmetic.  The product is not negative where `real()`
is positive, so to truncate is to round down. -/
noncomputable def maximumLarge (lower upper n : Int) : Draw Int := do
  let u ← real
  lift (clampMaximum lower upper ⌊(rangeWidth lower upper : ℝ) * (2 : ℝ) ^ (Real.logb 2 u / n)⌋)

/-- `minimum(lower, upper, n)` for `n >= 5` (src/validate.h 1569-1571), in exact arithmetic. -/
noncomputable def minimumLarge (lower upper n : Int) : Draw Int := do
  let u1 ← lift (chk (upper - 1))
  let w ← lift (chk (upper - lower))
  let m ← maximumLarge 0 w n
  lift (chk (u1 - m))

end Ideal

namespace Fp

/-- The value that `static_cast<UInteger>` truncates to; there is none for infinities and NaN. -/
def truncate : Flt → Option Int
  | .fin q => some (if q < 0 then -⌊-q⌋ else ⌊q⌋)
  | _ => none

/-- The branch of `maximum(lower, upper, n)` for `n >= 5` (src/validate.h 1558-1563) in the format `F`; `e` is the value of
`std::exp2(std::log2(real()) / n)`.  The width of the interval is converted to `Real`, which rounds. -/
def maximumLarge (F : Format) (lower upper : Int) (e : Flt) : Out Int :=
  (truncate (mul F (round F (rangeWidth lower upper)) e)).elim (.error .ub) (clampMaximum lower upper)

end Fp

end ICPC
