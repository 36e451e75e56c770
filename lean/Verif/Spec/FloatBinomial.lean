import Mathlib.Algebra.BigOperators.Intervals
import Mathlib.Data.Nat.Choose.Basic
import Mathlib.Data.Real.Basic

/-!
# The binomial distribution
-/

namespace ICPC.Spec

open Finset

/-- The probability of at least `k` successes in `n` independent trials of probability `p`. -/
def atLeast (p : ℝ) (k n : ℕ) : ℝ := ∑ j ∈ (range (n + 1)).filter (k ≤ ·), n.choose j * p ^ j * (1 - p) ^ (n - j)

end ICPC.Spec
