import Mathlib.Data.Fintype.Pi
import Mathlib.Data.Fintype.Card
import Mathlib.Data.Rat.Defs

/-!
# The distribution of the largest of several numbers
-/

namespace ICPC.Spec

/-- The probability that all of `n` numbers are less than `k`, if each of them is one of `0, ..., N - 1` and all possibilities are equally likely:
the number of tuples with this property divided by the number of all tuples. -/
def allBelow (N n k : ℕ) : ℚ :=
  ((Finset.univ.filter fun t : Fin n → Fin N => ∀ i, (t i : ℕ) < k).card : ℚ) / (Fintype.card (Fin n → Fin N) : ℚ)

end ICPC.Spec
