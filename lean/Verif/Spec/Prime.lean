import Mathlib.Data.Nat.Prime.Basic
import Mathlib.Data.Nat.ModEq

/-!
# Specification: strong probable primes (textbook definition).
-/

namespace ICPC.Spec

/-- `n` (odd) is a strong probable prime to base `a`: with `n - 1 = 2^s * d`, `d` odd, either `a^d ≡ 1` or
`a^(2^r d) ≡ -1 (mod n)` for some `r < s`. -/
def StrongProbablePrime (n a : Nat) : Prop :=
  ∃ s d, n - 1 = 2 ^ s * d ∧ d % 2 = 1 ∧
    (a ^ d % n = 1 ∨ ∃ r, r < s ∧ a ^ (2 ^ r * d) % n = n - 1)

end ICPC.Spec
