import Mathlib.Analysis.SpecialFunctions.Sqrt
import Mathlib.Data.Nat.Choose.Basic
import Mathlib.Algebra.Order.Floor.Ring

/-!
# What the rejection method of the binomial distribution relies on

W. Hörmann, *The generation of binomial random variates* (1993), algorithm BTRS.  A candidate is the floor of a transformed uniform number;
it is kept with a probability that must not exceed 1 (the curve is a hat), and a second test that needs no logarithm is allowed
where that probability is large (the squeeze).  Hörmann chose the constants by numerical search, so both are facts about
numbers, not consequences of the shape of the program.
-/

namespace ICPC.Spec

/-- Probability of `k` successes in `n` trials of probability `p`. -/
noncomputable def binomialWeight (n : ℕ) (p : ℝ) (k : ℕ) : ℝ := n.choose k * p ^ k * (1 - p) ^ (n - k)

/-- The most probable number of successes. -/
noncomputable def binomialMode (n : ℕ) (p : ℝ) : ℕ := ⌊(n + 1) * p⌋₊

/-- The constants of the algorithm. -/
noncomputable def btrsB (n : ℕ) (p : ℝ) : ℝ := 1.15 + 2.53 * √(n * p * (1 - p))
noncomputable def btrsA (n : ℕ) (p : ℝ) : ℝ := -0.0873 + 0.0248 * btrsB n p + 0.01 * p
noncomputable def btrsAlpha (n : ℕ) (p : ℝ) : ℝ := (2.83 + 5.1 / btrsB n p) * √(n * p * (1 - p))
noncomputable def btrsV (n : ℕ) (p : ℝ) : ℝ := 0.92 - 4.2 / btrsB n p

/-- The distance of `x` from the border of the unit interval. -/
noncomputable def border (x : ℝ) : ℝ := 1 / 2 - |x - 1 / 2|

/-- The transformation, and its derivative. -/
noncomputable def btrsMap (n : ℕ) (p x : ℝ) : ℝ := (2 * btrsA n p / border x + btrsB n p) * (x - 1 / 2) + (n * p + 1 / 2)
noncomputable def btrsDeriv (n : ℕ) (p x : ℝ) : ℝ := btrsA n p / border x ^ 2 + btrsB n p

/-- The curve is a hat: no candidate has to be kept with more than certainty. -/
def BtrsHat (n : ℕ) (p : ℝ) : Prop := ∀ x : ℝ, 0 < x → x < 1 → ∀ k : ℕ, k ≤ n → ⌊btrsMap n p x⌋ = k →
  binomialWeight n p k * btrsDeriv n p x ≤ btrsAlpha n p * binomialWeight n p (binomialMode n p)

/-- The squeeze: what the first test keeps, the exact test keeps as well. -/
def BtrsSqueeze (n : ℕ) (p : ℝ) : Prop := ∀ x : ℝ, 0 < x → x < 1 → 0.07 ≤ border x → ∀ k : ℕ, k ≤ n → ⌊btrsMap n p x⌋ = k →
  btrsV n p * (btrsAlpha n p * binomialWeight n p (binomialMode n p)) ≤ binomialWeight n p k * btrsDeriv n p x

end ICPC.Spec
