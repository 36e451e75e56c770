import Mathlib.Logic.Function.Iterate

/-!
# Specification of periods
-/

namespace ICPC.Spec

/-- `x` comes back after exactly `n` applications of `f` and never earlier. -/
def PeriodExactly {α : Type} (f : α → α) (n : Nat) (x : α) : Prop :=
  0 < n ∧ f^[n] x = x ∧ ∀ k, 0 < k → k < n → f^[k] x ≠ x

end ICPC.Spec
