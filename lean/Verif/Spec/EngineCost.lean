import Verif.Spec.Engine

/-!
# How many words a random program needs
-/

namespace ICPC.Spec

open MeasureTheory

/-- No execution makes more than `D` calls of `Random::integer` and `Random::bit`. -/
def CallsAtMost {α : Type} : Rand α → ℕ → Prop
  | .done _, _ => True
  | .draw _ _ _, 0 => False
  | .draw l u k, D + 1 => ∀ v, l ≤ v → v < u → CallsAtMost (k v) D
  | .coin _, 0 => False
  | .coin k, D + 1 => ∀ b, CallsAtMost (k b) D

/-- The probability that the first `n` words do not suffice for the execution. -/
noncomputable def late {α : Type} (i128 : Bool) (r : Rand α) (n : ℕ) : ℝ :=
  engine.real {ω | r.run i128 ((List.range n).map ω) = none}

open Classical in
/-- The number of words that the execution takes from the engine: the number of `n` such that the first `n` do not suffice. -/
noncomputable def wordsUsed {α : Type} (i128 : Bool) (r : Rand α) (ω : ℕ → ℕ) : ENNReal :=
  ∑' n, if r.run i128 ((List.range n).map ω) = none then 1 else 0

end ICPC.Spec
