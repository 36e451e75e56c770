import Verif.Spec.Rand
import Mathlib.Probability.ProductMeasure
import Mathlib.MeasureTheory.Measure.Dirac
import Mathlib.MeasureTheory.Measure.Real

/-!
# Executions of random programs on independent words
-/

namespace ICPC.Spec

open MeasureTheory

/-- The uniform distribution on the numbers below `N`. -/
noncomputable def uniformBelow (N : ℕ) : Measure ℕ := (N : ENNReal)⁻¹ • ∑ w ∈ Finset.range N, Measure.dirac w

/-- Infinitely many independent, uniformly distributed 64-bit words. -/
noncomputable def engine : Measure (ℕ → ℕ) := Measure.infinitePi fun _ => uniformBelow (2 ^ 64)

/-- On the words `ω` the program ends with `o`: some number of the first words suffices for its execution. -/
def Returns {α : Type} (i128 : Bool) (r : Rand α) (ω : ℕ → ℕ) (o : Out α) : Prop :=
  ∃ n rest, r.run i128 ((List.range n).map ω) = some (o, rest)

/-- The probability that the program ends with an outcome that satisfies `Q`, if the engine returns independent uniform words. -/
noncomputable def chance {α : Type} (i128 : Bool) (r : Rand α) (Q : Out α → Prop) : ℝ :=
  engine.real {ω | ∃ o, Returns i128 r ω o ∧ Q o}

end ICPC.Spec
