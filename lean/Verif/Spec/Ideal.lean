import Verif.Model.Ideal
import Mathlib.Probability.ProductMeasure
import Mathlib.MeasureTheory.Measure.Lebesgue.Basic

/-!
# What it means that a program has a distribution
-/

namespace ICPC.Spec

open MeasureTheory

/-- The uniform distribution on the open unit interval. -/
noncomputable def uniform01 : Measure ℝ := volume.restrict (Set.Ioo 0 1)

/-- Infinitely many independent, uniformly distributed numbers. -/
noncomputable def independentUniforms : Measure (ℕ → ℝ) := Measure.infinitePi fun _ => uniform01

/-- The probability that a program ends with a result in `A`.  The argument of the program is the number of iterations to follow; there is
one that suffices for the run at hand. -/
noncomputable def probIn {α : Type} (prog : ℕ → Ideal.Draw α) (A : Set α) : ENNReal :=
  independentUniforms {ω | ∃ fuel x ω', prog fuel ω = .ok (x, ω') ∧ x ∈ A}

/-- The probability that the behaviour of a program is undefined. -/
noncomputable def probUndefined {α : Type} (prog : ℕ → Ideal.Draw α) : ENNReal :=
  independentUniforms {ω | ∃ fuel, prog fuel ω = .error .ub}

end ICPC.Spec
