import Verif.Spec.Engine

/-!
# Functions that draw words, on independent words
-/

namespace ICPC.Spec

open MeasureTheory

/-- The function takes words one after the other, until it knows its result, and does not look at the words after these. -/
structure Sequential {α : Type} (f : List ℕ → Option (α × List ℕ)) : Prop where
  /-- the words after the ones it takes do not matter -/
  more : ∀ {ws rest : List ℕ} {a : α} (t : List ℕ), f ws = some (a, rest) → f (ws ++ t) = some (a, rest ++ t)
  /-- it leaves the words after the ones it takes -/
  taken : ∀ {ws rest : List ℕ} {a : α}, f ws = some (a, rest) → ∃ pre, ws = pre ++ rest ∧ f pre = some (a, [])

/-- On the words `ω` the function returns a value that satisfies `Q`. -/
def Yields {α : Type} (f : List ℕ → Option (α × List ℕ)) (Q : α → Prop) : Set (ℕ → ℕ) :=
  {ω | ∃ n a rest, f ((List.range n).map ω) = some (a, rest) ∧ Q a}

/-- A call together with a condition on its result. -/
structure Want where
  Value : Type
  call : List ℕ → Option (Value × List ℕ)
  good : Value → Prop

/-- The calls, one after the other, all return what is wanted. -/
def AllGood : List Want → List ℕ → Prop
  | [], _ => True
  | c :: cs, ws => ∃ a rest, c.call ws = some (a, rest) ∧ c.good a ∧ AllGood cs rest

end ICPC.Spec
