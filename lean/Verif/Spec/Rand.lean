import Verif.Model.Rand
import Mathlib.Algebra.BigOperators.Ring.Finset
import Mathlib.Algebra.Order.Field.Rat
import Mathlib.Order.Interval.Finset.Nat
import Mathlib.Data.Int.Interval
import Mathlib.Algebra.Field.Rat

/-!
# What statements about random programs mean

`Sat r P` quantifies over all values that draws and coins can take.  `prob r a` is the probability of the
result `a` when every draw is uniform on its range and draws are independent (C02 is the statement that
`Random::integer` provides such draws when the engine words are uniform).
-/

namespace ICPC

/-- Every possible outcome of the program satisfies `P`, and every draw is from a non-empty range with
64-bit bounds; a draw may return any value of its range. -/
def Sat {α : Type} : Rand α → (Out α → Prop) → Prop
  | .done o, P => P o
  | .draw l u k, P => I64 l ∧ I64 u ∧ l < u ∧ ∀ v, l ≤ v → v < u → Sat (k v) P
  | .coin k, P => ∀ b, Sat (k b) P

/-- The program always returns a value, and it satisfies `P`. -/
def SatOk {α : Type} (r : Rand α) (P : α → Prop) : Prop := Sat r fun o => ∃ a, o = .ok a ∧ P a

/-- The expected value of `g`, when draws and coins are uniform and independent; outcomes without a value
count as 0. -/
def expect {α : Type} (r : Rand α) (g : α → ℚ) : ℚ :=
  match r with
  | .done (.ok a) => g a
  | .done (.error _) => 0
  | .draw l u k => (∑ v ∈ Finset.Ico l u, expect (k v) g) / ((u - l : Int) : ℚ)
  | .coin k => (expect (k false) g + expect (k true) g) / 2

/-- The probability that the program returns the value `a`, when draws and coins are uniform and
independent. -/
def prob {α : Type} [DecidableEq α] (r : Rand α) (a : α) : ℚ := expect r fun x => if x = a then 1 else 0

end ICPC
