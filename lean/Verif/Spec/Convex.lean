import Verif.Model.Geo
import Mathlib.Data.List.Basic

/-!
# What the standard library promises for `std::sort` with a comparator and for `std::partition`
-/

namespace ICPC.Spec

/-- `less` is a strict weak ordering of the elements of `l`, the precondition of `std::sort`. -/
def StrictWeakOn {α : Type} (less : α → α → Bool) (l : List α) : Prop :=
  (∀ a ∈ l, less a a = false) ∧
  (∀ a ∈ l, ∀ b ∈ l, ∀ c ∈ l, less a b = true → less b c = true → less a c = true) ∧
  (∀ a ∈ l, ∀ b ∈ l, ∀ c ∈ l, less a b = false → less b c = false → less a c = false)

/-- The contract of `std::sort`: if the comparator is a strict weak ordering, the result is a rearrangement in
which no element is less than an earlier one.  The order of equivalent elements is not specified. -/
def SortContract {α : Type} (sort : (α → α → Bool) → List α → List α) : Prop :=
  ∀ less l, StrictWeakOn less l → (sort less l).Perm l ∧ (sort less l).Pairwise fun a b => less b a = false

/-- The contract of `std::partition`: a rearrangement with the elements that satisfy the predicate in front. -/
def PartitionContract {α : Type} (part : (α → Bool) → List α → List α) : Prop :=
  ∀ p l, (part p l).Perm l ∧ ∃ yes no, part p l = yes ++ no ∧ (∀ a ∈ yes, p a = true) ∧ ∀ a ∈ no, p a = false

/-- All points are on one line. -/
def OnALine (pts : List (Int × Int)) : Prop :=
  ∃ a b c : Int, (a ≠ 0 ∨ b ≠ 0) ∧ ∀ p ∈ pts, a * p.1 + b * p.2 = c

end ICPC.Spec
