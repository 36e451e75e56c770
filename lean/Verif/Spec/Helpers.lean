import Verif.Model.Helpers
import Verif.Spec.Convex

/-!
# What the helpers for containers should do (C95)
-/

namespace ICPC.Spec
open Helpers

variable {α : Type}

/-- The object at address `a` is a vector with the elements `l`. -/
def IsVec (m : Mem α) (a : Nat) (l : List α) : Prop := ∃ b cap, m.obj a = some (.vec b cap) ∧ m.heap b = some l

/-- The memory of a program without errors: every vector owns its block, has no more elements than its capacity, and new
blocks are unused. -/
structure Sound (m : Mem α) : Prop where
  owns : ∀ a b cap, m.obj a = some (.vec b cap) → ∃ l, m.heap b = some l ∧ l.length ≤ cap
  apart : ∀ a a' b cap cap', m.obj a = some (.vec b cap) → m.obj a' = some (.vec b cap') → a = a'
  fresh : ∀ b l, m.heap b = some l → b < m.next

/-- All elements of nested containers, from left to right. -/
def leaves : (d : Nat) → Nested α d → List α
  | 0, (c : α) => [c]
  | d + 1, (c : List (Nested α d)) => (c.map (leaves d)).flatten

/-- The contract of `top()` of `std::priority_queue`: an element such that no other one is greater. -/
def TopContract (top : (α → α → Bool) → List α → α) : Prop :=
  ∀ less l, StrictWeakOn less l → l ≠ [] → top less l ∈ l ∧ ∀ x ∈ l, less (top less l) x = false

end ICPC.Spec
