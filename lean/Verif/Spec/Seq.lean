import Mathlib.Order.Defs.LinearOrder
import Mathlib.Data.List.Basic

/-!
# Specifications for the sequence predicates: plain statements about lists, no model code.
-/

namespace ICPC.Spec

/-- The numbers `offset, offset+1, ..., offset+n-1`. -/
def interval (offset : Int) (n : Nat) : List Int := (List.range n).map fun i : Nat => offset + (i : Int)

/-- `xs` lists each of `offset .. offset + |xs| - 1` exactly once. -/
def IsPermutationFrom (offset : Int) (xs : List Int) : Prop :=
  xs.Perm (interval offset xs.length)

/-- `R` holds for every two neighbouring entries. -/
def AllNeighbours {α : Type} (R : α → α → Prop) (xs : List α) : Prop :=
  ∀ i (h : i + 1 < xs.length), R (xs[i]'(Nat.lt_of_succ_lt h)) xs[i + 1]

/-- `k` is the position of the first neighbouring pair `(xs[k-1], xs[k])` satisfying `R`. -/
def FirstNeighbour {α : Type} (R : α → α → Prop) (xs : List α) (k : Int) : Prop :=
  ∃ i : Nat, k = (i : Int) + 1 ∧ ∃ h : i + 1 < xs.length,
    R (xs[i]'(Nat.lt_of_succ_lt h)) xs[i + 1] ∧
    ∀ j (hj : j < i), ¬ R (xs[j]'(by omega)) (xs[j + 1]'(by omega))

/-- Strictly increasing as a whole: every earlier entry is smaller than every later one. -/
def StrictlyIncreasing {α : Type} [LinearOrder α] (xs : List α) : Prop :=
  ∀ i j (hi : i < xs.length) (hj : j < xs.length), i < j → xs[i] < xs[j]

/-- Weakly increasing as a whole. -/
def WeaklyIncreasing {α : Type} [LinearOrder α] (xs : List α) : Prop :=
  ∀ i j (hi : i < xs.length) (hj : j < xs.length), i < j → xs[i] ≤ xs[j]

/-- Strictly decreasing as a whole. -/
def StrictlyDecreasing {α : Type} [LinearOrder α] (xs : List α) : Prop :=
  ∀ i j (hi : i < xs.length) (hj : j < xs.length), i < j → xs[j] < xs[i]

/-- Weakly decreasing as a whole. -/
def WeaklyDecreasing {α : Type} [LinearOrder α] (xs : List α) : Prop :=
  ∀ i j (hi : i < xs.length) (hj : j < xs.length), i < j → xs[j] ≤ xs[i]

/-- All entries are different. -/
def AllDifferent {α : Type} (xs : List α) : Prop :=
  ∀ i j (hi : i < xs.length) (hj : j < xs.length), i < j → xs[i] ≠ xs[j]

end ICPC.Spec
