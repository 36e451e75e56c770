import Mathlib.Data.List.Sort

/-!
# `std::sort`

`std::sort` is specified to produce a sorted rearrangement.  For a linear order there is exactly one, so any
sorting function is a faithful model; insertion sort reduces well in the kernel.
-/

namespace ICPC

/-- `std::sort(first, last)` on a linearly ordered type. -/
def stdSort {α : Type} [LinearOrder α] (xs : List α) : List α := xs.insertionSort (· ≤ ·)

theorem stdSort_perm {α : Type} [LinearOrder α] (xs : List α) : (stdSort xs).Perm xs :=
  List.perm_insertionSort _ xs

theorem stdSort_sorted {α : Type} [LinearOrder α] (xs : List α) : (stdSort xs).Pairwise (· ≤ ·) :=
  List.pairwise_insertionSort _ xs

@[simp] theorem stdSort_length {α : Type} [LinearOrder α] (xs : List α) : (stdSort xs).length = xs.length :=
  (stdSort_perm xs).length_eq

@[simp] theorem mem_stdSort {α : Type} [LinearOrder α] {xs : List α} {a : α} : a ∈ stdSort xs ↔ a ∈ xs :=
  (stdSort_perm xs).mem_iff

end ICPC
