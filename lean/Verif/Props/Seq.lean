import Verif.Lemmas.Seq

/-!
# Property theorems C17 - C21 (sequence predicates)
-/

namespace ICPC.Props
open ICPC ICPC.Spec

/-- **C17.** `isPerm(range, offset)` returns (no exception, no undefined behaviour) and is true iff the
range is a permutation of `offset .. offset+n-1`; a negative answer carries an element of the range that is
outside or occurs at least twice.  Precondition: no element exceeds `offset` by 2^63 or more (otherwise the
signed subtraction `x - offset` overflows), e.g. guaranteed by `offset ≥ 0`. -/
theorem C17_isPerm_partial (xs : List Int) (offset : Int) (hsmall : ∀ x ∈ xs, x - offset < 2 ^ 63)
    (hlen : xs.length < 2 ^ 63) :
    ∃ b, isPerm xs offset = .ok b ∧
      (b.value = true ↔ IsPermutationFrom offset xs) ∧
      (b.value = false → ∃ x ∈ xs, b.reason = some x ∧
        (x < offset ∨ offset + xs.length ≤ x ∨ 2 ≤ xs.count x)) := by
  obtain ⟨b, hb, ht, hf⟩ := isPermLoop_spec offset xs.length xs [] (List.replicate xs.length false)
    (by simp) (by intro i hi; simp [hi]) (by simp) (by simp) hsmall hlen
  refine ⟨b, hb, ?_, by simpa using hf⟩
  rw [ht, isPermutationFrom_iff]; simp

example : isPerm [3, 1, 2] 1 = .ok { value := true } := by decide
/-- a value just outside of the interval, on either side -/
example : isPerm [1, 2, 4] 1 = .ok { value := false, reason := some 4 } := by decide
example : isPerm [1, 0, 2] 1 = .ok { value := false, reason := some 0 } := by decide
example : isPerm [3, 1, 3] 1 = .ok { value := false, reason := some 3 } := by decide
/-- the precondition is needed: `INT64_MAX - (-1)` overflows -/
example : isPerm [2 ^ 63 - 1] (-1) = .error .ub := by decide

/-- **C17**, the usual call with a non-negative offset on 64-bit values. -/
theorem C17_isPerm_nonneg_partial (xs : List Int) (offset : Int) (h64 : ∀ x ∈ xs, I64 x) (h0 : 0 ≤ offset)
    (hlen : xs.length < 2 ^ 63) :
    ∃ b, isPerm xs offset = .ok b ∧ (b.value = true ↔ IsPermutationFrom offset xs) := by
  obtain ⟨b, hb, ht, _⟩ := C17_isPerm_partial xs offset (fun x hx => by have := (h64 x hx).2; omega) hlen
  exact ⟨b, hb, ht⟩

/-- **C17 fails** if `x - offset` overflows: instead of reporting that 0 is out of range the behaviour is undefined. -/
theorem C17_overflow_refuted : isPerm [0] (-2 ^ 63) = .error .ub := by decide +kernel

example : ∀ x ∈ [(3 : Int), 1, 2], I64 x := by decide

/-- **C18.** `isPerm(A, B)` is true iff `A` is a rearrangement of `B`; a negative answer for ranges of
equal size carries an element of `A`. -/
theorem C18_isPermOf {α : Type} [LinearOrder α] (a b : List α) :
    ((isPermOf a b).value = true ↔ a.Perm b) ∧
    ((isPermOf a b).value = false → a.length = b.length → ∃ x ∈ a, (isPermOf a b).reason = some x) := by
  unfold isPermOf
  by_cases hl : a.length = b.length
  · simp only [hl, ne_eq, not_true_eq_false, if_false]
    obtain ⟨h1, h2⟩ := firstDiff_spec (stdSort a) (stdSort b) (by simp [hl])
    constructor
    · rw [h1]
      constructor
      · intro h
        exact (stdSort_perm a).symm.trans (h ▸ stdSort_perm b)
      · intro h
        exact List.Perm.eq_of_pairwise (fun _ _ _ _ h1 h2 => le_antisymm h1 h2) (stdSort_sorted a) (stdSort_sorted b)
          (((stdSort_perm a).trans h).trans (stdSort_perm b).symm)
    · intro hf _
      obtain ⟨i, x, hr, ha, _, _⟩ := h2 hf
      exact ⟨x, (stdSort_perm a).subset (List.mem_of_getElem? ha), hr⟩
  · simp only [ne_eq, hl, not_false_eq_true, if_true]
    exact ⟨by simp; intro h; exact hl h.length_eq, by simp [hl]⟩

example : (isPermOf [3, 1, 2, 1] [1, 1, 2, 3]).value = true := by decide
example : isPermOf [3, 1] [1, 2] = { value := false, reason := some 3 } := by decide

/-- **C19.** `areIncreasing` is true iff the whole sequence is strictly increasing; otherwise the witness is
the length of the longest strictly increasing prefix (the position of the first violation). -/
theorem C19_areIncreasing {α : Type} [LinearOrder α] (xs : List α) :
    ((areIncreasing xs).value = true ↔ StrictlyIncreasing xs) ∧
    ((areIncreasing xs).value = false →
      ∃ k, (areIncreasing xs).reason = some k ∧ FirstNeighbour (fun x y => ¬ x < y) xs k) := by
  obtain ⟨h1, h2, _⟩ := anyAdjacent_spec (fun x y : α => !decide (x < y)) xs
  have hpairs := allNeighbours_iff_pairs (R := fun x y : α => x < y) (fun _ _ _ => lt_trans) xs
  constructor
  · simp only [areIncreasing, allAdjacent, noneAdjacent, StrictlyIncreasing, ← hpairs]
    rw [Bool.not_eq_true', Bool.eq_false_iff, Ne, h1]; simp
  · intro h
    simp only [areIncreasing, allAdjacent, noneAdjacent] at h ⊢
    simpa using h2 (by simpa using h)

/-- **C19.** `areNonDecreasing`. -/
theorem C19_areNonDecreasing {α : Type} [LinearOrder α] (xs : List α) :
    ((areNonDecreasing xs).value = true ↔ WeaklyIncreasing xs) ∧
    ((areNonDecreasing xs).value = false →
      ∃ k, (areNonDecreasing xs).reason = some k ∧ FirstNeighbour (fun x y => ¬ x ≤ y) xs k) := by
  obtain ⟨h1, h2, _⟩ := anyAdjacent_spec (fun x y : α => !decide (x ≤ y)) xs
  have hpairs := allNeighbours_iff_pairs (R := fun x y : α => x ≤ y) (fun _ _ _ => le_trans) xs
  constructor
  · simp only [areNonDecreasing, allAdjacent, noneAdjacent, WeaklyIncreasing, ← hpairs]
    rw [Bool.not_eq_true', Bool.eq_false_iff, Ne, h1]; simp
  · intro h
    simp only [areNonDecreasing, allAdjacent, noneAdjacent] at h ⊢
    simpa using h2 (by simpa using h)

/-- **C19.** `areDecreasing`. -/
theorem C19_areDecreasing {α : Type} [LinearOrder α] (xs : List α) :
    ((areDecreasing xs).value = true ↔ StrictlyDecreasing xs) ∧
    ((areDecreasing xs).value = false →
      ∃ k, (areDecreasing xs).reason = some k ∧ FirstNeighbour (fun x y => ¬ y < x) xs k) := by
  obtain ⟨h1, h2, _⟩ := anyAdjacent_spec (fun x y : α => !decide (x > y)) xs
  have hpairs := allNeighbours_iff_pairs (R := fun x y : α => y < x) (fun _ _ _ h1 h2 => lt_trans h2 h1) xs
  constructor
  · simp only [areDecreasing, allAdjacent, noneAdjacent, StrictlyDecreasing, ← hpairs]
    rw [Bool.not_eq_true', Bool.eq_false_iff, Ne, h1]; simp
  · intro h
    simp only [areDecreasing, allAdjacent, noneAdjacent] at h ⊢
    simpa using h2 (by simpa using h)

/-- **C19.** `areNonIncreasing`. -/
theorem C19_areNonIncreasing {α : Type} [LinearOrder α] (xs : List α) :
    ((areNonIncreasing xs).value = true ↔ WeaklyDecreasing xs) ∧
    ((areNonIncreasing xs).value = false →
      ∃ k, (areNonIncreasing xs).reason = some k ∧ FirstNeighbour (fun x y => ¬ y ≤ x) xs k) := by
  obtain ⟨h1, h2, _⟩ := anyAdjacent_spec (fun x y : α => !decide (x ≥ y)) xs
  have hpairs := allNeighbours_iff_pairs (R := fun x y : α => y ≤ x) (fun _ _ _ h1 h2 => le_trans h2 h1) xs
  constructor
  · simp only [areNonIncreasing, allAdjacent, noneAdjacent, WeaklyDecreasing, ← hpairs]
    rw [Bool.not_eq_true', Bool.eq_false_iff, Ne, h1]; simp
  · intro h
    simp only [areNonIncreasing, allAdjacent, noneAdjacent] at h ⊢
    simpa using h2 (by simpa using h)

example : areIncreasing [1, 2, 5, 5, 7] = { value := false, reason := some 3 } := by decide
example : (areNonDecreasing [1, 2, 5, 5, 7]).value = true := by decide
example : areDecreasing [4, 2, 3] = { value := false, reason := some 2 } := by decide
example : (areNonIncreasing [4, 4, 3]).value = true := by decide

/-- **C20.** `areDistinct` returns, is true iff all elements are different, and a negative answer carries an
element occurring at least twice. -/
theorem C20_areDistinct {α : Type} [LinearOrder α] (xs : List α) :
    ∃ b, areDistinct xs = .ok b ∧ (b.value = true ↔ AllDifferent xs) ∧
      (b.value = false → ∃ x, b.reason = some x ∧ 2 ≤ xs.count x) := by
  obtain ⟨h1, h2, h3⟩ := anyAdjacent_spec (fun x y : α => decide (x = y)) (stdSort xs)
  have hs := stdSort_sorted xs
  have hperm := stdSort_perm xs
  have hnd : AllDifferent xs ↔ (stdSort xs).Nodup := by
    rw [hperm.nodup_iff, List.Nodup, List.pairwise_iff_getElem]; rfl
  unfold areDistinct
  cases hv : (anyAdjacent (fun x y : α => decide (x = y)) (stdSort xs)).value with
  | true =>
    obtain ⟨m, hm, i, hmi, hlt, heq, _⟩ := h2 hv
    simp only [hm]
    have hget : (stdSort xs)[m.toNat]? = some (stdSort xs)[i + 1] := by
      have : m.toNat = i + 1 := by omega
      rw [this]; exact List.getElem?_eq_getElem hlt
    rw [hget]
    refine ⟨_, rfl, ?_, ?_⟩
    · rw [hnd]
      simp only [hv, Bool.not_true, Bool.false_eq_true, false_iff]
      intro h
      have := List.pairwise_iff_getElem.1 h i (i + 1) (by omega) hlt (by omega)
      exact this (by simpa using heq)
    · intro _
      refine ⟨_, rfl, ?_⟩
      rw [← hperm.count_eq]
      have heq' : (stdSort xs)[i] = (stdSort xs)[i + 1] := by simpa using heq
      have : List.Sublist (List.replicate 2 (stdSort xs)[i + 1]) (stdSort xs) := by
        have hd : (stdSort xs).drop i = (stdSort xs)[i] :: (stdSort xs)[i + 1] ::
            (stdSort xs).drop (i + 2) := by
          rw [List.drop_eq_getElem_cons (by omega), List.drop_eq_getElem_cons (i := i + 1) hlt]
        refine List.Sublist.trans ?_ (List.drop_sublist i _)
        rw [hd, heq']
        simp only [List.replicate]
        exact ((List.nil_sublist _).cons_cons _).cons_cons _
      exact List.replicate_sublist_iff.1 this
  | false =>
    simp only [h3 hv]
    refine ⟨_, rfl, ?_, by simp [hv]⟩
    rw [hnd]
    simp only [hv, Bool.not_false, true_iff]
    have hall : AllNeighbours (fun x y : α => ¬ x = y) (stdSort xs) := by
      by_contra hc
      have := h1.2 (by simpa using hc)
      rw [hv] at this; simp at this
    have hlt : AllNeighbours (fun x y : α => x < y) (stdSort xs) := by
      intro i hi
      have h1 := List.pairwise_iff_getElem.1 hs i (i + 1) (by omega) hi (by omega)
      exact lt_of_le_of_ne h1 (hall i hi)
    rw [allNeighbours_iff_pairs (R := fun x y : α => x < y) (fun _ _ _ => lt_trans)] at hlt
    rw [List.Nodup, List.pairwise_iff_getElem]
    intro i j hi hj hij
    exact ne_of_lt (hlt i j hi hj hij)

example : areDistinct [5, 3, 9, 3, 1] = .ok { value := false, reason := some 3 } := by decide
example : areDistinct [5, 3, 9, 4, 1] = .ok { value := true } := by decide

/-- **C21 (iterator overloads and the `any`/`none` container overloads).** `anyAdjacent` is true iff some
neighbouring pair satisfies `p`, `noneAdjacent` iff none does, `allAdjacent` iff all do; the reason is the
position of the first satisfying (violating) pair. -/
theorem C21_adjacent_iterators_partial {α : Type} (p : α → α → Bool) (xs : List α) :
    ((anyAdjacent p xs).value = true ↔ ∃ k, FirstNeighbour (fun x y => p x y = true) xs k) ∧
    ((noneAdjacent p xs).value = true ↔ AllNeighbours (fun x y => ¬ p x y = true) xs) ∧
    ((allAdjacent p xs).value = true ↔ AllNeighbours (fun x y => p x y = true) xs) ∧
    ((anyAdjacent p xs).value = true →
      ∃ k, (anyAdjacent p xs).reason = some k ∧ FirstNeighbour (fun x y => p x y = true) xs k) ∧
    ((allAdjacent p xs).value = false →
      ∃ k, (allAdjacent p xs).reason = some k ∧ FirstNeighbour (fun x y => ¬ p x y = true) xs k) := by
  obtain ⟨h1, h2, _⟩ := anyAdjacent_spec p xs
  obtain ⟨g1, g2, _⟩ := anyAdjacent_spec (fun x y => !p x y) xs
  refine ⟨⟨fun h => (h2 h).imp fun k hk => hk.2, ?_⟩, ?_, ?_, h2, ?_⟩
  · rintro ⟨k, i, _, hi, hp, _⟩
    rw [h1]
    intro hall
    exact hall i hi hp
  · simp only [noneAdjacent]
    rw [Bool.not_eq_true', Bool.eq_false_iff, Ne, h1, not_not]
  · simp only [allAdjacent, noneAdjacent]
    rw [Bool.not_eq_true', Bool.eq_false_iff, Ne, g1]; simp
  · intro h
    simp only [allAdjacent, noneAdjacent] at h ⊢
    simpa using g2 (by simpa using h)

example : allAdjacent (fun x y : Nat => x + 1 == y) [1, 2, 3, 5] = { value := false, reason := some 3 } := by decide

/-- **C21 is violated by the code**: the container overload of `allAdjacent` (src/validate.h 631-634) answers
`false` for a sequence in which all adjacent pairs satisfy the predicate, and `true` for one in which none does. -/
theorem C21_allAdjacent_container_refuted :
    ¬ (∀ (p : Nat → Nat → Bool) (xs : List Nat),
        (allAdjacentContainer p xs).value = true ↔ AllNeighbours (fun x y => p x y = true) xs) := by
  intro h
  have := (h (fun x y => decide (x < y)) [1, 2]).2 (by
    intro i hi
    have : i = 0 := by simp at hi; omega
    subst this; simp)
  exact absurd this (by decide)

/-- What the container overload of `allAdjacent` computes instead: "no adjacent pair satisfies `p`". -/
theorem C21_allAdjacent_container_actual {α : Type} (p : α → α → Bool) (xs : List α) :
    (allAdjacentContainer p xs).value = true ↔ AllNeighbours (fun x y => ¬ p x y = true) xs :=
  (C21_adjacent_iterators_partial p xs).2.1

end ICPC.Props
