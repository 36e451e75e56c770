import Verif.Lemmas.Shuffle

/-!
# C03, C05: `Random::shuffle` and `Random::perm`
-/

namespace ICPC.Props
open ICPC ICPC.Spec

/-- **C03.** For every range (of a length representable in 64 bits) and every sequence of draws,
`Random::shuffle` returns normally and leaves a rearrangement of the range. -/
theorem C03_shuffle_perm {α : Type} (l : List α) (hlen : l.length < 2 ^ 63) :
    SatOk (shuffle l) fun l' => l'.Perm l :=
  SatOk.mono (shuffleLoop_sat (l.length - 1) l (by omega) hlen) fun _ h => h.1

/-- **C03.** Every arrangement of a range of `n` different elements is produced with probability `1/n!`. -/
theorem C03_shuffle_uniform {α : Type} [DecidableEq α] (l l' : List α) (hlen : l.length < 2 ^ 63) (hnd : l.Nodup)
    (hp : l'.Perm l) : prob (shuffle l) l' = 1 / (l.length.factorial : ℚ) := by
  unfold shuffle
  cases hl : l.length with
  | zero =>
    have : l = [] := List.length_eq_zero_iff.1 hl
    subst this
    have : l' = [] := by simpa using hp
    subst this
    rw [shuffleLoop_prob _ _ _ (by simp) hlen hnd hp (by simp)]; simp
  | succ n =>
    rw [shuffleLoop_prob _ _ _ (by omega) hlen hnd hp]
    · simp
    · rw [List.drop_eq_nil_of_le (by rw [hp.length_eq]; omega), List.drop_eq_nil_of_le (by omega)]

/-- **C03.** The rearrangement does not depend on the values: shuffling `f(x₁), ..., f(xₙ)` is shuffling
`x₁, ..., xₙ` and then applying `f`.  So for a range with equal elements the positions are rearranged
uniformly (take `l = [0, ..., n-1]` and let `f` be the range). -/
theorem C03_shuffle_values_irrelevant {α β : Type} (f : α → β) (l : List α) :
    shuffle (l.map f) = shuffle l >>= fun r => pure (r.map f) := by
  unfold shuffle
  rw [List.length_map, shuffleLoop_map]

/-- **C03**, pairs: both orders have probability one half (if the entries differ). -/
theorem C03_shuffle_pair {α : Type} [DecidableEq α] (a b : α) (h : a ≠ b) :
    prob (shufflePair (a, b)) (a, b) = 1 / 2 ∧ prob (shufflePair (a, b)) (b, a) = 1 / 2 := by
  have e : ∀ t, prob (shufflePair (a, b)) t = ((if (a, b) = t then 1 else 0) + (if (b, a) = t then 1 else 0)) / 2 := fun t => rfl
  rw [e, e]
  simp [h, h.symm]

example : (shuffle ['a', 'b', 'c']).run true [2 ^ 64 - 1, 2 ^ 64 - 1] = some (.ok ['a', 'b', 'c'], []) := by decide +kernel

example : (shuffle ['a', 'b', 'c']).run true [1, 1] = some (.ok ['b', 'c', 'a'], []) := by decide +kernel

/-! ### perm -/

/-- **C05.** `Random::perm(count, offset)` with `count ≥ 0` and no overflow returns normally and its result
is a permutation of `offset, ..., offset + count - 1`, whatever is drawn. -/
theorem C05_perm (count offset : Int) (h0 : 0 ≤ count) (h1 : I64 offset) (h2 : I64 (offset + count)) (h3 : I64 count) :
    SatOk (permOf count offset) fun p => p.length = count.toNat ∧ IsPermutationFrom offset p := by
  obtain ⟨n, rfl⟩ : ∃ n : Nat, count = n := ⟨count.toNat, by omega⟩
  have hn : n < 2 ^ 63 := by have := h3.2; omega
  unfold permOf
  rw [decide_eq_true h0, judgeAssert_true, Rand.lift_ok, Rand.bind_done_ok, chk_ok h2, Rand.lift_ok, Rand.bind_done_ok,
    range_interval h1 h2, Rand.lift_ok, Rand.bind_done_ok]
  refine SatOk.mono (C03_shuffle_perm _ (by simpa using hn)) fun p hp => ?_
  have : p.length = n := by rw [hp.length_eq]; simp
  refine ⟨by simpa using this, ?_⟩
  unfold IsPermutationFrom
  rw [this]; exact hp

/-- **C05.** Every permutation has probability `1/count!`. -/
theorem C05_perm_uniform (count offset : Int) (h0 : 0 ≤ count) (h1 : I64 offset) (h2 : I64 (offset + count)) (h3 : I64 count)
    (p : List Int) (hlen : p.length = count.toNat) (hp : IsPermutationFrom offset p) :
    prob (permOf count offset) p = 1 / (count.toNat.factorial : ℚ) := by
  obtain ⟨n, rfl⟩ : ∃ n : Nat, count = n := ⟨count.toNat, by omega⟩
  have hn : n < 2 ^ 63 := by have := h3.2; omega
  unfold permOf
  rw [decide_eq_true h0, judgeAssert_true, Rand.lift_ok, Rand.bind_done_ok, chk_ok h2, Rand.lift_ok, Rand.bind_done_ok,
    range_interval h1 h2, Rand.lift_ok, Rand.bind_done_ok]
  rw [C03_shuffle_uniform _ p (by simpa using hn) (nodup_interval _ _)]
  · simp
  · unfold IsPermutationFrom at hp
    rw [hlen] at hp; exact hp

theorem C05_perm_negative_throws (count offset : Int) (h0 : count < 0) : permOf count offset = .done (.error .throw) := by
  unfold permOf
  rw [decide_eq_false (by omega), judgeAssert_false]; rfl

example : (permOf 3 5).run true [1, 1] = some (.ok [6, 7, 5], []) := by decide +kernel

end ICPC.Props
