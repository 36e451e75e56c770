import Verif.Props.RandSeq

/-!
# C10: the distribution of `Random::nonDecreasing` and `Random::nonIncreasing`
-/

namespace ICPC.Props
open Spec

theorem stdSort_eq_of_perm_le {s t : List Int} (hp : s.Perm t) (ht : t.Pairwise (· ≤ ·)) : stdSort s = t :=
  List.Perm.eq_of_pairwise (fun _ _ _ _ h1 h2 => le_antisymm h1 h2) (stdSort_sorted s) ht ((stdSort_perm s).trans hp)

theorem sorted_prob (count lower upper : Int) (hl : I64 lower) (hu : I64 upper) (h0 : 0 ≤ count)
    (t : List Int) (hlen : t.length = count.toNat) (hs : t.Pairwise (· ≤ ·)) (hr : ∀ y ∈ t, lower ≤ y ∧ y < upper)
    (g : List Int → List Int) (ginj : ∀ a b, g a = g b → a = b) :
    prob (multiple count lower upper >>= fun res => pure (g (stdSort res))) (g t) =
      (t.permutations.toFinset.card : ℚ) / ((upper - lower : Int) : ℚ) ^ count.toNat := by
  rw [prob_bind]
  have e : (fun a : List Int => prob (pure (g (stdSort a)) : Rand (List Int)) (g t)) =
      fun a => ∑ s ∈ t.permutations.toFinset, if a = s then (1 : ℚ) else 0 := by
    funext a
    rw [Rand.pure_def, prob_done]
    by_cases h : a.Perm t
    · rw [if_pos (by rw [stdSort_eq_of_perm_le h hs]), Finset.sum_ite_eq, if_pos (by simpa using h)]
    · rw [if_neg, Finset.sum_ite_eq, if_neg (by simpa using h)]
      intro h'
      have := ginj _ _ h'
      exact h ((stdSort_perm a).symm.trans (by rw [this]))
  rw [e, expect_sum]
  have e2 : ∀ s ∈ t.permutations.toFinset, expect (multiple count lower upper) (fun a => if a = s then (1 : ℚ) else 0) =
      1 / ((upper - lower : Int) : ℚ) ^ count.toNat := by
    intro s hs'
    have hp : s.Perm t := by simpa using hs'
    exact C15_multiple_uniform count lower upper h0 hl hu s (by rw [hp.length_eq, hlen]) fun y hy => hr y (hp.subset hy)
  rw [Finset.sum_congr rfl e2, Finset.sum_const, nsmul_eq_mul, mul_one_div]

/-- **C10.** A weakly increasing sequence is returned by `nonDecreasing` with a probability that is proportional to the number of its
arrangements. -/
theorem C10_nonDecreasing_law (count lower upper : Int) (hl : I64 lower) (hu : I64 upper) (h0 : 0 ≤ count) (t : List Int)
    (hlen : t.length = count.toNat) (hs : WeaklyIncreasing t) (hr : ∀ y ∈ t, lower ≤ y ∧ y < upper) :
    prob (nonDecreasing count lower upper) t = (t.permutations.toFinset.card : ℚ) / ((upper - lower : Int) : ℚ) ^ count.toNat :=
  sorted_prob count lower upper hl hu h0 t hlen (List.pairwise_iff_getElem.2 fun i j hi hj hij => hs i j hi hj hij) hr id fun _ _ h => h

/-- **C10.** A weakly decreasing sequence is returned by `nonIncreasing` with a probability that is proportional to the number of its
arrangements. -/
theorem C10_nonIncreasing_law (count lower upper : Int) (hl : I64 lower) (hu : I64 upper) (h0 : 0 ≤ count) (t : List Int)
    (hlen : t.length = count.toNat) (hs : WeaklyDecreasing t) (hr : ∀ y ∈ t, lower ≤ y ∧ y < upper) :
    prob (nonIncreasing count lower upper) t = (t.permutations.toFinset.card : ℚ) / ((upper - lower : Int) : ℚ) ^ count.toNat := by
  have h := sorted_prob count lower upper hl hu h0 t.reverse (by simpa using hlen) ?_ (by simpa using hr) List.reverse
    fun _ _ h => List.reverse_injective h
  · rw [List.reverse_reverse] at h
    have hc : t.reverse.permutations.toFinset = t.permutations.toFinset := by
      ext s
      simp only [List.mem_toFinset, List.mem_permutations]
      exact ⟨fun h => h.trans t.reverse_perm, fun h => h.trans t.reverse_perm.symm⟩
    rw [hc] at h
    exact h
  · rw [List.pairwise_reverse, List.pairwise_iff_getElem]
    exact fun i j hi hj hij => hs i j hi hj hij

theorem card_const (n : ℕ) (x : Int) : (List.replicate n x).permutations.toFinset.card = 1 := by
  rw [Finset.card_eq_one]
  refine ⟨List.replicate n x, ?_⟩
  ext s
  simp [List.perm_replicate]

theorem card_ge_two {t : List Int} (h : t ≠ t.reverse) : 2 ≤ t.permutations.toFinset.card := by
  have hsub : ({t, t.reverse} : Finset (List Int)) ⊆ t.permutations.toFinset := by
    intro s hs
    rw [Finset.mem_insert, Finset.mem_singleton] at hs
    rw [List.mem_toFinset, List.mem_permutations]
    rcases hs with rfl | rfl
    · exact List.Perm.refl _
    · exact t.reverse_perm
  have := Finset.card_le_card hsub
  rwa [Finset.card_pair h] at this

/-- **C10.** The documentation says that each possible output has the same probability.  This is wrong for all sequences of at least two values
from at least two: the constant sequence is at most half as likely as the one that differs from it in one place. -/
theorem C10_weak_uniform_refuted (count lower upper : Int) (hl : I64 lower) (hu : I64 upper) (h2 : 2 ≤ count) (h : lower + 2 ≤ upper) :
    (2 * prob (nonDecreasing count lower upper) (List.replicate count.toNat lower)
      ≤ prob (nonDecreasing count lower upper) (List.replicate (count.toNat - 1) lower ++ [lower + 1])) ∧
    (2 * prob (nonIncreasing count lower upper) (List.replicate count.toNat lower)
      ≤ prob (nonIncreasing count lower upper) ((lower + 1) :: List.replicate (count.toNat - 1) lower)) ∧
    0 < prob (nonDecreasing count lower upper) (List.replicate count.toNat lower) ∧
    0 < prob (nonIncreasing count lower upper) (List.replicate count.toNat lower) := by
  obtain ⟨m, hm⟩ : ∃ m : ℕ, count.toNat = m + 2 := ⟨count.toNat - 2, by omega⟩
  have hN : (0 : ℚ) < ((upper - lower : Int) : ℚ) ^ count.toNat := pow_pos (by exact_mod_cast (by omega : 0 < upper - lower)) _
  have hc : ∀ y ∈ List.replicate count.toNat lower, lower ≤ y ∧ y < upper := by
    intro y hy
    rw [List.eq_of_mem_replicate hy]
    omega
  have hr : ∀ y ∈ List.replicate (count.toNat - 1) lower ++ [lower + 1], lower ≤ y ∧ y < upper := by
    intro y hy
    rw [List.mem_append, List.mem_singleton] at hy
    rcases hy with hy | rfl
    · rw [List.eq_of_mem_replicate hy]; omega
    · omega
  have hr' : ∀ y ∈ (lower + 1) :: List.replicate (count.toNat - 1) lower, lower ≤ y ∧ y < upper := by
    intro y hy
    rw [List.mem_cons] at hy
    rcases hy with rfl | hy
    · omega
    · rw [List.eq_of_mem_replicate hy]; omega
  have p1 := C10_nonDecreasing_law count lower upper hl hu (by omega) (List.replicate count.toNat lower) (by simp)
    (fun i j hi hj hij => by rw [List.getElem_replicate, List.getElem_replicate]) hc
  have p2 := C10_nonIncreasing_law count lower upper hl hu (by omega) (List.replicate count.toNat lower) (by simp)
    (fun i j hi hj hij => by rw [List.getElem_replicate, List.getElem_replicate]) hc
  have p3 := C10_nonDecreasing_law count lower upper hl hu (by omega) (List.replicate (count.toNat - 1) lower ++ [lower + 1]) (by simp; omega)
    (fun i j hi hj hij => by
      simp only [List.length_append, List.length_replicate, List.length_singleton] at hi hj
      rw [List.getElem_append_left (by simp; omega), List.getElem_replicate]
      exact (hr _ (List.getElem_mem _)).1) hr
  have p4 := C10_nonIncreasing_law count lower upper hl hu (by omega) ((lower + 1) :: List.replicate (count.toNat - 1) lower) (by simp; omega)
    (fun i j hi hj hij => by
      obtain ⟨k, rfl⟩ : ∃ k, j = k + 1 := ⟨j - 1, by omega⟩
      rw [List.getElem_cons_succ, List.getElem_replicate]
      exact (hr' _ (List.getElem_mem _)).1) hr'
  rw [card_const] at p1 p2
  have e : count.toNat - 1 = m + 1 := by omega
  have n3 : List.replicate (count.toNat - 1) lower ++ [lower + 1] ≠ (List.replicate (count.toNat - 1) lower ++ [lower + 1]).reverse := by
    rw [List.reverse_append, e, List.replicate_succ]
    simp
  have n4 : (lower + 1) :: List.replicate (count.toNat - 1) lower ≠ ((lower + 1) :: List.replicate (count.toNat - 1) lower).reverse := by
    rw [List.reverse_cons, List.reverse_replicate, e, List.replicate_succ]
    simp
  have c3 : (2 : ℚ) ≤ (List.replicate (count.toNat - 1) lower ++ [lower + 1]).permutations.toFinset.card := by exact_mod_cast card_ge_two n3
  have c4 : (2 : ℚ) ≤ ((lower + 1) :: List.replicate (count.toNat - 1) lower).permutations.toFinset.card := by exact_mod_cast card_ge_two n4
  rw [p1, p2, p3, p4]
  refine ⟨?_, ?_, ?_, ?_⟩
  · rw [← mul_div_assoc]
    exact div_le_div_of_nonneg_right (by simpa using c3) hN.le
  · rw [← mul_div_assoc]
    exact div_le_div_of_nonneg_right (by simpa using c4) hN.le
  · simpa using hN
  · simpa using hN

/-- `0 0 1` has three arrangements. -/
example : ([0, 0, 1] : List Int).permutations.toFinset.card = 3 := by
  simp [List.permutations, List.permutationsAux_cons, List.permutationsAux_nil, List.permutationsAux2]

end ICPC.Props
