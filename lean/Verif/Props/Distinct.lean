import Verif.Lemmas.Distinct

/-!
# C04: `Random::distinct`
-/

namespace ICPC.Props
open ICPC ICPC.Spec

/-- **C04.** If `0 ≤ count ≤ upper - lower`, then `Random::distinct(count, lower, upper)` returns normally,
whatever is drawn, with `count` pairwise different values of `[lower, upper)`. -/
theorem C04_distinct (count lower upper : Int) (hl : I64 lower) (hu : I64 upper) (h0 : 0 ≤ count) (hle : lower + count ≤ upper) :
    SatOk (distinct count lower upper) fun res => res.length = count.toNat ∧ AllDifferent res ∧
      ∀ y ∈ res, lower ≤ y ∧ y < upper := by
  rw [distinct_unfold h0 hl hu hle]
  refine SatOk.mono (distinctLoop_sat hl hu count.toNat 0 _ (by omega) (by omega) ?_) ?_
  · intro a b _ _ _ _ h; exact h
  · rintro res ⟨h1, h2, h3⟩
    refine ⟨h1, ?_, fun y hy => ?_⟩
    · intro i j hi hj hij h
      have := (h2.getElem_inj_iff).1 h
      omega
    · obtain ⟨k, hk1, hk2, rfl⟩ := h3 y hy
      exact ⟨hk1, by simpa [cur] using hk2⟩

/-- **C04.** Every sequence of `count` different values of `[lower, upper)` has the same probability
`1 / (N (N-1) ... (N-count+1))` with `N = upper - lower`. -/
theorem C04_distinct_uniform (count lower upper : Int) (hl : I64 lower) (hu : I64 upper) (h0 : 0 ≤ count) (hle : lower + count ≤ upper)
    (t : List Int) (hlen : t.length = count.toNat) (hnd : t.Nodup) (hr : ∀ y ∈ t, lower ≤ y ∧ y < upper) :
    prob (distinct count lower upper) t = 1 / (((upper - lower).toNat.descFactorial count.toNat : Nat) : ℚ) := by
  rw [distinct_unfold h0 hl hu hle, distinctLoop_prob hl hu count.toNat 0 _ t (by omega) (by omega) ?_ hlen hnd ?_]
  · simp
  · intro a b _ _ _ _ h; exact h
  · intro y hy
    exact ⟨y, (hr y hy).1, by have := (hr y hy).2; omega, rfl⟩

/-- **C04.** If `lower + count` is representable, the call throws for every other argument. -/
theorem C04_distinct_throws_partial (count lower upper : Int) (h64 : I64 (lower + count)) (hbad : count < 0 ∨ upper < lower + count) :
    distinct count lower upper = .done (.error .throw) := by
  unfold distinct
  by_cases h : count ≥ 0
  · rw [decide_eq_true h, judgeAssert_true, chk_ok h64, Rand.lift_ok, Rand.bind_done_ok, Rand.lift_ok, Rand.bind_done_ok,
      decide_eq_false (by omega), judgeAssert_false]; rfl
  · rw [decide_eq_false h, judgeAssert_false]; rfl

/-- If `lower + count` is not representable the check itself overflows. -/
theorem C04_overflow_refuted (count lower upper : Int) (h0 : 0 ≤ count) (h64 : ¬ I64 (lower + count)) :
    distinct count lower upper = .done (.error .ub) := by
  unfold distinct chk
  rw [decide_eq_true h0, judgeAssert_true, if_neg h64]; rfl

example : (distinct 3 10 13).run true [1, 1, 1] = some (.ok [10, 12, 11], []) := by decide +kernel

example : (distinct 5 10 15).run true [1, 2 ^ 62, 1, 1, 1] = some (.ok [10, 11, 14, 12, 13], []) := by decide +kernel

example : (distinct 4 10 14).run true [1, 1, 1, 1] = some (.ok [10, 13, 12, 11], []) := by decide +kernel

example : (distinct 4 10 13).run true [1, 1, 1] = some (.error .throw, [1, 1, 1]) := by decide +kernel

end ICPC.Props
