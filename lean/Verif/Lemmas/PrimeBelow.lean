import Verif.Lemmas.PrimeRangeData

/-!
# Below 2^27 the tests of isPrime are exact
-/

namespace ICPC.PrimeRange
open Spec

theorem large_all (i : Nat) (h : 32 ≤ i) (h' : i < 8192) : large i = true := by
  have key : ∀ k, rng large k (2 ^ k) = true → 2 ^ k ≤ i → i < 2 ^ (k + 1) → large i = true := by
    intro k hk h1 h2
    have := rng_spec large k (2 ^ k) hk (i - 2 ^ k) (by rw [pow_succ] at h2; omega)
    rwa [show 2 ^ k + (i - 2 ^ k) = i by omega] at this
  rcases Nat.lt_or_ge i 64 with h1 | h1
  · exact key 5 large_5_32 h h1
  rcases Nat.lt_or_ge i 128 with h2 | h2
  · exact key 6 large_6_64 h1 h2
  rcases Nat.lt_or_ge i 256 with h3 | h3
  · exact key 7 large_7_128 h2 h3
  rcases Nat.lt_or_ge i 512 with h4 | h4
  · exact key 8 large_8_256 h3 h4
  rcases Nat.lt_or_ge i 1024 with h5 | h5
  · exact key 9 large_9_512 h4 h5
  rcases Nat.lt_or_ge i 2048 with h6 | h6
  · exact key 10 large_10_1024 h5 h6
  rcases Nat.lt_or_ge i 4096 with h7 | h7
  · exact key 11 large_11_2048 h6 h7
  exact key 12 large_12_4096 h7 h'

theorem small_all (i : Nat) (h : i < 32) : small i = true := by
  have := rng_spec small 5 0 small_5_0 i h
  rwa [Nat.zero_add] at this

/-- A number below 2^27 without factors up to 131 that passes four of the tests is prime. -/
theorem prime_below {n : Nat} (hn : 131 < n) (hlt : n < 134217728) (hr : ∀ k, 2 ≤ k → k ≤ 131 → ¬ k ∣ n) (h132 : 132 ^ (n - 1) % n = 1)
    (h2 : StrongProbablePrime n 2) (h325 : StrongProbablePrime n 325) (h9375 : StrongProbablePrime n 9375) : n.Prime := by
  by_contra hnp
  have hrough : ∀ r, Nat.Prime r → r ∣ n → 131 < r := by
    intro r hrp hrn
    by_contra hle
    exact hr r hrp.two_le (by omega) hrn
  have hp : (n.minFac).Prime := Nat.minFac_prime (by omega)
  have hsq := Nat.minFac_sq_le_self (by omega) hnp
  obtain ⟨m, hm⟩ := Nat.minFac_dvd n
  have hp131 := hrough _ hp (Nat.minFac_dvd n)
  generalize n.minFac = p at *
  subst hm
  have hpm : p ≤ m := by
    rw [pow_two] at hsq
    exact Nat.le_of_mul_le_mul_left hsq hp.pos
  have hp2 : p < 11586 := by
    by_contra hge
    have : 11586 ^ 2 ≤ p ^ 2 := Nat.pow_le_pow_left (by omega) 2
    omega
  have hodd : p % 2 = 1 := by
    rcases hp.eq_two_or_odd with h | h
    · omega
    · exact h
  have hno : p * m % 2 = 1 := by
    rcases Nat.mod_two_eq_zero_or_one (p * m) with h | h
    · exact absurd (Nat.dvd_of_mod_eq_zero h) (hr 2 (by omega) (by omega))
    · exact h
  have hpass := passes_of (n := p * m) (by omega) hno h132 h2 h325 h9375
  have hf : ∀ a ∈ [2, 132, 325, 9375], a ^ (p * m - 1) % (p * m) = 1 := by
    intro a ha
    simp only [List.mem_cons, List.not_mem_nil, or_false] at ha
    rcases ha with rfl | rfl | rfl | rfl
    · exact fermat_of_strong (by omega) h2
    · exact h132
    · exact fermat_of_strong (by omega) h325
    · exact fermat_of_strong (by omega) h9375
  have hrm : ∀ r, Nat.Prime r → r ∣ m → 131 < r := fun r h h' => hrough r h (h'.trans (dvd_mul_left m p))
  obtain ⟨i, hi⟩ : ∃ i, p = 2 * i + 133 := ⟨(p - 133) / 2, by omega⟩
  have hfail : passes (p * m) = false := by
    rcases Nat.lt_or_ge i 32 with h | h
    · have hs := small_all i h
      unfold small at hs
      refine primeOk_spec hp (by rw [hi]; exact hs) ?_ hpm hlt hrm hf
      exact coprime_of_rough (b := 131) (fun r hr' hrp => by rw [(Nat.prime_dvd_prime_iff_eq hr' hp).1 hrp]; exact hp131) (by decide +kernel)
    · have hs := large_all i h (by omega)
      unfold large at hs
      refine primeOk_spec hp (by rw [hi]; exact hs) ?_ hpm hlt hrm hf
      exact coprime_of_rough (b := 181) (fun r hr' hrp => by rw [(Nat.prime_dvd_prime_iff_eq hr' hp).1 hrp]; omega) (by decide +kernel)
  rw [hfail] at hpass
  cases hpass

end ICPC.PrimeRange
