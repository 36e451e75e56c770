import Verif.Lemmas.Prime
import Verif.Lemmas.PrimeBelow

/-!
# Property theorem C27 (isPrime)
-/

namespace ICPC.Props
open ICPC ICPC.Spec

/-- C27, completeness half: every prime in the type's range is accepted, by either code path of the
modular multiplication. -/
theorem C27_primes_accepted (i128 : Bool) (n : Int) (h64 : I64 n) (h0 : 0 ≤ n) (hp : Nat.Prime n.toNat) :
    isPrime i128 n = true := isPrime_of_prime i128 n h64 h0 hp

/-- C27: the exact set of accepted numbers on the whole 64-bit range: the primes up to 131, and the
`n > 131` without a divisor in `2..131` that pass the Fermat test to base 132 and the strong
probable-prime test to each of the seven bases (a base divisible by `n` counts as passed). -/
theorem C27_accepted_set_partial (i128 : Bool) (n : Int) (h64 : I64 n) :
    isPrime i128 n = true ↔
      (0 ≤ n ∧ n ≤ 131 ∧ Nat.Prime n.toNat) ∨
      (131 < n ∧ (∀ k : Nat, 2 ≤ k → k ≤ 131 → ¬ k ∣ n.toNat) ∧ 132 ^ (n.toNat - 1) % n.toNat = 1 ∧
        ∀ a ∈ [2, 325, 9375, 28178, 450775, 9780504, 1795265022], n.toNat ∣ a ∨ StrongProbablePrime n.toNat a) := by
  by_cases h : n ≤ 131
  · rw [isPrime_small i128 n h]
    constructor
    · rintro ⟨h1, h2⟩; exact Or.inl ⟨h1, h, h2⟩
    · rintro (⟨h1, _, h2⟩ | ⟨h1, _⟩)
      · exact ⟨h1, h2⟩
      · omega
  · have hdiv : trialLoop n TRIAL_PRIMES = none ↔ ∀ k : Nat, 2 ≤ k → k ≤ 131 → ¬ k ∣ n.toNat := by
      rw [trialLoop_none]
      constructor
      · intro hall k hk1 hk2 hkd
        have hm := Nat.minFac_prime (n := k) (by omega)
        have hle := Nat.minFac_le (n := k) (by omega)
        have hmem := trial_complete ⟨k.minFac, by omega⟩ hm
        apply (hall _ hmem).2
        rw [Int.tmod_eq_emod_of_nonneg (by omega)]
        apply Int.emod_eq_zero_of_dvd
        have hd := (Nat.minFac_dvd k).trans hkd
        rw [← Int.natCast_dvd_natCast, Int.toNat_of_nonneg (by omega)] at hd
        exact hd
      · intro hall p hp
        obtain ⟨h1, h2⟩ := trial_max p hp
        refine ⟨by omega, fun h0 => ?_⟩
        rw [Int.tmod_eq_emod_of_nonneg (by omega)] at h0
        apply hall p.toNat (by omega) (by omega)
        rw [← Int.natCast_dvd_natCast, Int.toNat_of_nonneg (by omega), Int.toNat_of_nonneg (by omega)]
        exact Int.dvd_of_emod_eq_zero h0
    have hmod : ∀ a : Nat, a % n.toNat = 0 ↔ n.toNat ∣ a := fun a => (Nat.dvd_iff_mod_eq_zero).symm
    cases ht : trialLoop n TRIAL_PRIMES with
    | none =>
      rw [isPrime_big i128 n h64 (by omega) ht]
      simp only [hmod]
      constructor
      · rintro ⟨h1, h2⟩
        exact Or.inr ⟨by omega, hdiv.1 ht, h1, h2⟩
      · rintro (⟨_, h1, _⟩ | ⟨_, _, h1, h2⟩)
        · omega
        · exact ⟨h1, h2⟩
    | some b =>
      have hb := (trialLoop_some_false ht (fun p hp => by have := trial_max p hp; omega)).1
      have hf : isPrime i128 n = false := by simp [isPrime, ht, hb]
      rw [hf]
      constructor
      · intro hh; exact absurd hh (by simp)
      · rintro (⟨_, h1, _⟩ | ⟨_, h1, _⟩)
        · omega
        · rw [hdiv.2 h1] at ht; exact absurd ht (by simp)

/-- C27: below 2^27 the answer is exactly primality (for every integer, negative ones included).
The full claim is `isPrime n = true ↔ 0 ≤ n ∧ n prime` on the whole 64-bit range. Missing: that no
composite in `[2^27, 2^63)` passes the tests, a fact established only by exhaustive computer search. -/
theorem C27_exact_below_partial (i128 : Bool) (n : Int) (h64 : I64 n) (hlt : n < 134217728) :
    isPrime i128 n = true ↔ 0 ≤ n ∧ Nat.Prime n.toNat := by
  constructor
  · intro h
    rcases (C27_accepted_set_partial i128 n h64).1 h with ⟨h1, _, h2⟩ | ⟨h1, h2, h3, h4⟩
    · exact ⟨h1, h2⟩
    · refine ⟨by omega, ?_⟩
      by_cases hs : n < 18769
      · exact ((isPrime_small_exact i128 n h64 hs).1 h).2
      · have key : ∀ a ∈ [2, 325, 9375, 28178, 450775, 9780504, 1795265022], a < 18769 → 0 < a → StrongProbablePrime n.toNat a := by
          intro a ha hlt h0
          rcases h4 a ha with h5 | h5
          · have := Nat.le_of_dvd h0 h5
            omega
          · exact h5
        exact PrimeRange.prime_below (by omega) (by omega) h2 h3 (key 2 (by simp) (by omega) (by omega))
          (key 325 (by simp) (by omega) (by omega)) (key 9375 (by simp) (by omega) (by omega))
  · rintro ⟨h1, h2⟩
    exact isPrime_of_prime i128 n h64 h1 h2

/-- C27 on the whole range, relative to the published result that the seven bases are a deterministic
test below 2^64. The hypothesis `hbases` is that result; it is not proved here. -/
theorem C27_exact_given_bases_partial (i128 : Bool) (n : Int) (h64 : I64 n)
    (hbases : ∀ m : Nat, 131 < m → m < 2 ^ 63 → (∀ k : Nat, 2 ≤ k → k ≤ 131 → ¬ k ∣ m) →
      (∀ a ∈ [2, 325, 9375, 28178, 450775, 9780504, 1795265022], m ∣ a ∨ StrongProbablePrime m a) → Nat.Prime m) :
    isPrime i128 n = true ↔ 0 ≤ n ∧ Nat.Prime n.toNat := by
  constructor
  · intro h
    rcases (C27_accepted_set_partial i128 n h64).1 h with ⟨h1, _, h2⟩ | ⟨h1, h2, _, h3⟩
    · exact ⟨h1, h2⟩
    · have := h64.2
      exact ⟨by omega, hbases _ (by omega) (by omega) h2 h3⟩
  · rintro ⟨h1, h2⟩
    exact isPrime_of_prime i128 n h64 h1 h2

example : isPrime true 18757 = true := by decide +kernel

example : isPrime false 18757 = true := by decide +kernel

example : isPrime false (137 * 137) = false := by decide +kernel

/-- a product of two primes that is a strong pseudoprime to the bases 2, 325 and 9375 -/
example : isPrime true (8431 * 33721) = false := by decide +kernel

/-- a Carmichael number with three factors above 131 -/
example : isPrime true (211 * 421 * 631) = false := by decide +kernel

/-- a Carmichael number without factor below 131: 3215031751 (a strong pseudoprime to 2, 3, 5, 7) -/
example : isPrime true 3215031751 = false := by decide +kernel

example : isPrime true 9223372036854775783 = true := by decide +kernel

/-- primes which divide a witness, and squares of the last primes used for trial division -/
example : isPrime true 193 = true ∧ isPrime true 407521 = true ∧ isPrime false 299210837 = true := by decide +kernel

example : [101 * 101, 103 * 103, 107 * 107, 109 * 109, 113 * 113, 127 * 127, 131 * 131].map (isPrime true) = List.replicate 7 false := by
  decide +kernel

example : isPrime true (-7) = false := by decide +kernel

end ICPC.Props
