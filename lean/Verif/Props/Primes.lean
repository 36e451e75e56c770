import Verif.Lemmas.Primes
import Verif.Props.Prime

/-! # C28: `primes` -/

namespace ICPC.Props
open ICPC ICPC.Spec

/-- C28 in the windows where the sieve alone decides, or where `isPrime` is known to be exact:
`primes(lower, upper)` is the strictly increasing list of exactly the primes in `[lower, upper)`.
The full claim is this equivalence for all bounds in the 64-bit range.  Missing: narrow windows at large
numbers from 2^27 on (there the code relies on `isPrime`, see C27), and windows wider than 0x3FFFFFFF or ending near
2^63, where the code is undefined (`C28_wide_window_refuted`). -/
theorem C28_primes_window_partial (i128 : Bool) (lower upper : Int) (hlt : lower < upper)
    (hwin : upper - max 2 lower ≤ 0x3FFFFFFF) (hup : upper + 2 * 0x3FFFFFFF < 2 ^ 63)
    (hdec : upper ≤ (upper - max 2 lower) ^ 2 ∨ upper ≤ 134217728) :
    ∃ l, primes i128 lower upper = .ok l ∧ l.Pairwise (· < ·) ∧
      ∀ x : Int, x ∈ l ↔ lower ≤ x ∧ x < upper ∧ 0 ≤ x ∧ Nat.Prime x.toNat := by
  obtain ⟨l, h1, h2, h3⟩ := primes_spec i128 lower upper hlt hwin hup
  refine ⟨l, h1, h2, fun x => ?_⟩
  rw [h3]
  constructor
  · rintro ⟨h4, h5, rfl | ⟨h6, h7, h8, h9⟩⟩
    · exact ⟨h4, h5, by omega, Nat.prime_two⟩
    · refine ⟨h4, h5, by omega, ?_⟩
      have hx64 : I64 x := ⟨by omega, by omega⟩
      by_cases hsm : upper ≤ 134217728
      · rcases h9 with h9 | h9
        · refine prime_of_not_sieved (by omega) (by omega) ?_ h8
          have : ((upper - max 2 lower).toNat : Int) = upper - max 2 lower := by omega
          zify; rw [this, ← sq]; omega
        · exact ((C27_exact_below_partial i128 x hx64 (by omega)).1 h9).2
      · have hlt : x < (upper - max 2 lower) ^ 2 := by
          rcases hdec with h | h <;> omega
        refine prime_of_not_sieved (by omega) (by omega) ?_ h8
        have : ((upper - max 2 lower).toNat : Int) = upper - max 2 lower := by omega
        zify; rw [this, ← sq]; omega
  · rintro ⟨h4, h5, h6, h7⟩
    refine ⟨h4, h5, ?_⟩
    by_cases h : x = 2
    · exact Or.inl h
    · have := h7.two_le
      have hodd := h7.eq_two_or_odd
      exact Or.inr ⟨by omega, by omega, not_sieved_of_prime h7, Or.inr (isPrime_of_prime i128 x ⟨by omega, by omega⟩ h6 h7)⟩

/-- C28, one direction in every window where the code is defined: the list is strictly increasing, lies
in `[lower, upper)` and misses no prime; every listed number passed `isPrime` or is a prime. -/
theorem C28_no_prime_missing_partial (i128 : Bool) (lower upper : Int) (hlt : lower < upper)
    (hwin : upper - max 2 lower ≤ 0x3FFFFFFF) (hup : upper + 2 * 0x3FFFFFFF < 2 ^ 63) :
    ∃ l, primes i128 lower upper = .ok l ∧ l.Pairwise (· < ·) ∧ (∀ x ∈ l, lower ≤ x ∧ x < upper) ∧
      (∀ x : Int, lower ≤ x → x < upper → 0 ≤ x → Nat.Prime x.toNat → x ∈ l) ∧
      (∀ x ∈ l, 2 ≤ x ∧ (Nat.Prime x.toNat ∨ isPrime i128 x = true)) := by
  obtain ⟨l, h1, h2, h3⟩ := primes_spec i128 lower upper hlt hwin hup
  refine ⟨l, h1, h2, fun x hx => ⟨((h3 x).1 hx).1, ((h3 x).1 hx).2.1⟩, ?_, ?_⟩
  · intro x h4 h5 h6 h7
    rw [h3]
    refine ⟨h4, h5, ?_⟩
    by_cases h : x = 2
    · exact Or.inl h
    · have := h7.two_le
      have hodd := h7.eq_two_or_odd
      exact Or.inr ⟨by omega, by omega, not_sieved_of_prime h7, Or.inr (isPrime_of_prime i128 x ⟨by omega, by omega⟩ h6 h7)⟩
  · intro x hx
    rcases ((h3 x).1 hx).2.2 with rfl | ⟨h6, h7, h8, h9⟩
    · exact ⟨by omega, Or.inl Nat.prime_two⟩
    · refine ⟨by omega, ?_⟩
      rcases h9 with h9 | h9
      · left
        refine prime_of_not_sieved (by omega) (by omega) ?_ h8
        have hx := ((h3 x).1 hx).2.1
        have : ((upper - max 2 lower).toNat : Int) = max 0 (upper - max 2 lower) := by omega
        zify; rw [this]
        have h0 : 0 ≤ upper - max 2 lower := by
          have := ((h3 x).1 ‹x ∈ l›).1
          omega
        rw [max_eq_right h0, ← sq]; omega
      · exact Or.inr h9

/-- C28 for `primes(upper)`: exactly the primes below `upper`, for every positive bound up to 2^30. -/
theorem C28_primes_below_partial (i128 : Bool) (upper : Int) (h0 : 0 < upper) (h30 : upper ≤ 2 ^ 30) :
    ∃ l, primesUpper i128 upper = .ok l ∧ l.Pairwise (· < ·) ∧
      ∀ x : Int, x ∈ l ↔ 0 ≤ x ∧ x < upper ∧ Nat.Prime x.toNat := by
  obtain ⟨l, h1, h2, h3⟩ := C28_primes_window_partial i128 0 upper h0 (by omega) (by omega) (by
    by_cases h : upper ≤ 134217728
    · exact Or.inr h
    · left; rw [max_eq_left (by norm_num)]; nlinarith)
  refine ⟨l, h1, h2, fun x => ?_⟩
  rw [h3]; tauto

theorem C28_empty_throws (i128 : Bool) (lower upper : Int) (h : upper ≤ lower) :
    primes i128 lower upper = .error .throw := by
  unfold primes
  rw [decide_eq_false (by omega), judgeAssert_false]; rfl

/-- C28 fails for every window wider than 2^30 + 7: the segment array is too short and the marking loop of
the factor 3 writes out of bounds (the segment size is capped at 0x3FFFFFFF, src/validate.h 1120). -/
theorem C28_wide_window_refuted (i128 : Bool) (lower upper : Int) (hw : upper - max 2 lower ≥ 2 ^ 30 + 8)
    (hup : upper < 2 ^ 63) : primes i128 lower upper = .error .ub := by
  unfold primes
  rw [decide_eq_true (by omega), judgeAssert_true, ok_bind]
  obtain ⟨lo, hlo⟩ : ∃ lo : Nat, max 2 lower = lo := ⟨(max 2 lower).toNat, by omega⟩
  obtain ⟨up, hupe⟩ : ∃ up : Nat, max 2 upper = up := ⟨(max 2 upper).toNat, by omega⟩
  rw [hlo, hupe, Int.toNat_natCast, Int.toNat_natCast]
  have hw' : lo + 2 ^ 30 + 8 ≤ up := by omega
  have hup' : up < 2 ^ 63 := by omega
  unfold primesClamped
  obtain ⟨C, hC⟩ : ∃ C : Nat, C = 0x3FFFFFFF := ⟨_, rfl⟩
  have hmin : min 0x3FFFFFFF (up - lo) = C := by omega
  rw [hmin]
  dsimp only
  obtain ⟨L, hL⟩ : ∃ L : Nat, (C + 1) / 2 = L := ⟨_, rfl⟩
  rw [hL]
  have hL2 : 2 * L = C + 1 := by omega
  have : sieveLoop lo up C 3 (List.replicate L false) (List.replicate L false) = .error .ub := by
    unfold sieveLoop
    rw [if_pos (by omega)]
    have hget : getBit (List.replicate L false) (3 / 2) = .ok false := by
      unfold getBit
      rw [List.getElem?_replicate, if_pos (by omega)]
    rw [hget, ok_bind, if_neg (by simp)]
    obtain ⟨np', e1, _⟩ := markLoop_spec (2 * 3) C 0 (by omega) (by omega) _ (3 * 3) (List.replicate L false) rfl (by omega)
          (by intro k hk; rw [List.length_replicate]; omega)
    obtain ⟨l, f1, f2, f3, q, f4⟩ := lowest_spec (lower := lo) (i := 3) (by omega) (by omega) (by omega)
    rw [e1, ok_bind, f1, ok_bind]
    rw [markLoop_ub (2 * 3) up lo (by omega) _ _ _ rfl ?_, error_bind]
    rw [List.length_replicate]
    refine ⟨(up - 1 - max (3 * 3) l) / 6, ?_, ?_⟩ <;> omega
  rw [this, error_bind]

example : primes true 90 120 = .ok [97, 101, 103, 107, 109, 113] := by decide +kernel

example : primes true 121 128 = .ok [127] := by decide +kernel

example : primes true 1000003 1000034 = .ok [1000003, 1000033] := by decide +kernel

example : primesUpper true 12 = .ok [2, 3, 5, 7, 11] := by decide +kernel

end ICPC.Props
