import Verif.Lemmas.Num
import Verif.Spec.Prime
import Mathlib.FieldTheory.Finite.Basic
import Mathlib.Data.ZMod.Basic
import Mathlib.Tactic.IntervalCases

namespace ICPC
open ICPC.Spec

theorem splitTwos_spec (k : Nat) : ∀ d j, d = k → 0 < d →
    ∃ s e, splitTwos d j = (e, j + s) ∧ d = 2 ^ s * e ∧ e % 2 = 1 := by
  induction k using Nat.strong_induction_on with
  | _ k ih =>
    intro d j hk hd
    rw [splitTwos]
    by_cases h : d % 2 = 0
    · rw [if_pos ⟨hd, h⟩]
      obtain ⟨s, e, h1, h2, h3⟩ := ih (d / 2) (by omega) (d / 2) (j + 1) rfl (by omega)
      refine ⟨s + 1, e, by rw [h1]; congr 1; omega, ?_, h3⟩
      rw [pow_succ, mul_assoc, mul_comm 2 e, ← mul_assoc, ← h2]; omega
    · rw [if_neg (by tauto)]
      exact ⟨0, d, by simp, by simp, by omega⟩

theorem mrSquare_spec (i128 : Bool) (un : Nat) (h2 : 2 < un) (h63 : un ≤ 2 ^ 63) : ∀ (k v : Nat), v < un →
    v ≠ un - 1 →
    (mrSquare i128 un k v = un - 1 ↔ ∃ r, 1 ≤ r ∧ r ≤ k ∧ v ^ (2 ^ r) % un = un - 1) := by
  intro k
  induction k with
  | zero =>
    intro v _ hne
    simp only [mrSquare]
    constructor
    · intro h; exact absurd h hne
    · rintro ⟨r, h1, h2, _⟩; omega
  | succ k ih =>
    intro v hv hne
    simp only [mrSquare]
    rw [detailsMulMod_eq i128 v v un h63 hv hv]
    have hpow : ∀ r, v ^ (2 ^ (r + 1)) % un = (v * v % un) ^ (2 ^ r) % un := by
      intro r
      rw [← Nat.pow_mod, ← pow_two, ← pow_mul]
      congr 2; rw [pow_succ]; ring
    by_cases hc : v * v % un = un - 1 ∨ v * v % un ≤ 1
    · rw [if_pos hc]
      constructor
      · intro h
        exact ⟨1, by omega, by omega, by rw [show 2 ^ 1 = 2 by rfl, pow_two]; exact h⟩
      · rintro ⟨r, h1, _, hr⟩
        rcases hc with hc | hc
        · exact hc
        · exfalso
          obtain ⟨r, rfl⟩ : ∃ t, r = t + 1 := ⟨r - 1, by omega⟩
          rw [hpow] at hr
          have : (v * v % un) ^ (2 ^ r) ≤ 1 := by
            rcases Nat.le_one_iff_eq_zero_or_eq_one.1 hc with h | h <;> rw [h]
            · rw [Nat.zero_pow (by positivity)]; omega
            · simp
          have := Nat.mod_le ((v * v % un) ^ (2 ^ r)) un
          omega
    · rw [if_neg hc, ih (v * v % un) (Nat.mod_lt _ (by omega)) (by tauto)]
      constructor
      · rintro ⟨r, h1, h2, h3⟩
        exact ⟨r + 1, by omega, by omega, by rw [hpow]; exact h3⟩
      · rintro ⟨r, h1, h2, h3⟩
        by_cases h : r = 1
        · subst h
          rw [show 2 ^ 1 = 2 by rfl, pow_two] at h3
          exact absurd (Or.inl h3) hc
        · obtain ⟨r, rfl⟩ : ∃ t, r = t + 1 := ⟨r - 1, by omega⟩
          rw [hpow] at h3
          exact ⟨r, by omega, by omega, h3⟩

theorem strong_unique {s s' d d' : Nat} (h : 2 ^ s * d = 2 ^ s' * d') (hd : d % 2 = 1) (hd' : d' % 2 = 1) :
    s = s' ∧ d = d' := by
  induction s generalizing s' with
  | zero =>
    cases s' with
    | zero => simpa using h
    | succ s' => rw [pow_succ, mul_comm _ 2, mul_assoc] at h; omega
  | succ s ih =>
    cases s' with
    | zero => rw [pow_succ, mul_comm _ 2, mul_assoc] at h; omega
    | succ s' =>
      rw [pow_succ, pow_succ] at h
      have := @ih s' (by
        have : 2 * (2 ^ s * d) = 2 * (2 ^ s' * d') := by linarith
        omega)
      omega

theorem mrLoop_spec (i128 : Bool) (un d j : Nat) (h2 : 2 < un) (h63 : un ≤ 2 ^ 63)
    (hj : 0 < j) (hsplit : un - 1 = 2 ^ j * d) (hodd : d % 2 = 1) (as : List Nat)
    (hbase : ∀ a ∈ as, a < 2 ^ 32) :
    mrLoop i128 un d j as = true ↔ ∀ a ∈ as, a % un = 0 ∨ StrongProbablePrime un a := by
  induction as with
  | nil => simp [mrLoop]
  | cons a as ih =>
    have ih := ih (fun b hb => hbase b (by simp [hb]))
    have hd0 : d ≠ 0 := by omega
    have ha32 : a < 2 ^ 32 := hbase a (by simp)
    have hpm : detailsPowMod i128 a d un = a ^ d % un := by
      rw [detailsPowMod_eq i128 a d un (by omega) h63 (fun _ => ha32) (fun h => by omega), if_neg hd0]
    have hlt : a ^ d % un < un := Nat.mod_lt _ (by omega)
    have hcase : ∀ r, (a ^ d % un) ^ (2 ^ r) % un = a ^ (2 ^ r * d) % un := by
      intro r; rw [← Nat.pow_mod, ← pow_mul, Nat.mul_comm]
    simp only [List.mem_cons, forall_eq_or_imp]
    unfold mrLoop
    by_cases h0 : a % un = 0
    · rw [if_pos h0, ih]; simp [h0]
    · rw [if_neg h0]
      simp only [hpm]
      by_cases h1 : a ^ d % un = 1 ∨ a ^ d % un = un - 1
      · rw [if_pos h1, ih]
        have hs : StrongProbablePrime un a := by
          refine ⟨j, d, hsplit, hodd, ?_⟩
          rcases h1 with h1 | h1
          · exact Or.inl h1
          · exact Or.inr ⟨0, by omega, by simpa using h1⟩
        simp [hs]
      · rw [if_neg h1]
        have hsq := mrSquare_spec i128 un h2 h63 (j - 1) (a ^ d % un) hlt (by tauto)
        by_cases h3 : mrSquare i128 un (j - 1) (a ^ d % un) = un - 1
        · have hs : StrongProbablePrime un a := by
            obtain ⟨r, hr1, hr2, hr3⟩ := hsq.1 h3
            exact ⟨j, d, hsplit, hodd, Or.inr ⟨r, by omega, by rw [← hcase]; exact hr3⟩⟩
          rw [if_neg (by simpa using h3), ih]; simp [hs]
        · rw [if_pos h3]
          simp only [Bool.false_eq_true, false_iff, not_and]
          intro hor
          exfalso
          rcases hor with hor | ⟨s', d', hs1, hs2, hs3⟩
          · exact h0 hor
          · obtain ⟨rfl, rfl⟩ := strong_unique (hsplit.symm.trans hs1) hodd hs2
            rcases hs3 with hs3 | ⟨r, hr, hr3⟩
            · exact h1 (Or.inl hs3)
            · by_cases hr0 : r = 0
              · subst hr0
                exact h1 (Or.inr (by simpa using hr3))
              · exact h3 (hsq.2 ⟨r, by omega, by omega, by rw [hcase]; exact hr3⟩)

theorem trialLoop_none {n : Int} {ps : List Int} :
    trialLoop n ps = none ↔ ∀ p ∈ ps, p < n ∧ n.tmod p ≠ 0 := by
  induction ps with
  | nil => simp [trialLoop]
  | cons p ps ih =>
    unfold trialLoop
    by_cases h : n ≤ p ∨ n.tmod p = 0
    · rw [if_pos h]
      simp only [reduceCtorEq, List.mem_cons, forall_eq_or_imp, false_iff]
      rintro ⟨⟨h1, h2⟩, _⟩
      rcases h with h | h
      · omega
      · exact h2 h
    · rw [if_neg h, ih]
      simp only [List.mem_cons, forall_eq_or_imp]
      constructor
      · intro hh; exact ⟨⟨by omega, by tauto⟩, hh⟩
      · intro hh; exact hh.2

theorem trialLoop_some_false {n : Int} {ps : List Int} {b : Bool} (h : trialLoop n ps = some b)
    (hgt : ∀ p ∈ ps, p < n) : b = false ∧ ∃ p ∈ ps, n.tmod p = 0 := by
  induction ps with
  | nil => simp [trialLoop] at h
  | cons p ps ih =>
    unfold trialLoop at h
    have hp := hgt p (by simp)
    by_cases hc : n ≤ p ∨ n.tmod p = 0
    · rw [if_pos hc] at h
      have hne : n ≠ p := by omega
      simp [hne] at h
      exact ⟨h, p, by simp, by omega⟩
    · rw [if_neg hc] at h
      obtain ⟨h1, q, hq, h2⟩ := ih h (fun q hq => hgt q (by simp [hq]))
      exact ⟨h1, q, by simp [hq], h2⟩

theorem trial_small : ∀ n : Fin 132, trialLoop (n.val : Int) TRIAL_PRIMES = some (decide (Nat.Prime n.val)) := by
  decide +kernel

theorem trial_max : ∀ p ∈ TRIAL_PRIMES, 1 < p ∧ p ≤ 131 := by decide

theorem trial_complete : ∀ p : Fin 137, Nat.Prime p.val → (p.val : Int) ∈ TRIAL_PRIMES := by decide +kernel

theorem trial_prime : ∀ p ∈ TRIAL_PRIMES, Nat.Prime p.toNat := by decide +kernel

theorem isPrime_small (i128 : Bool) (n : Int) (h : n ≤ 131) : isPrime i128 n = true ↔ 0 ≤ n ∧ Nat.Prime n.toNat := by
  by_cases h0 : 0 ≤ n
  · have := trial_small ⟨n.toNat, by omega⟩
    simp only [Int.toNat_of_nonneg h0] at this
    simp only [isPrime, this]
    simp [h0]
  · have : trialLoop n TRIAL_PRIMES = some false := by
      simp only [TRIAL_PRIMES, trialLoop]
      rw [if_pos (Or.inl (by omega))]
      simp; omega
    simp only [isPrime, this]
    simp; omega

/-- the part after trial division, for `n > 131` without small factor -/
theorem isPrime_big (i128 : Bool) (n : Int) (h64 : I64 n) (h : 131 < n) (hnone : trialLoop n TRIAL_PRIMES = none) :
    isPrime i128 n = true ↔
      132 ^ (n.toNat - 1) % n.toNat = 1 ∧ ∀ a ∈ MILLER_RABIN_WITNESS, a % n.toNat = 0 ∨ StrongProbablePrime n.toNat a := by
  have hu : toU64 n = n.toNat := toU64_nonneg (by omega) (by have := h64.2; omega)
  have h63 : n.toNat ≤ 2 ^ 63 := by have := h64.2; omega
  have hodd : n.toNat % 2 = 1 := by
    have := (trialLoop_none.1 hnone 2 (by decide)).2
    rw [Int.tmod_eq_emod_of_nonneg (by omega)] at this
    omega
  have hne : n.toNat - 1 ≠ 0 := by omega
  simp only [isPrime, hnone, hu]
  rw [detailsPowMod_eq i128 132 (n.toNat - 1) n.toNat (by omega) h63 (fun _ => by omega) (fun _ => by omega), if_neg hne]
  by_cases hf : 132 ^ (n.toNat - 1) % n.toNat = 1
  · rw [if_neg (by simpa using hf)]
    obtain ⟨s, e, h1, h2, h3⟩ := splitTwos_spec _ (n.toNat - 1) 0 rfl (by omega)
    rw [h1]
    simp only [Nat.zero_add]
    have hs : 0 < s := by
      rcases Nat.eq_zero_or_pos s with h | h
      · subst h; simp at h2; omega
      · exact h
    rw [mrLoop_spec i128 n.toNat e s (by omega) h63 hs h2 h3 _ (by decide)]
    simp [hf]
  · rw [if_pos hf]; simp [hf]

/-- Fermat/Euler: a prime is a strong probable prime to every base it does not divide. -/
theorem prime_strong {p a : Nat} (hp : p.Prime) (hodd : p % 2 = 1) (ha : ¬ p ∣ a) : StrongProbablePrime p a := by
  have : Fact p.Prime := ⟨hp⟩
  have h3 : 3 ≤ p := by have := hp.two_le; omega
  obtain ⟨s, d, _, h2, hd⟩ := splitTwos_spec _ (p - 1) 0 rfl (by omega)
  refine ⟨s, d, h2, hd, ?_⟩
  have ha' : (a : ZMod p) ≠ 0 := by
    rw [Ne, ZMod.natCast_eq_zero_iff]; exact ha
  have hfermat : (a : ZMod p) ^ (2 ^ s * d) = 1 := by rw [← h2]; exact ZMod.pow_card_sub_one_eq_one ha'
  have key : ∀ t, (a : ZMod p) ^ (2 ^ t * d) = 1 → (a : ZMod p) ^ d = 1 ∨ ∃ r, r < t ∧ (a : ZMod p) ^ (2 ^ r * d) = -1 := by
    intro t
    induction t with
    | zero => intro h; left; simpa using h
    | succ t ih =>
      intro h
      have : ((a : ZMod p) ^ (2 ^ t * d)) ^ 2 = 1 := by rw [← pow_mul, ← h]; congr 1; ring
      rw [sq] at this
      rcases mul_self_eq_one_iff.1 this with h1 | h1
      · rcases ih h1 with h2 | ⟨r, hr, h2⟩
        · exact Or.inl h2
        · exact Or.inr ⟨r, by omega, h2⟩
      · exact Or.inr ⟨t, by omega, h1⟩
  have back1 : ∀ k : Nat, (k : ZMod p) = 1 → k % p = 1 := by
    intro k hk
    have : (k : ZMod p) = ((1 : Nat) : ZMod p) := by simpa using hk
    rw [ZMod.natCast_eq_natCast_iff'] at this
    rw [this, Nat.mod_eq_of_lt (by omega)]
  have back2 : ∀ k : Nat, (k : ZMod p) = -1 → k % p = p - 1 := by
    intro k hk
    have : (k : ZMod p) = ((p - 1 : Nat) : ZMod p) := by
      rw [hk, Nat.cast_sub (by omega)]; simp
    rw [ZMod.natCast_eq_natCast_iff'] at this
    rw [this, Nat.mod_eq_of_lt (by omega)]
  rcases key s hfermat with h | ⟨r, hr, h⟩
  · exact Or.inl (back1 _ (by push_cast; exact h))
  · exact Or.inr ⟨r, hr, back2 _ (by push_cast; exact h)⟩

theorem trial_none_of_prime {n : Int} (h : 131 < n) (hp : Nat.Prime n.toNat) : trialLoop n TRIAL_PRIMES = none := by
  rw [trialLoop_none]
  intro p hpm
  obtain ⟨h1, h2⟩ := trial_max p hpm
  refine ⟨by omega, fun h0 => ?_⟩
  rw [Int.tmod_eq_emod_of_nonneg (by omega)] at h0
  have hd : p.toNat ∣ n.toNat := by
    rw [← Int.natCast_dvd_natCast, Int.toNat_of_nonneg (by omega), Int.toNat_of_nonneg (by omega)]
    exact Int.dvd_of_emod_eq_zero h0
  rcases (Nat.dvd_prime hp).1 hd with h3 | h3 <;> omega

theorem prime_of_trial_none {n : Int} (h : 131 < n) (hlt : n < 18769) (hnone : trialLoop n TRIAL_PRIMES = none) :
    Nat.Prime n.toNat := by
  by_contra hnp
  have hm := Nat.minFac_prime (n := n.toNat) (by omega)
  have hsq := Nat.minFac_sq_le_self (n := n.toNat) (by omega) hnp
  have hlt' : n.toNat.minFac < 137 := by nlinarith [Int.toNat_of_nonneg (show 0 ≤ n by omega)]
  have hmem := trial_complete ⟨_, hlt'⟩ hm
  have := (trialLoop_none.1 hnone _ hmem).2
  apply this
  rw [Int.tmod_eq_emod_of_nonneg (by omega)]
  apply Int.emod_eq_zero_of_dvd
  have hd := Nat.minFac_dvd n.toNat
  rw [← Int.natCast_dvd_natCast, Int.toNat_of_nonneg (by omega)] at hd
  exact hd

theorem isPrime_of_prime (i128 : Bool) (n : Int) (h64 : I64 n) (h0 : 0 ≤ n) (hp : Nat.Prime n.toNat) :
    isPrime i128 n = true := by
  by_cases h : n ≤ 131
  · exact (isPrime_small i128 n h).2 ⟨h0, hp⟩
  · have hn := trial_none_of_prime (by omega) hp
    rw [isPrime_big i128 n h64 (by omega) hn]
    have : Fact (n.toNat).Prime := ⟨hp⟩
    have hodd : n.toNat % 2 = 1 := by
      rcases hp.eq_two_or_odd with h | h <;> omega
    refine ⟨?_, fun a _ => ?_⟩
    · have hnd : ¬ n.toNat ∣ 132 := by
        intro hd
        have h132 : 132 = 2 * 2 * 3 * 11 := by norm_num
        rw [h132] at hd
        rcases (Nat.Prime.dvd_mul hp).1 hd with hd | hd
        · have := Nat.le_of_dvd (by norm_num) hd; omega
        · have := Nat.le_of_dvd (by norm_num) hd; omega
      have hne : ((132 : Nat) : ZMod n.toNat) ≠ 0 := by
        rw [Ne, ZMod.natCast_eq_zero_iff]; exact hnd
      have hf := ZMod.pow_card_sub_one_eq_one hne
      have : ((132 ^ (n.toNat - 1) : Nat) : ZMod n.toNat) = ((1 : Nat) : ZMod n.toNat) := by
        rw [Nat.cast_pow, hf, Nat.cast_one]
      rw [ZMod.natCast_eq_natCast_iff'] at this
      rw [this, Nat.mod_eq_of_lt (by omega)]
    · by_cases hd : n.toNat ∣ a
      · exact Or.inl (Nat.mod_eq_zero_of_dvd hd)
      · exact Or.inr (prime_strong hp hodd hd)

theorem isPrime_small_exact (i128 : Bool) (n : Int) (h64 : I64 n) (hlt : n < 18769) :
    isPrime i128 n = true ↔ 0 ≤ n ∧ Nat.Prime n.toNat := by
  by_cases h : n ≤ 131
  · exact isPrime_small i128 n h
  · constructor
    · intro hp
      refine ⟨by omega, ?_⟩
      cases ht : trialLoop n TRIAL_PRIMES with
      | none => exact prime_of_trial_none (by omega) hlt ht
      | some b =>
        have := (trialLoop_some_false ht (fun p hp => by have := trial_max p hp; omega)).1
        simp [isPrime, ht, this] at hp
    · rintro ⟨h1, h2⟩
      exact isPrime_of_prime i128 n h64 h1 h2

end ICPC
