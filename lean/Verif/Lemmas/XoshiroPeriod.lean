import Verif.Lemmas.Pratt
import Verif.Lemmas.XoshiroChar
import Mathlib.Dynamics.PeriodicPts.Defs

/-!
# The period of xoshiro256**
-/

namespace ICPC.Xo

open Xoshiro

/-! ## The state update is a bijection -/

/-- The polynomial `(charPoly + 1) / x`. -/
def invPoly : Nat := charPoly >>> 1

theorem charPoly_eq : (invPoly <<< 1) ^^^ 1 = charPoly := by decide +kernel

theorem inv_T (s : Xoshiro) : poly invPoly (T s) = s := by
  have h := charPoly_zero s
  rw [← charPoly_eq, poly_xor, poly_double, poly_one] at h
  rw [poly_T]
  exact eq_of_xor_zero h

theorem T_inv (s : Xoshiro) : T (poly invPoly s) = s := by rw [← poly_T, inv_T]

theorem steps_injective (n : Nat) (s t : Xoshiro) (h : Xoshiro.steps n s = Xoshiro.steps n t) : s = t := by
  induction n generalizing s t with
  | zero => exact h
  | succ n ih =>
    rw [steps_succ, steps_succ] at h
    have h2 := congrArg (poly invPoly) (ih _ _ h)
    rwa [inv_T, inv_T] at h2

/-! ## The period divides `2^256 - 1` -/

theorem xPow_frobenius : xPow 0 256 2 = 2 := by decide +kernel

theorem steps_frobenius (s : Xoshiro) : Xoshiro.steps (2 ^ 256) s = Xoshiro.steps 1 s := by
  have h := poly_xPow 0 256 2 1 (by decide) poly_two s
  rw [xPow_frobenius, poly_two, Nat.one_mul, Nat.zero_mod, Nat.add_zero] at h
  exact h.symm

theorem steps_period (s : Xoshiro) : Xoshiro.steps (2 ^ 256 - 1) s = s := by
  apply steps_injective 1
  rw [← steps_add, Nat.sub_add_cancel (by decide), steps_frobenius]

/-! ## No proper divisor is a period

For each prime factor `q` a polynomial `h` with `h * (x^((2^256 - 1) / q) + 1) = 1`. -/

theorem no_period (q h : Nat) (hc : mulMod h (xPow ((2 ^ 256 - 1) / q) 256 1 ^^^ 1) = 1) (s : Xoshiro)
    (hs : Xoshiro.steps ((2 ^ 256 - 1) / q) s = s) : s = zero := by
  have hx : poly (xPow ((2 ^ 256 - 1) / q) 256 1) s = s := by
    rw [poly_xPow ((2 ^ 256 - 1) / q) 256 1 0 (by decide) poly_one s, Nat.zero_mul, Nat.zero_add, Nat.mod_eq_of_lt, hs]
    exact Nat.lt_of_le_of_lt (Nat.div_le_self _ _) (by decide)
  have hlt : xPow ((2 ^ 256 - 1) / q) 256 1 ^^^ 1 < 2 ^ 256 :=
    Nat.xor_lt_two_pow (xPow_lt _ _ _ (by decide)) (by decide)
  have h1 := poly_mulMod h _ hlt s
  rw [hc, poly_one, poly_xor, hx, poly_one, Xoshiro.xor_self, poly_zero_state] at h1
  exact h1

theorem cert_3 : mulMod 0x54d6a48aae687fb68b7f13ce6607e276afab085596734aa97762f281b25ed783 (xPow ((2 ^ 256 - 1) / 3) 256 1 ^^^ 1) = 1 := by
  decide +kernel

theorem cert_5 : mulMod 0x9b17f5767b72e1a3c673d4c3e369b20235e972559753b37fdedc95dc103781f (xPow ((2 ^ 256 - 1) / 5) 256 1 ^^^ 1) = 1 := by
  decide +kernel

theorem cert_17 : mulMod 0xf4646ef27133b2d46393a4c40448d75b8f3adcab0a20793ef8bb26f5b81e7ecf (xPow ((2 ^ 256 - 1) / 17) 256 1 ^^^ 1) = 1 := by
  decide +kernel

theorem cert_257 : mulMod 0x618e9a9a97b4105e9870464ee696824b10a336ec58f59159b1165cabfe23cd76 (xPow ((2 ^ 256 - 1) / 257) 256 1 ^^^ 1) = 1 := by
  decide +kernel

theorem cert_65537 : mulMod 0x5b7382b05dc5a20686e618650a39fab806017ce589bb2d98cf9b5a05139e793f (xPow ((2 ^ 256 - 1) / 65537) 256 1 ^^^ 1) = 1 := by
  decide +kernel

theorem cert_641 : mulMod 0x56ced9120f236c15fdd49ed161d46abc0269afa58693de573c5dcc0645c4b0ff (xPow ((2 ^ 256 - 1) / 641) 256 1 ^^^ 1) = 1 := by
  decide +kernel

theorem cert_6700417 : mulMod 0x1c10854fe79f6066b6b1fe5c68be2282e701b5777ef01c8fd5b0ea5458d18c36 (xPow ((2 ^ 256 - 1) / 6700417) 256 1 ^^^ 1) = 1 := by
  decide +kernel

theorem cert_274177 : mulMod 0x24d5461cfd63732f63b6b60adc840b312db07c0c8c7b46872d3955d70f9e6ac5 (xPow ((2 ^ 256 - 1) / 274177) 256 1 ^^^ 1) = 1 := by
  decide +kernel

theorem cert_67280421310721 : mulMod 0xc3bc6f4888606c0bfb4a6ce96aa43d28506b49c1c962aba2928641dd24af8cf8 (xPow ((2 ^ 256 - 1) / 67280421310721) 256 1 ^^^ 1) = 1 := by
  decide +kernel

theorem cert_59649589127497217 : mulMod 0x2b0b5d0e0d5dcbfd343a0c7c13920e58856efc82f8b6f3e99a6368bb225afce6 (xPow ((2 ^ 256 - 1) / 59649589127497217) 256 1 ^^^ 1) = 1 := by
  decide +kernel

theorem cert_5704689200685129054721 : mulMod 0xca8fcba3c0dd08871d4e3f7290e3e7fb8436109b90a55fd4bc6fe9d31b611e5 (xPow ((2 ^ 256 - 1) / 5704689200685129054721) 256 1 ^^^ 1) = 1 := by
  decide +kernel

/-- The prime factors of `2^256 - 1`. -/
def periodPrimes : List Nat :=
  [3, 5, 17, 257, 65537, 641, 6700417, 274177,
    67280421310721, 59649589127497217, 5704689200685129054721]

theorem periodPrimes_prod : periodPrimes.prod = 2 ^ 256 - 1 := by decide +kernel

theorem periodPrimes_prime : ∀ q ∈ periodPrimes, q.Prime := by
  intro q hq
  simp only [periodPrimes, List.mem_cons, List.not_mem_nil, or_false] at hq
  rcases hq with rfl | rfl | rfl | rfl | rfl | rfl | rfl | rfl | rfl | rfl | rfl
  · norm_num
  · norm_num
  · norm_num
  · norm_num
  · norm_num
  · norm_num
  · exact prime_6700417
  · exact prime_274177
  · exact prime_67280421310721
  · exact prime_59649589127497217
  · exact prime_5704689200685129054721

theorem periodPrimes_no_period : ∀ q ∈ periodPrimes, ∀ s, Xoshiro.steps ((2 ^ 256 - 1) / q) s = s → s = zero := by
  intro q hq
  simp only [periodPrimes, List.mem_cons, List.not_mem_nil, or_false] at hq
  rcases hq with rfl | rfl | rfl | rfl | rfl | rfl | rfl | rfl | rfl | rfl | rfl
  · exact no_period _ _ cert_3
  · exact no_period _ _ cert_5
  · exact no_period _ _ cert_17
  · exact no_period _ _ cert_257
  · exact no_period _ _ cert_65537
  · exact no_period _ _ cert_641
  · exact no_period _ _ cert_6700417
  · exact no_period _ _ cert_274177
  · exact no_period _ _ cert_67280421310721
  · exact no_period _ _ cert_59649589127497217
  · exact no_period _ _ cert_5704689200685129054721

theorem steps_iterate (n : Nat) (s : Xoshiro) : Xoshiro.steps n s = T^[n] s := by
  induction n generalizing s with
  | zero => rfl
  | succ n ih => rw [steps_succ, ih, Function.iterate_succ_apply]

theorem steps_ne (s : Xoshiro) (hs : s ≠ zero) (k : Nat) (hk : 0 < k) (hlt : k < 2 ^ 256 - 1) : Xoshiro.steps k s ≠ s := by
  intro hper
  generalize hN : 2 ^ 256 - 1 = N at hlt
  have hpN : Function.IsPeriodicPt T N s := by
    rw [Function.IsPeriodicPt, Function.IsFixedPt, ← steps_iterate, ← hN, steps_period]
  have hpk : Function.IsPeriodicPt T k s := by
    rw [Function.IsPeriodicPt, Function.IsFixedPt, ← steps_iterate, hper]
  have hdN := hpN.minimalPeriod_dvd
  have hdk := Nat.le_of_dvd hk hpk.minimalPeriod_dvd
  obtain ⟨c, hc⟩ := hdN
  have hc1 : c ≠ 1 := by
    intro h
    rw [h, Nat.mul_one] at hc
    omega
  obtain ⟨p, hp, hpc⟩ := Nat.exists_prime_and_dvd hc1
  have hpdvd : p ∣ periodPrimes.prod := by
    rw [periodPrimes_prod, hN, hc]
    exact Nat.dvd_trans hpc (Nat.dvd_mul_left _ _)
  obtain ⟨q, hq, hpq⟩ := hp.prime.dvd_prod_iff.1 hpdvd
  rw [(Nat.prime_dvd_prime_iff_eq hp (periodPrimes_prime q hq)).1 hpq] at hpc
  obtain ⟨e, he⟩ := hpc
  apply hs
  apply periodPrimes_no_period q hq
  have hq0 : 0 < q := (periodPrimes_prime q hq).pos
  have hdiv : N / q = Function.minimalPeriod T s * e := by
    rw [hc, he, Nat.mul_left_comm, Nat.mul_div_cancel_left _ hq0]
  rw [hN, hdiv, steps_iterate]
  exact (Function.isPeriodicPt_minimalPeriod T s).mul_const e

end ICPC.Xo
