import Mathlib.NumberTheory.LucasPrimality
import Mathlib.Tactic.NormNum.Prime

/-!
# Primes with certificates

The eleven prime factors of `2^256 - 1`; the large ones by the Lucas test.
-/

set_option linter.unusedSimpArgs false

namespace ICPC.Xo

/-- `acc ^ 2^k * a ^ (e mod 2^k)` modulo `p`. -/
def powLoop (p a e : Nat) : Nat → Nat → Nat
  | 0, acc => acc
  | k + 1, acc => powLoop p a e k (acc * acc % p * a ^ ((e >>> k) % 2) % p)

theorem mod_pow_succ (e k : Nat) : e % 2 ^ (k + 1) = e % 2 ^ k + 2 ^ k * ((e >>> k) % 2) := by
  rw [Nat.shiftRight_eq_div_pow, Nat.pow_succ, Nat.mod_mul]

theorem powLoop_spec (p a e k acc : Nat) : (powLoop p a e k acc : ZMod p) = (acc : ZMod p) ^ 2 ^ k * (a : ZMod p) ^ (e % 2 ^ k) := by
  induction k generalizing acc with
  | zero => simp [powLoop, Nat.mod_one]
  | succ k ih =>
    rw [powLoop, ih, mod_pow_succ, ZMod.natCast_mod, Nat.cast_mul, ZMod.natCast_mod, Nat.cast_mul, Nat.cast_pow, mul_pow, ← sq, ← pow_mul,
      ← pow_mul, pow_add, Nat.pow_succ', mul_comm ((e >>> k) % 2)]
    ring

/-- The Lucas test with the list of all prime factors of `p - 1`. -/
theorem prime_of_cert (p a k : Nat) (fs : List Nat) (hp : 1 < p) (hk : p < 2 ^ k) (hf : ∀ q ∈ fs, q.Prime) (hprod : fs.prod = p - 1)
    (h1 : powLoop p a (p - 1) k 1 % p = 1) (h2 : ∀ q ∈ fs, powLoop p a ((p - 1) / q) k 1 % p ≠ 1) : p.Prime := by
  have hpow : ∀ e, e ≤ p - 1 → ((powLoop p a e k 1 % p : Nat) : ZMod p) = (a : ZMod p) ^ e := by
    intro e he
    rw [ZMod.natCast_mod, powLoop_spec, Nat.mod_eq_of_lt (by omega)]
    simp
  have hone : ∀ e, e ≤ p - 1 → ((a : ZMod p) ^ e = 1 ↔ powLoop p a e k 1 % p = 1) := by
    intro e he
    rw [← hpow e he]
    constructor
    · intro h
      have h' : ((powLoop p a e k 1 % p : Nat) : ZMod p) = ((1 : Nat) : ZMod p) := by simpa using h
      rw [ZMod.natCast_eq_natCast_iff'] at h'
      rwa [Nat.mod_mod, Nat.mod_eq_of_lt hp] at h'
    · intro h
      rw [h]
      simp
  apply lucas_primality p (a : ZMod p) ((hone _ (Nat.le_refl _)).2 h1)
  intro q hq hd
  rw [Ne, hone _ (Nat.div_le_self _ _)]
  rw [← hprod] at hd
  obtain ⟨r, hr, hqr⟩ := (hq.prime.dvd_prod_iff).1 hd
  rw [(Nat.prime_dvd_prime_iff_eq hq (hf r hr)).1 hqr]
  exact h2 r hr

theorem prime_6700417 : Nat.Prime 6700417 := by
  refine prime_of_cert 6700417 5 23 [2, 2, 2, 2, 2, 2, 2, 3, 17449] (by decide) (by decide) ?_ (by decide +kernel) (by decide +kernel) (by decide +kernel)
  intro q hq
  simp only [List.mem_cons, List.not_mem_nil, or_false, or_self, or_self_left] at hq
  rcases hq with rfl | rfl | rfl
  · norm_num
  · norm_num
  · norm_num

theorem prime_274177 : Nat.Prime 274177 := by
  refine prime_of_cert 274177 5 19 [2, 2, 2, 2, 2, 2, 2, 2, 3, 3, 7, 17] (by decide) (by decide) ?_ (by decide +kernel) (by decide +kernel) (by decide +kernel)
  intro q hq
  simp only [List.mem_cons, List.not_mem_nil, or_false, or_self, or_self_left] at hq
  rcases hq with rfl | rfl | rfl | rfl
  · norm_num
  · norm_num
  · norm_num
  · norm_num

theorem prime_166571 : Nat.Prime 166571 := by
  refine prime_of_cert 166571 2 18 [2, 5, 16657] (by decide) (by decide) ?_ (by decide +kernel) (by decide +kernel) (by decide +kernel)
  intro q hq
  simp only [List.mem_cons, List.not_mem_nil, or_false, or_self, or_self_left] at hq
  rcases hq with rfl | rfl | rfl
  · norm_num
  · norm_num
  · norm_num

theorem prime_2998279 : Nat.Prime 2998279 := by
  refine prime_of_cert 2998279 3 22 [2, 3, 3, 166571] (by decide) (by decide) ?_ (by decide +kernel) (by decide +kernel) (by decide +kernel)
  intro q hq
  simp only [List.mem_cons, List.not_mem_nil, or_false, or_self, or_self_left] at hq
  rcases hq with rfl | rfl | rfl
  · norm_num
  · norm_num
  · exact prime_166571

theorem prime_67280421310721 : Nat.Prime 67280421310721 := by
  refine prime_of_cert 67280421310721 3 46 [2, 2, 2, 2, 2, 2, 2, 2, 5, 47, 373, 2998279] (by decide) (by decide) ?_ (by decide +kernel) (by decide +kernel) (by decide +kernel)
  intro q hq
  simp only [List.mem_cons, List.not_mem_nil, or_false, or_self, or_self_left] at hq
  rcases hq with rfl | rfl | rfl | rfl | rfl
  · norm_num
  · norm_num
  · norm_num
  · norm_num
  · exact prime_2998279

theorem prime_1896229 : Nat.Prime 1896229 := by
  refine prime_of_cert 1896229 2 21 [2, 2, 3, 3, 52673] (by decide) (by decide) ?_ (by decide +kernel) (by decide +kernel) (by decide +kernel)
  intro q hq
  simp only [List.mem_cons, List.not_mem_nil, or_false, or_self, or_self_left] at hq
  rcases hq with rfl | rfl | rfl
  · norm_num
  · norm_num
  · norm_num

theorem prime_18533742247 : Nat.Prime 18533742247 := by
  refine prime_of_cert 18533742247 6 35 [2, 3, 3, 3, 181, 1896229] (by decide) (by decide) ?_ (by decide +kernel) (by decide +kernel) (by decide +kernel)
  intro q hq
  simp only [List.mem_cons, List.not_mem_nil, or_false, or_self, or_self_left] at hq
  rcases hq with rfl | rfl | rfl | rfl
  · norm_num
  · norm_num
  · norm_num
  · exact prime_1896229

theorem prime_116503103764643 : Nat.Prime 116503103764643 := by
  refine prime_of_cert 116503103764643 2 47 [2, 7, 449, 18533742247] (by decide) (by decide) ?_ (by decide +kernel) (by decide +kernel) (by decide +kernel)
  intro q hq
  simp only [List.mem_cons, List.not_mem_nil, or_false, or_self, or_self_left] at hq
  rcases hq with rfl | rfl | rfl | rfl
  · norm_num
  · norm_num
  · norm_num
  · exact prime_18533742247

theorem prime_59649589127497217 : Nat.Prime 59649589127497217 := by
  refine prime_of_cert 59649589127497217 3 56 [2, 2, 2, 2, 2, 2, 2, 2, 2, 116503103764643] (by decide) (by decide) ?_ (by decide +kernel) (by decide +kernel) (by decide +kernel)
  intro q hq
  simp only [List.mem_cons, List.not_mem_nil, or_false, or_self, or_self_left] at hq
  rcases hq with rfl | rfl
  · norm_num
  · exact prime_116503103764643

theorem prime_6939437 : Nat.Prime 6939437 := by
  refine prime_of_cert 6939437 2 23 [2, 2, 7, 139, 1783] (by decide) (by decide) ?_ (by decide +kernel) (by decide +kernel) (by decide +kernel)
  intro q hq
  simp only [List.mem_cons, List.not_mem_nil, or_false, or_self, or_self_left] at hq
  rcases hq with rfl | rfl | rfl | rfl
  · norm_num
  · norm_num
  · norm_num
  · norm_num

theorem prime_55515497 : Nat.Prime 55515497 := by
  refine prime_of_cert 55515497 3 26 [2, 2, 2, 6939437] (by decide) (by decide) ?_ (by decide +kernel) (by decide +kernel) (by decide +kernel)
  intro q hq
  simp only [List.mem_cons, List.not_mem_nil, or_false, or_self, or_self_left] at hq
  rcases hq with rfl | rfl
  · norm_num
  · exact prime_6939437

theorem prime_733803839347 : Nat.Prime 733803839347 := by
  refine prime_of_cert 733803839347 2 40 [2, 3, 2203, 55515497] (by decide) (by decide) ?_ (by decide +kernel) (by decide +kernel) (by decide +kernel)
  intro q hq
  simp only [List.mem_cons, List.not_mem_nil, or_false, or_self, or_self_left] at hq
  rcases hq with rfl | rfl | rfl | rfl
  · norm_num
  · norm_num
  · norm_num
  · exact prime_55515497

theorem prime_5704689200685129054721 : Nat.Prime 5704689200685129054721 := by
  refine prime_of_cert 5704689200685129054721 21 73 [2, 2, 2, 2, 2, 2, 2, 2, 2, 3, 3, 3, 3, 3, 5, 12497, 733803839347] (by decide) (by decide) ?_ (by decide +kernel) (by decide +kernel) (by decide +kernel)
  intro q hq
  simp only [List.mem_cons, List.not_mem_nil, or_false, or_self, or_self_left] at hq
  rcases hq with rfl | rfl | rfl | rfl | rfl
  · norm_num
  · norm_num
  · norm_num
  · norm_num
  · exact prime_733803839347

end ICPC.Xo
