import Verif.Spec.Prime
import Mathlib.Data.ZMod.Basic
import Mathlib.FieldTheory.Finite.Basic
import Mathlib.GroupTheory.OrderOfElement
import Mathlib.Data.Nat.Prime.Factorial
import Mathlib.Tactic.Linarith

/-!
# No composite number below 2^27 passes the tests of isPrime: the search and why it is complete

This file does not model code; it is the argument behind `C27_exact_range_partial`.

If `n = p * m` is composite with smallest prime factor `p` and `a^(n-1) = 1` modulo `n`, then the order `d` of `a` modulo `p` divides `n - 1`,
and therefore `m - p`. So for each of the primes `p` up to the root of the bound it suffices to look at `m = p, p + d, p + 2d, ...`.

The functions are written with the primitive operations on natural numbers and with recursors to be cheap for the kernel; `force` evaluates
its argument first.
-/

namespace ICPC.PrimeRange
open Spec

/-- `f n`, where `n` is evaluated first. -/
noncomputable def force (n : Nat) (f : Nat → Bool) : Bool := Nat.rec (f (nat_lit 0)) (fun k _ => f (Nat.succ k)) n

/-- `x` and then `y`. -/
noncomputable def both (x y : Bool) : Bool := Bool.rec false y x

/-- `x` or else `y`. -/
noncomputable def either (x y : Bool) : Bool := Bool.rec y true x

/-- `f i`, ..., `f (i + 2^k - 1)` are all true. -/
noncomputable def rng (f : Nat → Bool) (k : Nat) : Nat → Bool :=
  Nat.rec f (fun k ih i => both (ih i) (force (Nat.add i (Nat.pow (nat_lit 2) k)) ih)) k

/-- `a^e` modulo `n`. -/
def pm (a e n : Nat) : Nat :=
  Nat.mod (Nat.mul (Nat.pow (Nat.mod (Nat.mul (Nat.pow (Nat.mod (Nat.mul (Nat.pow (Nat.mod (Nat.pow a (Nat.div e (nat_lit 16777216))) n)
    (nat_lit 256)) (Nat.pow a (Nat.mod (Nat.div e (nat_lit 65536)) (nat_lit 256)))) n) (nat_lit 256))
    (Nat.pow a (Nat.mod (Nat.div e (nat_lit 256)) (nat_lit 256)))) n) (nat_lit 256)) (Nat.pow a (Nat.mod e (nat_lit 256)))) n

/-- The strong test: `a^e` is -1, or it is 1 and `e` is odd or the same holds for half of `e`. -/
noncomputable def strong (n a : Nat) (fuel : Nat) : Nat → Bool :=
  Nat.rec (fun _ => true) (fun _ ih e => force (pm a e n) fun x =>
    either (Nat.beq (Nat.succ x) n) (both (Nat.beq x (nat_lit 1)) (either (Nat.beq (Nat.mod e (nat_lit 2)) (nat_lit 1))
      (ih (Nat.div e (nat_lit 2)))))) fuel

/-- Fermat tests to bases 2 and 132 and strong tests to bases 2, 325 and 9375. -/
noncomputable def passes (n : Nat) : Bool :=
  both (Nat.beq (pm (nat_lit 2) (Nat.pred n) n) (nat_lit 1)) (both (Nat.beq (pm (nat_lit 132) (Nat.pred n) n) (nat_lit 1))
    (both (strong n (nat_lit 2) (nat_lit 32) (Nat.div (Nat.pred n) (nat_lit 2)))
      (both (strong n (nat_lit 325) (nat_lit 32) (Nat.div (Nat.pred n) (nat_lit 2)))
        (strong n (nat_lit 9375) (nat_lit 32) (Nat.div (Nat.pred n) (nat_lit 2))))))

/-- For all prime factors `q` of `x` (not below `i`): `a^(d/q)` is not 1 modulo `p`. -/
noncomputable def ordChk (p a d : Nat) (fuel : Nat) : Nat → Nat → Bool :=
  Nat.rec (fun _ _ => false) (fun _ ih i x => force x fun x => force i fun i =>
    Bool.rec
      (either (Nat.ble x (nat_lit 1)) (Bool.not (Nat.beq (Nat.mod (Nat.pow a (Nat.div d x)) p) (nat_lit 1))))
      (Bool.rec (ih (Nat.succ i) x)
        (both (Bool.not (Nat.beq (Nat.mod (Nat.pow a (Nat.div d i)) p) (nat_lit 1))) (ih i (Nat.div x i)))
        (Nat.beq (Nat.mod x i) (nat_lit 0)))
      (Nat.ble (Nat.mul i i) x)) fuel

/-- `m` has a small factor, or `p * m` is not below `N`, or it does not pass. -/
noncomputable def candOk (N p d j : Nat) : Bool :=
  force (Nat.add p (Nat.mul d j)) fun m => either (Bool.not (Nat.beq (Nat.gcd m (nat_lit 307444891294245705)) (nat_lit 1)))
    (force (Nat.mul p m) fun n => either (Nat.ble N n) (Bool.not (passes n)))

/-- 16 candidates. -/
noncomputable def blockOk (N p d b : Nat) : Bool :=
  force (Nat.mul b (nat_lit 16)) fun j => either (Nat.ble N (Nat.mul p (Nat.add p (Nat.mul d j)))) (rng (candOk N p d) (nat_lit 4) j)

/-- `d` is the order of `a` modulo `p`. -/
noncomputable def useOrder (p a d : Nat) : Bool :=
  both (Nat.beq (Nat.mod (Nat.pow a d) p) (nat_lit 1)) (ordChk p a d (nat_lit 256) (nat_lit 2) d)

/-- Looks for a base whose order is large. -/
noncomputable def search (N p : Nat) (l : List (Nat × Nat)) : Bool :=
  List.rec false (fun ac _ ih => Bool.rec ih
    (force (Nat.div (Nat.pred p) ac.2) fun d => Bool.rec ih
      (rng (blockOk N p d) (Nat.succ (Nat.log2 (Nat.div N (Nat.mul (Nat.mul p d) (nat_lit 16))))) (nat_lit 0))
      (useOrder p ac.1 d))
    (Nat.beq (Nat.mod (Nat.pred p) ac.2) (nat_lit 0))) l

/-- Bases and the index of the subgroup that they generate. -/
def tries : List (Nat × Nat) :=
  [(2, 1), (132, 1), (325, 1), (9375, 1), (2, 2), (132, 2), (325, 2), (9375, 2), (2, 3), (132, 3), (325, 3), (9375, 3),
   (2, 4), (132, 4), (325, 4), (9375, 4), (2, 5), (132, 5), (325, 5), (9375, 5), (2, 6), (132, 6), (325, 6), (9375, 6),
   (2, 7), (132, 7), (325, 7), (9375, 7), (2, 8), (132, 8), (325, 8), (9375, 8), (2, 9), (132, 9), (325, 9), (9375, 9),
   (2, 10), (132, 10), (325, 10), (9375, 10), (2, 11), (132, 11), (325, 11), (9375, 11), (2, 12), (132, 12), (325, 12), (9375, 12)]

/-- `p` is too large or has a factor in common with `F` or all its candidates are fine. -/
noncomputable def primeOk (N F p : Nat) : Bool :=
  force p fun p => either (Nat.ble N (Nat.mul p p)) (either (Bool.not (Nat.beq (Nat.gcd p F) (nat_lit 1))) (search N p tries))

theorem force_eq (n : Nat) (f : Nat → Bool) : force n f = f n := by cases n <;> rfl

theorem both_eq (x y : Bool) : both x y = (x && y) := by cases x <;> rfl

theorem either_eq (x y : Bool) : either x y = (x || y) := by cases x <;> rfl

theorem rng_succ (f : Nat → Bool) (k i : Nat) : rng f (k + 1) i = (rng f k i && rng f k (i + 2 ^ k)) := by
  show both (rng f k i) (force (i + 2 ^ k) (rng f k)) = _
  rw [both_eq, force_eq]

theorem rng_join {f : Nat → Bool} {k i : Nat} (h : rng f k i = true) (h' : rng f k (i + 2 ^ k) = true) : rng f (k + 1) i = true := by
  rw [rng_succ, h, h']; rfl

theorem rng_spec (f : Nat → Bool) : ∀ (k i : Nat), rng f k i = true → ∀ j, j < 2 ^ k → f (i + j) = true
  | 0, i, h, j, hj => by
    have : j = 0 := by simpa using hj
    subst this; exact h
  | k + 1, i, h, j, hj => by
    rw [rng_succ, Bool.and_eq_true] at h
    by_cases hk : j < 2 ^ k
    · exact rng_spec f k i h.1 j hk
    · have := rng_spec f k (i + 2 ^ k) h.2 (j - 2 ^ k) (by rw [pow_succ] at hj; omega)
      rwa [show i + 2 ^ k + (j - 2 ^ k) = i + j by omega] at this

theorem pm_step (a e n q w : Nat) : ((a ^ (e / (q * w)) % n) ^ w * a ^ (e / q % w)) % n = a ^ (e / q) % n := by
  rw [Nat.mul_mod, Nat.pow_mod, Nat.mod_mod, ← Nat.pow_mod, ← Nat.mul_mod, ← pow_mul, ← pow_add, ← Nat.div_div_eq_div_mul,
    Nat.mul_comm, Nat.div_add_mod]

theorem pm_eq (a e n : Nat) : pm a e n = a ^ e % n := by
  have h1 := pm_step a e n 65536 256
  have h2 := pm_step a e n 256 256
  have h3 := pm_step a e n 1 256
  rw [show 65536 * 256 = 16777216 from rfl] at h1
  rw [show 256 * 256 = 65536 from rfl] at h2
  rw [show 1 * 256 = 256 from rfl, Nat.div_one] at h3
  show (((((a ^ (e / 16777216) % n) ^ 256 * a ^ (e / 65536 % 256)) % n) ^ 256 * a ^ (e / 256 % 256)) % n) ^ 256 * a ^ (e % 256) % n = _
  rw [h1, h2, h3]

theorem beq_dec (x y : Nat) : Nat.beq x y = decide (x = y) := by
  rw [Bool.eq_iff_iff, Nat.beq_eq, decide_eq_true_iff]

theorem strong_succ (n a f e : Nat) : strong n a (f + 1) e =
    (decide (a ^ e % n + 1 = n) || (decide (a ^ e % n = 1) && (decide (e % 2 = 1) || strong n a f (e / 2)))) := by
  show force (pm a e n) (fun x => either (Nat.beq (Nat.succ x) n) (both (Nat.beq x 1) (either (Nat.beq (e % 2) 1) (strong n a f (e / 2))))) = _
  rw [force_eq, either_eq, both_eq, either_eq, pm_eq, beq_dec, beq_dec, beq_dec]

theorem sq_one {n : Nat} (hn : 2 ≤ n) : (n - 1) ^ 2 % n = 1 := by
  obtain ⟨k, rfl⟩ : ∃ k, n = k + 2 := ⟨n - 2, by omega⟩
  rw [show (k + 2 - 1) ^ 2 = 1 + (k + 2) * k by simp; ring, Nat.add_mul_mod_self_left]
  exact Nat.mod_eq_of_lt (by omega)

theorem pow_one_of_neg {n x k : Nat} (hn : 2 ≤ n) (h : x % n = n - 1) (hk : 0 < k) : x ^ (2 ^ k) % n = 1 := by
  obtain ⟨k, rfl⟩ : ∃ j, k = j + 1 := ⟨k - 1, by omega⟩
  rw [show 2 ^ (k + 1) = 2 * 2 ^ k by ring, pow_mul, Nat.pow_mod, Nat.pow_mod x, h, sq_one hn, one_pow]
  exact Nat.mod_eq_of_lt (by omega)

theorem one_pow_mod {n x k : Nat} (hn : 2 ≤ n) (h : x % n = 1) : x ^ k % n = 1 := by
  rw [Nat.pow_mod, h, one_pow]; exact Nat.mod_eq_of_lt (by omega)

theorem fermat_of_strong {n a : Nat} (hn : 2 ≤ n) (h : StrongProbablePrime n a) : a ^ (n - 1) % n = 1 := by
  obtain ⟨s, d, e, _, h | ⟨r, hr, h⟩⟩ := h
  · rw [e, Nat.mul_comm, pow_mul]; exact one_pow_mod hn h
  · rw [e, show 2 ^ s * d = (2 ^ r * d) * 2 ^ (s - r) by
      rw [show 2 ^ s = 2 ^ r * 2 ^ (s - r) by rw [← pow_add]; congr 1; omega]; ring, pow_mul]
    exact pow_one_of_neg hn h (by omega)

theorem strong_true {n a d : Nat} (hn : 2 ≤ n) (hd : d % 2 = 1) : ∀ (f t : Nat),
    (a ^ d % n = 1 ∨ ∃ r, r ≤ t ∧ a ^ (2 ^ r * d) % n = n - 1) → strong n a f (2 ^ t * d) = true
  | 0, _, _ => rfl
  | f + 1, t, h => by
    rw [strong_succ]
    rcases h with h | ⟨r, hr, h⟩
    · have h1 : a ^ (2 ^ t * d) % n = 1 := by rw [Nat.mul_comm, pow_mul]; exact one_pow_mod hn h
      rw [h1]
      cases t with
      | zero => simp [hd]
      | succ t =>
        rw [show 2 ^ (t + 1) * d / 2 = 2 ^ t * d by rw [pow_succ, show 2 ^ t * 2 * d = 2 ^ t * d * 2 by ring]; omega,
          strong_true hn hd f t (.inl h)]
        simp
    · rcases Nat.lt_or_ge r t with hlt | hge
      · have h1 : a ^ (2 ^ t * d) % n = 1 := by
          rw [show 2 ^ t * d = (2 ^ r * d) * 2 ^ (t - r) by
            rw [show 2 ^ t = 2 ^ r * 2 ^ (t - r) by rw [← pow_add]; congr 1; omega]; ring, pow_mul]
          exact pow_one_of_neg hn h (by omega)
        rw [h1]
        obtain ⟨t, rfl⟩ : ∃ j, t = j + 1 := ⟨t - 1, by omega⟩
        rw [show 2 ^ (t + 1) * d / 2 = 2 ^ t * d by rw [pow_succ, show 2 ^ t * 2 * d = 2 ^ t * d * 2 by ring]; omega,
          strong_true hn hd f t (.inr ⟨r, by omega, h⟩)]
        simp
      · obtain rfl : r = t := by omega
        rw [h, show n - 1 + 1 = n by omega]
        simp

theorem strong_of_spp {n a : Nat} (hn : 2 ≤ n) (ho : n % 2 = 1) (h : StrongProbablePrime n a) (f : Nat) :
    strong n a f ((n - 1) / 2) = true := by
  obtain ⟨s, d, e, hd, h⟩ := h
  obtain ⟨t, rfl⟩ : ∃ t, s = t + 1 := by
    cases s with
    | zero => rw [pow_zero, one_mul] at e; omega
    | succ t => exact ⟨t, rfl⟩
  rw [e, show 2 ^ (t + 1) * d / 2 = 2 ^ t * d by rw [pow_succ, show 2 ^ t * 2 * d = 2 ^ t * d * 2 by ring]; omega]
  refine strong_true hn hd f t ?_
  rcases h with h | ⟨r, hr, h⟩
  · exact .inl h
  · exact .inr ⟨r, by omega, h⟩

theorem passes_of {n : Nat} (hn : 2 ≤ n) (ho : n % 2 = 1) (h132 : 132 ^ (n - 1) % n = 1) (h2 : StrongProbablePrime n 2)
    (h325 : StrongProbablePrime n 325) (h9375 : StrongProbablePrime n 9375) : passes n = true := by
  have e2 : Nat.beq (pm 2 (n - 1) n) 1 = true := by rw [pm_eq, fermat_of_strong hn h2]; rfl
  have e132 : Nat.beq (pm 132 (n - 1) n) 1 = true := by rw [pm_eq, h132]; rfl
  show both (Nat.beq (pm 2 (n - 1) n) 1) (both (Nat.beq (pm 132 (n - 1) n) 1) (both (strong n 2 32 ((n - 1) / 2))
    (both (strong n 325 32 ((n - 1) / 2)) (strong n 9375 32 ((n - 1) / 2))))) = true
  rw [e2, e132, strong_of_spp hn ho h2, strong_of_spp hn ho h325, strong_of_spp hn ho h9375]
  rfl

theorem ordChk_spec (p a d : Nat) : ∀ (f i x : Nat), ordChk p a d f i x = true → 2 ≤ i → (∀ r, Nat.Prime r → r ∣ x → i ≤ r) →
    0 < x → ∀ q, Nat.Prime q → q ∣ x → a ^ (d / q) % p ≠ 1
  | 0, _, _, h, _, _, _ => by cases h
  | f + 1, i, x, h, hi, hmin, hx => by
    intro q hq hqx
    have e : ordChk p a d (f + 1) i x = Bool.rec (either (Nat.ble x 1) (Bool.not (Nat.beq (a ^ (d / x) % p) 1)))
        (Bool.rec (ordChk p a d f (i + 1) x) (both (Bool.not (Nat.beq (a ^ (d / i) % p) 1)) (ordChk p a d f i (x / i))) (Nat.beq (x % i) 0))
        (Nat.ble (i * i) x) := by
      rw [show ordChk p a d (f + 1) i x = force x (fun x => force i fun i =>
        Bool.rec (either (Nat.ble x 1) (Bool.not (Nat.beq (a ^ (d / x) % p) 1)))
          (Bool.rec (ordChk p a d f (i + 1) x) (both (Bool.not (Nat.beq (a ^ (d / i) % p) 1)) (ordChk p a d f i (x / i))) (Nat.beq (x % i) 0))
          (Nat.ble (i * i) x)) from rfl, force_eq, force_eq]
    rw [e] at h
    cases hb : Nat.ble (i * i) x with
    | false =>
      rw [hb] at h
      have hlt : x < i * i := by
        rcases Nat.lt_or_ge x (i * i) with h1 | h1
        · exact h1
        · rw [Nat.ble_eq_true_of_le h1] at hb; cases hb
      have h' : (either (Nat.ble x 1) (Bool.not (Nat.beq (a ^ (d / x) % p) 1))) = true := h
      rw [either_eq, Bool.or_eq_true] at h'
      obtain ⟨y, rfl⟩ := hqx
      have hqi := hmin q hq (dvd_mul_right q y)
      have hy : y = 1 := by
        by_contra hne
        obtain ⟨r, hr, hry⟩ := Nat.exists_prime_and_dvd hne
        have h1 := hmin r hr (hry.trans (dvd_mul_left y q))
        have h2 := Nat.le_of_dvd (Nat.pos_of_ne_zero (by rintro rfl; omega)) hry
        have h3 : i * i ≤ q * y := Nat.mul_le_mul hqi (h1.trans h2)
        omega
      subst hy
      rw [Nat.mul_one] at h'
      rcases h' with h' | h'
      · have := Nat.le_of_ble_eq_true h'
        have := hq.two_le
        omega
      · intro h1
        rw [h1] at h'; cases h'
    | true =>
      rw [hb] at h
      cases hm : Nat.beq (x % i) 0 with
      | false =>
        rw [hm] at h
        have hne : x % i ≠ 0 := by intro h0; rw [h0] at hm; cases hm
        refine ordChk_spec p a d f (i + 1) x h (by omega) (fun r hr hrx => ?_) hx q hq hqx
        have h1 := hmin r hr hrx
        rcases Nat.lt_or_ge i r with h2 | h2
        · omega
        · obtain rfl : r = i := by omega
          exact absurd (Nat.mod_eq_zero_of_dvd hrx) hne
      | true =>
        rw [hm] at h
        have h' : both (Bool.not (Nat.beq (a ^ (d / i) % p) 1)) (ordChk p a d f i (x / i)) = true := h
        rw [both_eq, Bool.and_eq_true] at h'
        have hd : i ∣ x := Nat.dvd_of_mod_eq_zero (Nat.eq_of_beq_eq_true hm)
        obtain ⟨y, rfl⟩ := hd
        rw [Nat.mul_div_cancel_left _ (by omega)] at h'
        have hy : 0 < y := Nat.pos_of_ne_zero (by rintro rfl; omega)
        rcases (Nat.Prime.dvd_mul hq).1 hqx with h1 | h1
        · have h2 := hmin q hq hqx
          have h3 := Nat.le_of_dvd (by omega) h1
          obtain rfl : q = i := by omega
          intro h4
          rw [h4] at h'
          exact absurd h'.1 (by decide)
        · exact ordChk_spec p a d f i y h'.2 hi (fun r hr hry => hmin r hr (hry.trans (dvd_mul_left y i))) hy q hq h1

theorem pow_zmod {p a x : Nat} (hp : p.Prime) : ((a : ZMod p) ^ x = 1) ↔ a ^ x % p = 1 := by
  have h1 : (1 : Nat) % p = 1 := Nat.mod_eq_of_lt hp.one_lt
  rw [← Nat.cast_pow, ← Nat.cast_one (R := ZMod p), ZMod.natCast_eq_natCast_iff, Nat.ModEq, h1]

theorem useOrder_spec {p a d : Nat} (hp : p.Prime) (hd : 0 < d) (h : useOrder p a d = true) {x : Nat} (hx : a ^ x % p = 1) : d ∣ x := by
  have h' : both (Nat.beq (a ^ d % p) 1) (ordChk p a d 256 2 d) = true := h
  rw [both_eq, Bool.and_eq_true] at h'
  have h1 := Nat.eq_of_beq_eq_true h'.1
  have h2 := ordChk_spec p a d 256 2 d h'.2 (by omega) (fun r hr _ => hr.two_le) hd
  have ho : orderOf (a : ZMod p) = d :=
    orderOf_eq_of_pow_and_pow_div_prime hd ((pow_zmod hp).2 h1) (fun q hq hqd => fun h3 => h2 q hq hqd ((pow_zmod hp).1 h3))
  rw [← ho]
  exact orderOf_dvd_of_pow_eq_one ((pow_zmod hp).2 hx)

theorem candOk_spec {N p d j : Nat} (h : candOk N p d j = true) (hc : Nat.Coprime (p + d * j) 307444891294245705) (hN : p * (p + d * j) < N) :
    passes (p * (p + d * j)) = false := by
  have e : candOk N p d j = either (Bool.not (Nat.beq (Nat.gcd (p + d * j) 307444891294245705) 1))
      (either (Nat.ble N (p * (p + d * j))) (Bool.not (passes (p * (p + d * j))))) := by
    show force _ (fun m => _) = _
    rw [force_eq, force_eq]
    rfl
  rw [e, show Nat.gcd (p + d * j) 307444891294245705 = 1 from hc] at h
  have hb : Nat.ble N (p * (p + d * j)) = false := by
    cases hb : Nat.ble N (p * (p + d * j)) with
    | false => rfl
    | true => have := Nat.le_of_ble_eq_true hb; omega
  rw [hb] at h
  have h' : Bool.not (passes (p * (p + d * j))) = true := h
  cases hp : passes (p * (p + d * j)) with
  | false => rfl
  | true => rw [hp] at h'; cases h'

theorem blocks_spec {N p d k : Nat} (h : rng (blockOk N p d) k 0 = true) {j : Nat} (hj : j / 16 < 2 ^ k)
    (hc : Nat.Coprime (p + d * j) 307444891294245705) (hN : p * (p + d * j) < N) : passes (p * (p + d * j)) = false := by
  have h1 := rng_spec _ k 0 h (j / 16) hj
  rw [Nat.zero_add] at h1
  have e : blockOk N p d (j / 16) = either (Nat.ble N (p * (p + d * (j / 16 * 16)))) (rng (candOk N p d) 4 (j / 16 * 16)) := by
    show force _ (fun j => _) = _
    rw [force_eq]
    rfl
  rw [e] at h1
  have hb : Nat.ble N (p * (p + d * (j / 16 * 16))) = false := by
    cases hb : Nat.ble N (p * (p + d * (j / 16 * 16))) with
    | false => rfl
    | true =>
      have h2 := Nat.le_of_ble_eq_true hb
      have h3 : j / 16 * 16 ≤ j := Nat.div_mul_le_self j 16
      have h4 : p * (p + d * (j / 16 * 16)) ≤ p * (p + d * j) := by gcongr
      omega
  rw [hb] at h1
  have h2 := rng_spec _ 4 (j / 16 * 16) h1 (j % 16) (by omega)
  rw [show j / 16 * 16 + j % 16 = j by omega] at h2
  exact candOk_spec h2 hc hN

theorem search_spec {N p : Nat} (hp : p.Prime) (l : List (Nat × Nat)) (h : search N p l = true) {m : Nat} (hm : p ≤ m)
    (hN : p * m < N) (hc : Nat.Coprime m 307444891294245705) (hf : ∀ ac ∈ l, ac.1 ^ (p * m - 1) % p = 1) : passes (p * m) = false := by
  induction l with
  | nil => cases h
  | cons ac l ih =>
    have ih' := fun h => ih h fun x hx => hf x (List.mem_cons_of_mem _ hx)
    have e : search N p (ac :: l) = Bool.rec (search N p l) (force ((p - 1) / ac.2) fun d => Bool.rec (search N p l)
        (rng (blockOk N p d) (Nat.log2 (N / (p * d * 16)) + 1) 0) (useOrder p ac.1 d)) (Nat.beq ((p - 1) % ac.2) 0) := rfl
    rw [e] at h
    cases hb : Nat.beq ((p - 1) % ac.2) 0 with
    | false => rw [hb] at h; exact ih' h
    | true =>
      rw [hb] at h
      rw [force_eq] at h
      dsimp only at h
      cases hu : useOrder p ac.1 ((p - 1) / ac.2) with
      | false => rw [hu] at h; exact ih' h
      | true =>
        rw [hu] at h
        have h' : rng (blockOk N p ((p - 1) / ac.2)) (Nat.log2 (N / (p * ((p - 1) / ac.2) * 16)) + 1) 0 = true := h
        have hdv : ac.2 ∣ p - 1 := Nat.dvd_of_mod_eq_zero (Nat.eq_of_beq_eq_true hb)
        have h2p := hp.two_le
        have hd : 0 < (p - 1) / ac.2 := Nat.div_pos (Nat.le_of_dvd (by omega) hdv) (Nat.pos_of_dvd_of_pos hdv (by omega))
        have hdd : (p - 1) / ac.2 ∣ p - 1 := Nat.div_dvd_of_dvd hdv
        generalize hde : (p - 1) / ac.2 = d at *
        have hx : d ∣ p * m - 1 := useOrder_spec hp hd hu (hf ac (List.mem_cons_self ..))
        have hmp : d ∣ m - p := by
          obtain ⟨u, hu⟩ := hdd
          obtain ⟨v, hv⟩ := hx
          have e1 : p * m - 1 = (p - 1) * m + (m - 1) := by
            obtain ⟨q, rfl⟩ : ∃ q, p = q + 1 := ⟨p - 1, by omega⟩
            rw [Nat.add_sub_cancel, Nat.add_mul]
            omega
          have h3 : d ∣ m - 1 := by
            have h3' : d ∣ (p - 1) * m := by rw [hu, Nat.mul_assoc]; exact dvd_mul_right ..
            refine (Nat.dvd_add_right h3').1 ?_
            rw [← e1, hv]
            exact dvd_mul_right ..
          have h4 := Nat.dvd_sub h3 (Dvd.intro u hu.symm)
          rwa [show m - 1 - (p - 1) = m - p by omega] at h4
        obtain ⟨j, hj⟩ := hmp
        obtain rfl : m = p + d * j := by omega
        refine blocks_spec h' ?_ hc hN
        have h5 : p * (d * j) < N := by
          have : p * (d * j) ≤ p * (p + d * j) := by gcongr; omega
          omega
        have h6 : j / 16 ≤ N / (p * d * 16) := by
          rw [Nat.le_div_iff_mul_le (by positivity)]
          have : j / 16 * 16 ≤ j := Nat.div_mul_le_self j 16
          calc j / 16 * (p * d * 16) = p * (d * (j / 16 * 16)) := by ring
            _ ≤ p * (d * j) := by gcongr
            _ ≤ N := h5.le
        exact lt_of_le_of_lt h6 Nat.lt_log2_self



theorem coprime_of_rough {m b c : Nat} (hm : ∀ r, Nat.Prime r → r ∣ m → b < r) (hc : c ∣ Nat.factorial b) : Nat.Coprime m c := by
  refine Nat.Coprime.coprime_dvd_right hc ?_
  refine Nat.coprime_of_dvd fun r hr hrm hrb => ?_
  have := (Nat.Prime.dvd_factorial hr).1 hrb
  have := hm r hr hrm
  omega

/-- What the search for one prime shows. -/
theorem primeOk_spec {N F p m : Nat} (hp : p.Prime) (h : primeOk N F p = true) (hF : Nat.Coprime p F) (hm : p ≤ m) (hN : p * m < N)
    (hr : ∀ r, Nat.Prime r → r ∣ m → 131 < r)
    (hf : ∀ a ∈ [2, 132, 325, 9375], a ^ (p * m - 1) % (p * m) = 1) : passes (p * m) = false := by
  have e : primeOk N F p = either (Nat.ble N (p * p)) (either (Bool.not (Nat.beq (Nat.gcd p F) 1)) (search N p tries)) := by
    rw [show primeOk N F p = force p (fun p => either (Nat.ble N (p * p)) (either (Bool.not (Nat.beq (Nat.gcd p F) 1)) (search N p tries)))
      from rfl, force_eq]
  have hb : Nat.ble N (p * p) = false := by
    cases hb : Nat.ble N (p * p) with
    | false => rfl
    | true =>
      have h1 := Nat.le_of_ble_eq_true hb
      have : p * p ≤ p * m := by gcongr
      omega
  rw [e, hb, show Nat.gcd p F = 1 from hF] at h
  refine search_spec hp tries h hm hN (coprime_of_rough hr (by decide +kernel)) fun ac hac => ?_
  have hmem : ac.1 ∈ [2, 132, 325, 9375] := by
    have : ∀ ac ∈ tries, ac.1 ∈ [2, 132, 325, 9375] := by decide
    exact this ac hac
  have h1 := hf ac.1 hmem
  have h2 : ac.1 ^ (p * m - 1) % (p * m) % p = ac.1 ^ (p * m - 1) % p := Nat.mod_mul_right_mod ..
  rw [← h2, h1]
  exact Nat.mod_eq_of_lt hp.one_lt

end ICPC.PrimeRange
