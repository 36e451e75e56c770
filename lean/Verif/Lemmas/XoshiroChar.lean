import Verif.Lemmas.XoshiroBasis

/-!
# Arithmetic modulo the characteristic polynomial of xoshiro256**, and `jump`
-/

namespace ICPC.Xo

open Xoshiro

/-! ## Arithmetic modulo the characteristic polynomial -/

/-- Multiply by `x` and reduce. -/
def mulX (a : Nat) : Nat := (a <<< 1) ^^^ (charPoly * (((a <<< 1) >>> 256) &&& 1))

theorem poly_mulX (a : Nat) (s : Xoshiro) : poly (mulX a) s = T (poly a s) := by
  rw [mulX, poly_xor, poly_bit, charPoly_zero, poly_double]
  cases (a <<< 1).testBit 256 <;> exact xor_zero _

theorem charPoly_lt : charPoly < 2 ^ 256 * 2 := by decide +kernel

theorem charPoly_high (i : Nat) (h : 257 ≤ i) : charPoly.testBit i = false := by
  obtain ⟨j, rfl⟩ : ∃ j, i = j + 1 := ⟨i - 1, by omega⟩
  apply Nat.testBit_lt_two_pow
  rw [Nat.pow_succ]
  exact Nat.lt_of_lt_of_le charPoly_lt (Nat.mul_le_mul_right 2 (Nat.pow_le_pow_right (by omega) (by omega)))

theorem mulX_lt (a : Nat) (h : a < 2 ^ 256) : mulX a < 2 ^ 256 := by
  apply Nat.lt_pow_two_of_testBit
  intro i hi
  have ha : ∀ j, 256 ≤ j → a.testBit j = false := fun j hj =>
    Nat.testBit_lt_two_pow (Nat.lt_of_lt_of_le h (Nat.pow_le_pow_right (by omega) hj))
  have hbit : ((a <<< 1) >>> 256) &&& 1 = (a.testBit 255).toNat := by
    rw [Nat.and_one_is_mod, Nat.toNat_testBit, Nat.shiftLeft_eq, Nat.shiftRight_eq_div_pow]
    omega
  rw [mulX, Nat.testBit_xor, hbit, Nat.testBit_shiftLeft]
  rcases Nat.eq_or_lt_of_le hi with rfl | h'
  · cases a.testBit 255 <;> decide
  · rw [ha _ (by omega)]
    cases a.testBit 255
    · simp
    · simp [charPoly_high i h']

/-- `acc * x^k + a * (b mod x^k)`. -/
def mulLoop (a b : Nat) : Nat → Nat → Nat
  | 0, acc => acc
  | k + 1, acc => mulLoop a b k (mulX acc ^^^ (a * ((b >>> k) &&& 1)))

theorem poly_mulLoop (a b k acc : Nat) (s : Xoshiro) :
    poly (mulLoop a b k acc) s = (Xoshiro.steps k (poly acc s)).xor (poly a (act k b s)) := by
  induction k generalizing acc with
  | zero => rw [mulLoop, act, poly_zero_state, xor_zero]; rfl
  | succ k ih =>
    rw [mulLoop, ih, poly_xor, poly_mulX, poly_bit, steps_xor, steps_succ, act_last, poly_xor_state, xor_assoc]
    congr 1
    rw [xor_comm]
    congr 1
    cases b.testBit k
    · exact (steps_zero k).trans (poly_zero_state a).symm
    · exact (poly_steps a k s).symm

theorem mulLoop_lt (a b k acc : Nat) (ha : a < 2 ^ 256) (h : acc < 2 ^ 256) : mulLoop a b k acc < 2 ^ 256 := by
  induction k generalizing acc with
  | zero => exact h
  | succ k ih =>
    rw [mulLoop]
    apply ih
    apply Nat.xor_lt_two_pow (mulX_lt _ h)
    rw [Nat.and_one_is_mod]
    rcases Nat.mod_two_eq_zero_or_one (b >>> k) with h | h <;> rw [h] <;> omega

/-- The product modulo the characteristic polynomial. -/
def mulMod (a b : Nat) : Nat := mulLoop a b 256 0

theorem poly_mulMod (a b : Nat) (h : b < 2 ^ 256) (s : Xoshiro) : poly (mulMod a b) s = poly a (poly b s) := by
  rw [mulMod, poly_mulLoop, poly_zero, steps_zero, zero_xor, act_eq_poly _ _ h]

theorem mulMod_lt (a b : Nat) (ha : a < 2 ^ 256) : mulMod a b < 2 ^ 256 := mulLoop_lt _ _ _ _ ha (by decide)

/-- `x^(m * 2^k + e mod 2^k)` from `acc = x^m`. -/
def xPow (e : Nat) : Nat → Nat → Nat
  | 0, acc => acc
  | k + 1, acc => xPow e k (bif e.testBit k then mulX (mulMod acc acc) else mulMod acc acc)

theorem poly_xPow (e k acc m : Nat) (hacc : acc < 2 ^ 256) (h : ∀ s, poly acc s = Xoshiro.steps m s) (s : Xoshiro) :
    poly (xPow e k acc) s = Xoshiro.steps (m * 2 ^ k + e % 2 ^ k) s := by
  induction k generalizing acc m with
  | zero => rw [xPow, h]; simp [Nat.mod_one]
  | succ k ih =>
    rw [xPow]
    have hsq : ∀ s, poly (mulMod acc acc) s = Xoshiro.steps (m + m) s := by
      intro s
      rw [poly_mulMod _ _ hacc, h, h, steps_add]
    have hexp : e % 2 ^ (k + 1) = e % 2 ^ k + 2 ^ k * (e.testBit k).toNat := by
      rw [Nat.toNat_testBit, Nat.pow_succ, Nat.mod_mul]
    rw [hexp]
    cases e.testBit k with
    | false =>
      rw [cond_false, ih _ _ (mulMod_lt _ _ hacc) hsq]
      congr 1
      rw [Bool.toNat_false, Nat.pow_succ]
      generalize 2 ^ k = z
      rw [Nat.mul_zero, Nat.add_zero, Nat.add_mul, Nat.mul_comm z 2, ← Nat.mul_assoc, Nat.mul_comm m 2, Nat.mul_assoc]
      omega
    | true =>
      rw [cond_true, ih _ (m + m + 1) (mulX_lt _ (mulMod_lt _ _ hacc))]
      · congr 1
        rw [Bool.toNat_true, Nat.pow_succ]
        generalize 2 ^ k = z
        rw [Nat.mul_one, Nat.add_mul, Nat.add_mul, Nat.mul_comm z 2, ← Nat.mul_assoc m 2, Nat.mul_comm m 2, Nat.mul_assoc]
        omega
      · intro s
        rw [poly_mulX, hsq, steps_add (m + m) 1]
        rfl

theorem xPow_lt (e k acc : Nat) (hacc : acc < 2 ^ 256) : xPow e k acc < 2 ^ 256 := by
  induction k generalizing acc with
  | zero => rwa [xPow]
  | succ k ih =>
    rw [xPow]
    apply ih
    cases e.testBit k
    · rw [cond_false]
      exact mulMod_lt _ _ hacc
    · rw [cond_true]
      exact mulX_lt _ (mulMod_lt _ _ hacc)

/-! ## The loop of `jump` -/

/-- The polynomial whose coefficients are the bits of `jumps`. -/
def jumpPoly : Nat := 0x39abdc4529b1661ca9582618e03fc9aad5a61266f0c9392c180ec6d33cfd0aba

theorem jumpBit (w : BitVec 64) (b : Nat) (hb : b < 64) (x y : Xoshiro) :
    (if w &&& ((1 : BitVec 64) <<< b) ≠ 0 then x.xor y else x) = x.xor (sel (w.toNat.testBit b) y) := by
  have hw : w &&& unit b = bif w.getLsbD b then unit b else 0 := by
    apply BitVec.eq_of_getLsbD_eq
    intro i hi
    rw [BitVec.getLsbD_and, unit_bit b i hi]
    by_cases hin : i = b
    · subst hin
      cases h : w.getLsbD i
      · simp
      · simp [unit_bit i i hi]
    · cases h : w.getLsbD b
      · simp [hin]
      · simp [unit_bit b i hi, hin]
  have hne : unit b ≠ 0 := by
    intro h
    have h1 := unit_bit b b hb
    rw [h] at h1
    simp at h1
  change (if w &&& unit b ≠ 0 then x.xor y else x) = x.xor (sel (w.getLsbD b) y)
  rw [hw]
  cases w.getLsbD b
  · simp [sel, xor_zero]
  · rw [cond_true, if_pos hne]
    rfl

theorem jumpWord_spec (w : BitVec 64) (x s : Xoshiro) : jumpWord (x, s) w = (x.xor (act 64 w.toNat s), Xoshiro.steps 64 s) := by
  have key : ∀ n, n ≤ 64 → (List.range n).foldl (fun p b =>
      (if w &&& ((1 : BitVec 64) <<< b) ≠ 0 then p.1.xor p.2 else p.1, p.2.next.2)) (x, s) =
      (x.xor (act n w.toNat s), Xoshiro.steps n s) := by
    intro n
    induction n with
    | zero => intro _; simp [act, xor_zero, Xoshiro.steps]
    | succ n ih =>
      intro hn
      rw [List.range_succ, List.foldl_append, ih (by omega), List.foldl_cons, List.foldl_nil]
      rw [jumpBit w n (by omega), act_last, xor_assoc]
      congr 1
      rw [steps_add n 1]
      rfl
  exact key 64 (by omega)

theorem jump_act (s : Xoshiro) : s.jump = act 256 jumpPoly s := by
  rw [Xoshiro.jump, jumpWords]
  simp only [List.foldl_cons, List.foldl_nil, jumpWord_spec]
  have h0 : (⟨0, 0, 0, 0⟩ : Xoshiro) = zero := rfl
  rw [h0, zero_xor, show (256 : Nat) = 64 + (64 + (64 + 64)) from rfl, act_split, act_split, act_split]
  simp only [← Nat.shiftRight_add]
  simp only [xor_assoc]
  have c : ∀ (w : BitVec 64) (p : Nat) (s : Xoshiro), p % 2 ^ 64 = w.toNat → act 64 w.toNat s = act 64 p s := by
    intro w p s h
    apply act_congr
    intro i hi
    rw [← h, Nat.testBit_mod_two_pow]
    simp [hi]
  rw [c _ jumpPoly s (by decide +kernel), c _ (jumpPoly >>> 64) _ (by decide +kernel), c _ (jumpPoly >>> (64 + 64)) _ (by decide +kernel),
    c _ (jumpPoly >>> (64 + 64 + 64)) _ (by decide +kernel)]

theorem jump_poly (s : Xoshiro) : s.jump = poly jumpPoly s := by
  rw [jump_act, act_eq_poly _ _ (by decide)]

theorem poly_two (s : Xoshiro) : poly 2 s = Xoshiro.steps 1 s := by
  have h := poly_double 1 s
  rw [poly_one] at h
  exact h

theorem xPow_jump : xPow 0 128 2 = jumpPoly := by decide +kernel

theorem jump_steps (s : Xoshiro) : s.jump = Xoshiro.steps (2 ^ 128) s := by
  rw [jump_poly, ← xPow_jump, poly_xPow 0 128 2 1 (by decide) poly_two]

end ICPC.Xo
