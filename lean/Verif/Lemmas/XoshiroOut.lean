import Verif.Lemmas.XoshiroPeriod

/-!
# What the outputs of xoshiro256** say about its state
-/

namespace ICPC.Xo

/-- The output as a function of the second word. -/
def scramble (x : BitVec 64) : BitVec 64 := rotateLeft (x * 5) 7 * 9

theorem next_fst (s : Xoshiro) : s.next.1 = scramble s.s1 := rfl

theorem rotate_rotate (x : BitVec 64) (k : Nat) (h0 : 0 < k) (h : k < 64) : rotateLeft (rotateLeft x k) (64 - k) = x := by
  apply BitVec.eq_of_getLsbD_eq
  intro i hi
  simp only [rotateLeft, BitVec.getLsbD_or, BitVec.getLsbD_shiftLeft, BitVec.getLsbD_ushiftRight]
  rcases Nat.lt_or_ge i (64 - k) with h1 | h1
  · have e : 64 - (64 - k) + i = k + i := by omega
    have e2 : k + i - k = i := by omega
    have e3 : k + i < 64 := by omega
    have e4 : ¬ k + i < k := by omega
    rw [e]
    simp only [h1, hi, e2, e3, e4, decide_true, decide_false, Bool.not_true, Bool.and_false, Bool.false_and, Bool.false_or, Bool.not_false,
      Bool.true_and]
    rw [BitVec.getLsbD_of_ge x (64 - k + (k + i)) (by omega), Bool.or_false]
  · have e : 64 - k + (i - (64 - k)) = i := by omega
    have e1 : ¬ i < 64 - k := by omega
    have e2 : i - (64 - k) < k := by omega
    have e3 : ¬ 64 - (64 - k) + i < 64 := by omega
    simp only [e, e1, e2, e3, hi, decide_true, decide_false, Bool.not_true, Bool.and_false, Bool.false_and, Bool.false_or, Bool.not_false,
      Bool.true_and]
    rw [BitVec.getLsbD_of_ge x (64 - k + (64 - (64 - k) + i)) (by omega), Bool.or_false]

theorem rotate_injective (k : Nat) (h0 : 0 < k) (h : k < 64) (x y : BitVec 64) (e : rotateLeft x k = rotateLeft y k) : x = y := by
  rw [← rotate_rotate x k h0 h, e, rotate_rotate y k h0 h]

theorem rotate_rotate' (x : BitVec 64) (k : Nat) (h0 : 0 < k) (h : k < 64) : rotateLeft (rotateLeft x (64 - k)) k = x := by
  have := rotate_rotate x (64 - k) (by omega) (by omega)
  rwa [show 64 - (64 - k) = k by omega] at this

/-- The inverse of `scramble`. -/
def unscramble (y : BitVec 64) : BitVec 64 := rotateLeft (y * 0x8E38E38E38E38E39#64) 57 * 0xCCCCCCCCCCCCCCCD#64

theorem unscramble_scramble (x : BitVec 64) : unscramble (scramble x) = x := by
  rw [unscramble, scramble, BitVec.mul_assoc _ 9, show (9 : BitVec 64) * 0x8E38E38E38E38E39#64 = 1#64 from by decide +kernel, BitVec.mul_one,
    rotate_rotate _ 7 (by decide) (by decide), BitVec.mul_assoc, show (5 : BitVec 64) * 0xCCCCCCCCCCCCCCCD#64 = 1#64 from by decide +kernel,
    BitVec.mul_one]

theorem scramble_unscramble (y : BitVec 64) : scramble (unscramble y) = y := by
  rw [unscramble, scramble, BitVec.mul_assoc _ _ 5, show (0xCCCCCCCCCCCCCCCD#64 : BitVec 64) * 5 = 1#64 from by decide +kernel, BitVec.mul_one,
    rotate_rotate' _ 7 (by decide) (by decide), BitVec.mul_assoc, show (0x8E38E38E38E38E39#64 : BitVec 64) * 9 = 1#64 from by decide +kernel,
    BitVec.mul_one]

theorem scramble_zero : scramble 0 = 0 := by decide +kernel

theorem xor_left_cancel {a b c : BitVec 64} (h : a ^^^ b = a ^^^ c) : b = c := by
  have := congrArg (a ^^^ ·) h
  simpa [← BitVec.xor_assoc] using this

theorem xor_right_cancel {a b c : BitVec 64} (h : b ^^^ a = c ^^^ a) : b = c := by
  rw [BitVec.xor_comm b, BitVec.xor_comm c] at h
  exact xor_left_cancel h

/-- Four consecutive values of the second word determine the state. -/
theorem s1_determine (s t : Xoshiro) (h0 : s.s1 = t.s1) (h1 : (T s).s1 = (T t).s1) (h2 : (T (T s)).s1 = (T (T t)).s1)
    (h3 : (T (T (T s))).s1 = (T (T (T t))).s1) : s = t := by
  have es1 : ∀ u : Xoshiro, (T u).s1 = u.s1 ^^^ (u.s2 ^^^ u.s0) := fun u => rfl
  have es2 : ∀ u : Xoshiro, (T u).s2 = (u.s2 ^^^ u.s0) ^^^ (u.s1 <<< 17) := fun u => rfl
  have es0 : ∀ u : Xoshiro, (T u).s0 = u.s0 ^^^ (u.s3 ^^^ u.s1) := fun u => rfl
  have es3 : ∀ u : Xoshiro, (T u).s3 = rotateLeft (u.s3 ^^^ u.s1) 45 := fun u => rfl
  -- `s2 ^ s0` is known after two outputs
  have k1 : ∀ a b : Xoshiro, a.s1 = b.s1 → (T a).s1 = (T b).s1 → a.s2 ^^^ a.s0 = b.s2 ^^^ b.s0 := by
    intro a b ha hb
    rw [es1, es1, ha] at hb
    exact xor_left_cancel hb
  -- so is the third word of the next state
  have k2 : ∀ a b : Xoshiro, a.s1 = b.s1 → (T a).s1 = (T b).s1 → (T a).s2 = (T b).s2 := by
    intro a b ha hb
    rw [es2, es2, k1 a b ha hb, ha]
  have a2 := k2 s t h0 h1
  have b2 := k2 _ _ h1 h2
  -- first words
  have a0 : (T s).s0 = (T t).s0 := by
    have := k1 _ _ h1 h2
    rw [a2] at this
    exact xor_left_cancel this
  have b0 : (T (T s)).s0 = (T (T t)).s0 := by
    have := k1 _ _ h2 h3
    rw [b2] at this
    exact xor_left_cancel this
  -- fourth word of the next state
  have a3 : (T s).s3 = (T t).s3 := by
    rw [es0 (T s), es0 (T t), a0, h1] at b0
    exact xor_right_cancel (xor_left_cancel b0)
  have hT : T s = T t := by
    apply Xoshiro.ext a0 h1 a2 a3
  have := congrArg (poly invPoly) hT
  rwa [inv_T, inv_T] at this

end ICPC.Xo
