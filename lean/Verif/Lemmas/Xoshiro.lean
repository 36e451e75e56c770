import Verif.Model.Xoshiro

/-!
# Linear algebra of xoshiro256**

Polynomials over GF(2) are natural numbers (bit `i` is the coefficient of `x^i`). `act n p s` is the polynomial `p`
cut to its low `n` coefficients, evaluated at the state update and applied to `s`.
-/

namespace ICPC

/-- The all-zero state. -/
def Xoshiro.zero : Xoshiro := { s0 := 0, s1 := 0, s2 := 0, s3 := 0 }

namespace Xoshiro

theorem xor_comm (a b : Xoshiro) : a.xor b = b.xor a := by
  ext1 <;> exact BitVec.xor_comm _ _

theorem xor_assoc (a b c : Xoshiro) : (a.xor b).xor c = a.xor (b.xor c) := by
  ext1 <;> exact BitVec.xor_assoc _ _ _

theorem xor_self (a : Xoshiro) : a.xor a = zero := by
  ext1 <;> exact BitVec.xor_self

theorem xor_zero (a : Xoshiro) : a.xor zero = a := by
  ext1 <;> exact BitVec.xor_zero

theorem zero_xor (a : Xoshiro) : zero.xor a = a := by rw [xor_comm, xor_zero]

theorem xor_left_comm (a b c : Xoshiro) : a.xor (b.xor c) = b.xor (a.xor c) := by
  rw [← xor_assoc, xor_comm a b, xor_assoc]

theorem xor_cancel (a b : Xoshiro) : a.xor (a.xor b) = b := by rw [← xor_assoc, xor_self, zero_xor]

theorem eq_of_xor_zero {a b : Xoshiro} (h : a.xor b = zero) : a = b := by
  have := xor_cancel a b
  rw [h, xor_zero] at this
  exact this

end Xoshiro

namespace Xo

open Xoshiro

theorem rotateLeft_xor (a b : BitVec 64) (k : Nat) : rotateLeft (a ^^^ b) k = rotateLeft a k ^^^ rotateLeft b k := by
  unfold rotateLeft
  ext i hi
  simp only [BitVec.getElem_or, BitVec.getElem_xor, BitVec.getElem_shiftLeft, BitVec.getElem_ushiftRight]
  by_cases h : i < k
  · simp [h]
  · have : 64 ≤ 64 - k + i := by omega
    simp [h, BitVec.getLsbD_of_ge _ _ this]

/-- The state update alone. -/
def T (s : Xoshiro) : Xoshiro := s.next.2

theorem T_xor (a b : Xoshiro) : T (a.xor b) = (T a).xor (T b) := by
  simp only [T, Xoshiro.next, Xoshiro.xor, BitVec.shiftLeft_xor_distrib]
  rw [← rotateLeft_xor]
  generalize a.s1 <<< 17 = u
  generalize b.s1 <<< 17 = v
  have h3 : a.s3 ^^^ b.s3 ^^^ (a.s1 ^^^ b.s1) = a.s3 ^^^ a.s1 ^^^ (b.s3 ^^^ b.s1) := by ac_rfl
  rw [h3]
  congr 1 <;> ac_rfl

theorem T_zero : T zero = zero := by decide +kernel

theorem steps_succ (n : Nat) (s : Xoshiro) : Xoshiro.steps (n + 1) s = Xoshiro.steps n (T s) := rfl

theorem steps_add (n m : Nat) (s : Xoshiro) : Xoshiro.steps (n + m) s = Xoshiro.steps m (Xoshiro.steps n s) := by
  induction n generalizing s with
  | zero => simp [Xoshiro.steps]
  | succ n ih => rw [Nat.succ_add, steps_succ, steps_succ, ih]

theorem steps_T (n : Nat) (s : Xoshiro) : Xoshiro.steps n (T s) = T (Xoshiro.steps n s) := by
  rw [← steps_succ, steps_add]
  rfl

theorem steps_xor (n : Nat) (a b : Xoshiro) : Xoshiro.steps n (a.xor b) = (Xoshiro.steps n a).xor (Xoshiro.steps n b) := by
  induction n generalizing a b with
  | zero => rfl
  | succ n ih => rw [steps_succ, T_xor, ih, steps_succ, steps_succ]

theorem steps_zero (n : Nat) : Xoshiro.steps n zero = zero := by
  induction n with
  | zero => rfl
  | succ n ih => rw [steps_succ, T_zero, ih]

/-- A polynomial applied to a state. -/
def act : Nat → Nat → Xoshiro → Xoshiro
  | 0, _, _ => zero
  | n + 1, p, s => bif p.testBit 0 then s.xor (act n (p >>> 1) s.next.2) else act n (p >>> 1) s.next.2

/-- `s` or zero. -/
def sel (b : Bool) (s : Xoshiro) : Xoshiro := bif b then s else zero

theorem sel_xor (b : Bool) (s t : Xoshiro) : sel b (s.xor t) = (sel b s).xor (sel b t) := by
  cases b
  · exact (xor_zero _).symm
  · rfl

theorem sel_bxor (b c : Bool) (s : Xoshiro) : sel (b ^^ c) s = (sel b s).xor (sel c s) := by
  cases b <;> cases c
  · exact (xor_zero _).symm
  · exact (zero_xor _).symm
  · exact (xor_zero _).symm
  · exact (xor_self _).symm

theorem sel_T (b : Bool) (s : Xoshiro) : sel b (T s) = T (sel b s) := by
  cases b
  · exact T_zero.symm
  · rfl

theorem act_succ (n p : Nat) (s : Xoshiro) : act (n + 1) p s = (sel (p.testBit 0) s).xor (act n (p >>> 1) (T s)) := by
  rw [act]
  cases p.testBit 0
  · exact (zero_xor _).symm
  · rfl

theorem act_congr (n p q : Nat) (s : Xoshiro) (h : ∀ i, i < n → p.testBit i = q.testBit i) : act n p s = act n q s := by
  induction n generalizing p q s with
  | zero => rfl
  | succ n ih =>
    rw [act_succ, act_succ, h 0 (by omega), ih (p >>> 1) (q >>> 1)]
    intro i hi
    rw [Nat.testBit_shiftRight, Nat.testBit_shiftRight]
    exact h _ (by omega)

theorem act_split (n m p : Nat) (s : Xoshiro) : act (n + m) p s = (act n p s).xor (act m (p >>> n) (Xoshiro.steps n s)) := by
  induction n generalizing p s with
  | zero => simp [act, zero_xor, Xoshiro.steps]
  | succ n ih =>
    rw [Nat.succ_add, act_succ, ih, act_succ, xor_assoc, steps_succ, ← Nat.shiftRight_add, Nat.add_comm 1 n]

theorem act_last (n p : Nat) (s : Xoshiro) : act (n + 1) p s = (act n p s).xor (sel (p.testBit n) (Xoshiro.steps n s)) := by
  rw [act_split, act_succ, Nat.testBit_shiftRight]
  simp [act, xor_zero]

theorem act_xor_state (n p : Nat) (a b : Xoshiro) : act n p (a.xor b) = (act n p a).xor (act n p b) := by
  induction n with
  | zero => exact (xor_zero _).symm
  | succ n ih =>
    rw [act_last, act_last, act_last, ih, steps_xor, sel_xor]
    simp only [xor_assoc]
    rw [xor_left_comm (act n p b)]

theorem act_xor (n p q : Nat) (s : Xoshiro) : act n (p ^^^ q) s = (act n p s).xor (act n q s) := by
  induction n with
  | zero => exact (xor_zero _).symm
  | succ n ih =>
    rw [act_last, act_last, act_last, ih, Nat.testBit_xor, sel_bxor]
    simp only [xor_assoc]
    rw [xor_left_comm (act n q s)]

theorem act_zero_state (n p : Nat) : act n p zero = zero := by
  have h := act_xor_state n p zero zero
  rwa [xor_self, xor_self] at h

theorem act_zero (n : Nat) (s : Xoshiro) : act n 0 s = zero := by
  have h := act_xor n 0 0 s
  rwa [Nat.xor_self, xor_self] at h

theorem act_T (n p : Nat) (s : Xoshiro) : act n p (T s) = T (act n p s) := by
  induction n with
  | zero => exact T_zero.symm
  | succ n ih => rw [act_last, act_last, ih, T_xor, steps_T, sel_T]

theorem act_steps (n p m : Nat) (s : Xoshiro) : act n p (Xoshiro.steps m s) = Xoshiro.steps m (act n p s) := by
  induction m generalizing s with
  | zero => rfl
  | succ m ih => rw [steps_succ, ih, act_T, steps_succ]

theorem act_mono (n k p : Nat) (h : p < 2 ^ n) (s : Xoshiro) : act (n + k) p s = act n p s := by
  rw [act_split, Nat.shiftRight_eq_zero _ _ h, act_zero, xor_zero]

/-- The polynomial `p` applied to `s`. -/
def poly (p : Nat) (s : Xoshiro) : Xoshiro := act p p s

theorem act_eq_poly (n p : Nat) (h : p < 2 ^ n) (s : Xoshiro) : act n p s = poly p s := by
  have h1 := act_mono n p p h s
  have h2 := act_mono p n p Nat.lt_two_pow_self s
  rw [Nat.add_comm] at h2
  rw [← h1, h2, poly]

theorem poly_xor_state (p : Nat) (a b : Xoshiro) : poly p (a.xor b) = (poly p a).xor (poly p b) := act_xor_state _ _ _ _

theorem poly_zero_state (p : Nat) : poly p zero = zero := act_zero_state _ _

theorem poly_zero (s : Xoshiro) : poly 0 s = zero := rfl

theorem poly_one (s : Xoshiro) : poly 1 s = s := by
  rw [poly, act_succ]
  exact xor_zero s

theorem poly_T (p : Nat) (s : Xoshiro) : poly p (T s) = T (poly p s) := act_T _ _ _

theorem poly_steps (p m : Nat) (s : Xoshiro) : poly p (Xoshiro.steps m s) = Xoshiro.steps m (poly p s) := act_steps _ _ _ _

theorem poly_xor (p q : Nat) (s : Xoshiro) : poly (p ^^^ q) s = (poly p s).xor (poly q s) := by
  have hp : p < 2 ^ (p + q) := Nat.lt_of_lt_of_le Nat.lt_two_pow_self (Nat.pow_le_pow_right (by omega) (by omega))
  have hq : q < 2 ^ (p + q) := Nat.lt_of_lt_of_le Nat.lt_two_pow_self (Nat.pow_le_pow_right (by omega) (by omega))
  rw [← act_eq_poly (p + q) _ (Nat.xor_lt_two_pow hp hq), act_xor, act_eq_poly _ _ hp, act_eq_poly _ _ hq]

theorem poly_double (p : Nat) (s : Xoshiro) : poly (p <<< 1) s = T (poly p s) := by
  have hp : p < 2 ^ p := Nat.lt_two_pow_self
  have h2 : p <<< 1 < 2 ^ (p + 1) := by
    rw [Nat.shiftLeft_eq, Nat.pow_succ]
    omega
  rw [← act_eq_poly (p + 1) _ h2, act_succ, Nat.shiftLeft_shiftRight, act_T]
  have : (p <<< 1).testBit 0 = false := by
    rw [Nat.testBit_shiftLeft]
    simp
  rw [this]
  exact zero_xor _

theorem poly_bit (p n k : Nat) (s : Xoshiro) : poly (p * ((n >>> k) &&& 1)) s = sel (n.testBit k) (poly p s) := by
  rw [Nat.testBit, Nat.and_comm]
  rcases Nat.mod_two_eq_zero_or_one (n >>> k) with h | h
  · have : 1 &&& n >>> k = 0 := by rw [Nat.and_comm, Nat.and_one_is_mod, h]
    rw [this]
    rfl
  · have : 1 &&& n >>> k = 1 := by rw [Nat.and_comm, Nat.and_one_is_mod, h]
    rw [this, Nat.mul_one]
    rfl

end Xo

end ICPC
