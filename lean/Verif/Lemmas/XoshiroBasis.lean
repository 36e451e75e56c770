import Verif.Lemmas.Xoshiro

/-!
# The characteristic polynomial of xoshiro256**
-/

namespace ICPC.Xo

open Xoshiro

/-! ## The characteristic polynomial -/

/-- The characteristic polynomial of the state update. -/
def charPoly : Nat := 0x10003c03c3f3ecb1904b4edcf26259f850280002bcefd1a5e9d116f2bb0f0f001

/-- The word with bit `b` alone. -/
def unit (b : Nat) : BitVec 64 := (1 : BitVec 64) <<< b

theorem unit_bit (b i : Nat) (hi : i < 64) : (unit b).getLsbD i = decide (i = b) := by
  unfold unit
  rw [BitVec.getLsbD_shiftLeft]
  by_cases h : i < b
  · have : i ≠ b := by omega
    simp [h, this]
  · by_cases hin : i = b
    · subst hin
      simp [hi]
    · have h0 : i - b ≠ 0 := by omega
      simp [hi, hin, h, BitVec.getLsbD_one, h0]

theorem charPoly_basis0 : ∀ b ∈ List.range 64, act 257 charPoly ⟨unit b, 0, 0, 0⟩ = zero := by decide +kernel

theorem charPoly_basis1 : ∀ b ∈ List.range 64, act 257 charPoly ⟨0, unit b, 0, 0⟩ = zero := by decide +kernel

theorem charPoly_basis2 : ∀ b ∈ List.range 64, act 257 charPoly ⟨0, 0, unit b, 0⟩ = zero := by decide +kernel

theorem charPoly_basis3 : ∀ b ∈ List.range 64, act 257 charPoly ⟨0, 0, 0, unit b⟩ = zero := by decide +kernel

/-- An additive map which vanishes on the powers of two vanishes. -/
theorem linear_zero (f : BitVec 64 → Xoshiro) (hx : ∀ a b, f (a ^^^ b) = (f a).xor (f b)) (hb : ∀ b ∈ List.range 64, f (unit b) = zero)
    (v : BitVec 64) : f v = zero := by
  have h0 : f 0 = zero := by
    have h := hx 0 0
    rwa [xor_self, BitVec.xor_self] at h
  have key : ∀ n : Nat, n ≤ 64 → ∀ v : BitVec 64, (∀ i, n ≤ i → v.getLsbD i = false) → f v = zero := by
    intro n
    induction n with
    | zero =>
      intro _ v hv
      have : v = 0 := by
        apply BitVec.eq_of_getLsbD_eq
        intro i _
        rw [hv i (by omega)]
        simp
      rw [this, h0]
    | succ n ih =>
      intro hn v hv
      cases hbit : v.getLsbD n with
      | false =>
        apply ih (by omega)
        intro i hi
        rcases Nat.eq_or_lt_of_le hi with rfl | h
        · exact hbit
        · exact hv i h
      | true =>
        have hv' : v = unit n ^^^ (unit n ^^^ v) := by rw [← BitVec.xor_assoc, BitVec.xor_self, BitVec.zero_xor]
        rw [hv', hx, hb n (List.mem_range.2 (by omega)), zero_xor]
        apply ih (by omega)
        intro i hi
        have h1 : (unit n).getLsbD i = decide (i = n) := by
          by_cases h64 : i < 64
          · exact unit_bit n i h64
          · rw [BitVec.getLsbD_of_ge _ _ (by omega)]
            simp
            omega
        rw [BitVec.getLsbD_xor, h1]
        by_cases hin : i = n
        · simp [hin, hbit]
        · simp [hin, hv i (by omega)]
  exact key 64 (by omega) v (fun i hi => BitVec.getLsbD_of_ge _ _ hi)

theorem charPoly_zero (s : Xoshiro) : poly charPoly s = zero := by
  rw [← act_eq_poly 257 _ (by decide +kernel)]
  have h : s = (Xoshiro.mk s.s0 0 0 0).xor ((Xoshiro.mk 0 s.s1 0 0).xor ((Xoshiro.mk 0 0 s.s2 0).xor (Xoshiro.mk 0 0 0 s.s3))) := by
    ext1 <;> simp [Xoshiro.xor]
  rw [h, act_xor_state, act_xor_state, act_xor_state]
  rw [linear_zero (fun v => act 257 charPoly ⟨v, 0, 0, 0⟩) _ charPoly_basis0,
    linear_zero (fun v => act 257 charPoly ⟨0, v, 0, 0⟩) _ charPoly_basis1,
    linear_zero (fun v => act 257 charPoly ⟨0, 0, v, 0⟩) _ charPoly_basis2,
    linear_zero (fun v => act 257 charPoly ⟨0, 0, 0, v⟩) _ charPoly_basis3]
  · rfl
  all_goals
    intro a b
    rw [← act_xor_state]
    simp [Xoshiro.xor]

end ICPC.Xo
