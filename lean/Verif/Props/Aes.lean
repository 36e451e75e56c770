import Verif.Lemmas.AesBij

/-!
# C59 and C60: AES-256 and the generator on top of it
-/

namespace ICPC.Props

open ICPC ICPC.Aes Spec

/-! ## C59 -/

/-- **C59.** The block function is the AES-256 cipher of FIPS 197, for every key and every block. -/
theorem C59_fips197 (key : Key) (b : Block) (p : Fin 16) :
    (encrypt key b)[p] = Fips197.cipher (fun p => key[p]) (fun p => b[p]) p := encrypt_eq key b p

/-- **C59, tables.** The substitution box and all multiplication tables, used or not. -/
theorem C59_tables : (∀ x, sbox x = Fips197.S x) ∧
    ∀ k ∈ [2, 3, 9, 11, 13, 14], ∀ x : Byte, (gfMulTable k).getD x.toNat 0 = Fips197.gmul (BitVec.ofNat 8 k) x :=
  ⟨sbox_eq, gf_table⟩

/-- **C59, bijection.** -/
theorem C59_bijective (key : Key) : Function.Bijective (encrypt key) := encrypt_bijective key

/-- The inverses used to specify the substitution box are inverses. -/
theorem C59_inverse (x : Byte) (hx : x ≠ 0) : Fips197.gmul x (Fips197.inverse x) = 1 := by
  have := byte_forall (fun x => x == 0 || Fips197.gmul x (Fips197.inverse x) == 1) (by decide +kernel) x
  simp only [Bool.or_eq_true, beq_iff_eq] at this
  exact this.resolve_left hx

/-- The example vector of FIPS 197, appendix C.3. -/
example : (encrypt (Vector.ofFn fun i => BitVec.ofNat 8 i.1) (Vector.ofFn fun i => BitVec.ofNat 8 (17 * i.1))).toList =
    [0x8e, 0xa2, 0xb7, 0xca, 0x51, 0x67, 0x45, 0xbf, 0xea, 0xfc, 0x49, 0x90, 0x4b, 0x49, 0x60, 0x89] := by decide +kernel

/-- The last round key of the example of appendix A.3. -/
example : (roundKey (expandKey #v[0x60, 0x3d, 0xeb, 0x10, 0x15, 0xca, 0x71, 0xbe, 0x2b, 0x73, 0xae, 0xf0, 0x85, 0x7d, 0x77, 0x81,
    0x1f, 0x35, 0x2c, 0x07, 0x3b, 0x61, 0x08, 0xd7, 0x2d, 0x98, 0x10, 0xa3, 0x09, 0x14, 0xdf, 0xf4]) 14).toList =
    [0xfe, 0x48, 0x90, 0xd1, 0xe6, 0x18, 0x8d, 0x0b, 0x04, 0x6d, 0xf3, 0x44, 0x70, 0x6c, 0x63, 0x1e] := by decide +kernel

/-- The products of FIPS 197, section 4.2. -/
example : Fips197.gmul 0x57 0x83 = 0xc1 ∧ Fips197.gmul 0x57 0x13 = 0xfe ∧ Fips197.S 0x53 = 0xed := by decide +kernel

/-! ## C60 -/

/-- The generator after `k` calls. -/
def rngAfter (r : Rng) (k : Nat) : Rng := (fun r : Rng => r.next.2)^[k] r

/-- **C60, counter.** After `k` calls the counter block is `start + k` modulo `2^128`, least significant byte first, and the key is
unchanged. -/
theorem C60_counter (r : Rng) (k : Nat) :
    Fips197.littleEndian (rngAfter r k).iv.toList = (Fips197.littleEndian r.iv.toList + k) % 2 ^ 128 ∧ (rngAfter r k).key = r.key := by
  induction k with
  | zero =>
    have := Aes.littleEndian_lt r.iv.toList
    rw [Vector.length_toList] at this
    exact ⟨(Nat.mod_eq_of_lt this).symm, rfl⟩
  | succ k ih =>
    have hstep : rngAfter r (k + 1) = (rngAfter r k).next.2 := Function.iterate_succ_apply' _ _ _
    rw [hstep]
    refine ⟨?_, ih.2⟩
    show Fips197.littleEndian (increment (rngAfter r k).iv).toList = _
    rw [increment_value, ih.1, Nat.mod_add_mod]
    rfl

/-- **C60, no repetition.** No cipher input repeats within `2^128` calls, and neither does a cipher text. -/
theorem C60_distinct (r : Rng) (i j : Nat) (h : i < j) (hj : j < i + 2 ^ 128) :
    (rngAfter r i).iv ≠ (rngAfter r j).iv ∧ encrypt r.key (rngAfter r i).iv ≠ encrypt r.key (rngAfter r j).iv := by
  have h1 : (rngAfter r i).iv ≠ (rngAfter r j).iv := by
    intro he
    have := (C60_counter r i).1
    rw [he, (C60_counter r j).1] at this
    omega
  exact ⟨h1, fun he => h1 (encrypt_injective _ he)⟩

/-- **C60, wrap-around.** After exactly `2^128` calls the generator is back at its start. -/
theorem C60_period (r : Rng) : (rngAfter r (2 ^ 128)).iv = r.iv := by
  apply block_eq
  rw [(C60_counter r _).1, Nat.add_mod_right, Nat.mod_eq_of_lt]
  have := Aes.littleEndian_lt r.iv.toList
  rwa [Vector.length_toList] at this

/-- **C60, seeds.** Different seeds start at different blocks. -/
theorem C60_seeds (s t : BitVec 64) (h : s ≠ t) : (Rng.ofSeed s).iv ≠ (Rng.ofSeed t).iv := by
  intro he
  apply h
  apply BitVec.eq_of_getLsbD_eq
  intro m hm
  have h1 : (Rng.ofSeed s).iv[m / 8]'(by omega) = (Rng.ofSeed t).iv[m / 8]'(by omega) := by simp [he]
  simp only [Rng.ofSeed, Vector.getElem_ofFn] at h1
  rw [if_pos (by omega), if_pos (by omega)] at h1
  have h2 := congrArg (fun v : BitVec 8 => v.getLsbD (m % 8)) ((BitVec.xor_right_inj _).1 h1)
  simp only [BitVec.getLsbD_setWidth, BitVec.getLsbD_ushiftRight] at h2
  have e : m / 8 * 8 + m % 8 = m := by omega
  rw [e] at h2
  have hlt : m % 8 < 8 := by omega
  simpa [hlt] using h2

/-- A carry through ten bytes, and the wrap-around. -/
example : (increment #v[255, 255, 255, 255, 255, 255, 255, 255, 255, 255, 7, 0, 0, 0, 0, 0]).toList =
    [0, 0, 0, 0, 0, 0, 0, 0, 0, 0, 8, 0, 0, 0, 0, 0] ∧
    (increment (Vector.replicate 16 255)).toList = List.replicate 16 0 ∧
    (increment #v[0, 255, 0, 0, 0, 0, 0, 0, 0, 0, 0, 0, 0, 0, 0, 0]).toList = [1, 255, 0, 0, 0, 0, 0, 0, 0, 0, 0, 0, 0, 0, 0, 0] := by
  decide +kernel

end ICPC.Props
