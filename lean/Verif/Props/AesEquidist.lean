import Verif.Props.Aes
import Mathlib.SetTheory.Cardinal.Finite
import Mathlib.Data.Fintype.BigOperators
import Mathlib.Tactic.IntervalCases
import Mathlib.Data.FinEnum

/-!
# C96: the words of `AES_RNG` are equally frequent
-/

namespace ICPC.Props
open ICPC ICPC.Aes Spec

/-- The first eight bytes of a block, changed by a word. -/
def translate (w : BitVec 64) (b : Block) : Block :=
  Vector.ofFn fun i => if i.1 < 8 then b[i] ^^^ (w >>> (8 * i.1)).setWidth 8 else b[i]

theorem fold_terms (b : Block) : fold b = b[0].setWidth 64 ^^^ (b[1].setWidth 64 <<< 8) ^^^ (b[2].setWidth 64 <<< 16) ^^^ (b[3].setWidth 64 <<< 24) ^^^
    (b[4].setWidth 64 <<< 32) ^^^ (b[5].setWidth 64 <<< 40) ^^^ (b[6].setWidth 64 <<< 48) ^^^ (b[7].setWidth 64 <<< 56) ^^^
    b[8].setWidth 64 ^^^ (b[9].setWidth 64 <<< 8) ^^^ (b[10].setWidth 64 <<< 16) ^^^ (b[11].setWidth 64 <<< 24) ^^^
    (b[12].setWidth 64 <<< 32) ^^^ (b[13].setWidth 64 <<< 40) ^^^ (b[14].setWidth 64 <<< 48) ^^^ (b[15].setWidth 64 <<< 56) := by
  unfold fold
  simp [List.finRange, List.ofFn_succ, Vector.get]

theorem word_bytes (w : BitVec 64) : (w.setWidth 8).setWidth 64 ^^^ (((w >>> 8).setWidth 8).setWidth 64 <<< 8) ^^^
    (((w >>> 16).setWidth 8).setWidth 64 <<< 16) ^^^ (((w >>> 24).setWidth 8).setWidth 64 <<< 24) ^^^
    (((w >>> 32).setWidth 8).setWidth 64 <<< 32) ^^^ (((w >>> 40).setWidth 8).setWidth 64 <<< 40) ^^^
    (((w >>> 48).setWidth 8).setWidth 64 <<< 48) ^^^ (((w >>> 56).setWidth 8).setWidth 64 <<< 56) = w := by
  apply BitVec.eq_of_getLsbD_eq
  intro m hm
  simp only [BitVec.getLsbD_xor, BitVec.getLsbD_shiftLeft, BitVec.getLsbD_setWidth, BitVec.getLsbD_ushiftRight]
  interval_cases m <;> simp

theorem fold_translate (w : BitVec 64) (b : Block) : fold (translate w b) = fold b ^^^ w := by
  have t0 : (translate w b)[0] = b[0] ^^^ w.setWidth 8 := by simp [translate]
  have t1 : (translate w b)[1] = b[1] ^^^ (w >>> 8).setWidth 8 := by simp [translate]
  have t2 : (translate w b)[2] = b[2] ^^^ (w >>> 16).setWidth 8 := by simp [translate]
  have t3 : (translate w b)[3] = b[3] ^^^ (w >>> 24).setWidth 8 := by simp [translate]
  have t4 : (translate w b)[4] = b[4] ^^^ (w >>> 32).setWidth 8 := by simp [translate]
  have t5 : (translate w b)[5] = b[5] ^^^ (w >>> 40).setWidth 8 := by simp [translate]
  have t6 : (translate w b)[6] = b[6] ^^^ (w >>> 48).setWidth 8 := by simp [translate]
  have t7 : (translate w b)[7] = b[7] ^^^ (w >>> 56).setWidth 8 := by simp [translate]
  have t8 : (translate w b)[8] = b[8] := by simp [translate]
  have t9 : (translate w b)[9] = b[9] := by simp [translate]
  have t10 : (translate w b)[10] = b[10] := by simp [translate]
  have t11 : (translate w b)[11] = b[11] := by simp [translate]
  have t12 : (translate w b)[12] = b[12] := by simp [translate]
  have t13 : (translate w b)[13] = b[13] := by simp [translate]
  have t14 : (translate w b)[14] = b[14] := by simp [translate]
  have t15 : (translate w b)[15] = b[15] := by simp [translate]
  have hw := word_bytes w
  rw [fold_terms, fold_terms, t0, t1, t2, t3, t4, t5, t6, t7, t8, t9, t10, t11, t12, t13, t14, t15]
  simp only [BitVec.setWidth_xor, BitVec.shiftLeft_xor_distrib]
  generalize (w.setWidth 8).setWidth 64 = w0 at hw
  generalize ((w >>> 8).setWidth 8).setWidth 64 <<< 8 = w1 at hw
  generalize ((w >>> 16).setWidth 8).setWidth 64 <<< 16 = w2 at hw
  generalize ((w >>> 24).setWidth 8).setWidth 64 <<< 24 = w3 at hw
  generalize ((w >>> 32).setWidth 8).setWidth 64 <<< 32 = w4 at hw
  generalize ((w >>> 40).setWidth 8).setWidth 64 <<< 40 = w5 at hw
  generalize ((w >>> 48).setWidth 8).setWidth 64 <<< 48 = w6 at hw
  generalize ((w >>> 56).setWidth 8).setWidth 64 <<< 56 = w7 at hw
  rw [← hw]
  generalize b[0].setWidth 64 = b0
  generalize b[1].setWidth 64 <<< 8 = b1
  generalize b[2].setWidth 64 <<< 16 = b2
  generalize b[3].setWidth 64 <<< 24 = b3
  generalize b[4].setWidth 64 <<< 32 = b4
  generalize b[5].setWidth 64 <<< 40 = b5
  generalize b[6].setWidth 64 <<< 48 = b6
  generalize b[7].setWidth 64 <<< 56 = b7
  generalize b[8].setWidth 64 = b8
  generalize b[9].setWidth 64 <<< 8 = b9
  generalize b[10].setWidth 64 <<< 16 = b10
  generalize b[11].setWidth 64 <<< 24 = b11
  generalize b[12].setWidth 64 <<< 32 = b12
  generalize b[13].setWidth 64 <<< 40 = b13
  generalize b[14].setWidth 64 <<< 48 = b14
  generalize b[15].setWidth 64 <<< 56 = b15
  ac_rfl

theorem translate_translate (w : BitVec 64) (b : Block) : translate w (translate w b) = b := by
  apply Vector.ext
  intro i hi
  simp only [translate, Vector.getElem_ofFn, Fin.getElem_fin]
  by_cases h : i < 8
  · rw [if_pos h, if_pos h, BitVec.xor_assoc, BitVec.xor_self]; simp
  · rw [if_neg h, if_neg h]

/-- All words are the folding of equally many blocks. -/
theorem fibre_card (v : BitVec 64) : Nat.card {b : Block // fold b = v} = Nat.card {b : Block // fold b = 0} := by
  refine Nat.card_congr ⟨fun b => ⟨translate v b.1, by rw [fold_translate, b.2]; exact BitVec.xor_self⟩,
    fun b => ⟨translate v b.1, by rw [fold_translate, b.2]; exact BitVec.zero_xor⟩, fun b => ?_, fun b => ?_⟩
  · exact Subtype.ext (translate_translate v b.1)
  · exact Subtype.ext (translate_translate v b.1)

/-- The cipher text of call `n`. -/
def cipherText (r : Rng) (n : Fin (2 ^ 128)) : Block := encrypt r.key (rngAfter r (n.1 + 1)).iv

theorem next_value (r : Rng) (n : Nat) : (rngAfter r n).next.1 = fold (encrypt r.key (rngAfter r (n + 1)).iv) := by
  have h : rngAfter r (n + 1) = (rngAfter r n).next.2 := Function.iterate_succ_apply' _ _ _
  rw [h, ← (C60_counter r n).2]
  rfl

theorem mod_shift {M s t : Nat} (hM : 0 < M) (hs : s < M) (ht : t < M) : (s + ((t + (M - s) + (M - 1)) % M + 1)) % M = t := by
  rw [show s + ((t + (M - s) + (M - 1)) % M + 1) = (s + 1) + (t + (M - s) + (M - 1)) % M by omega, Nat.add_mod_mod,
    show s + 1 + (t + (M - s) + (M - 1)) = t + M * 2 by omega, Nat.add_mul_mod_self_left, Nat.mod_eq_of_lt ht]

theorem cipherText_bijective (r : Rng) : Function.Bijective (cipherText r) := by
  constructor
  · intro i j h
    have h := encrypt_injective _ h
    by_contra hne
    rcases Nat.lt_or_gt_of_ne (fun e => hne (Fin.ext e)) with hlt | hlt
    · exact (C60_distinct r (i.1 + 1) (j.1 + 1) (by omega) (by have := j.2; omega)).1 h
    · exact (C60_distinct r (j.1 + 1) (i.1 + 1) (by omega) (by have := i.2; omega)).1 h.symm
  · intro b
    obtain ⟨c, rfl⟩ := (encrypt_bijective r.key).2 b
    have l1 := Aes.littleEndian_lt r.iv.toList
    have l2 := Aes.littleEndian_lt c.toList
    rw [Vector.length_toList] at l1 l2
    set s := Fips197.littleEndian r.iv.toList
    set t := Fips197.littleEndian c.toList with ht
    have e256 : (256 : Nat) ^ 16 = 2 ^ 128 := by norm_num
    rw [e256] at l1 l2
    have hpos : 0 < 2 ^ 128 := by norm_num
    obtain ⟨k, hk⟩ : ∃ k, k = (t + (2 ^ 128 - s) + (2 ^ 128 - 1)) % 2 ^ 128 := ⟨_, rfl⟩
    have hval : (s + (k + 1)) % 2 ^ 128 = t := by rw [hk]; exact mod_shift hpos l1 l2
    refine ⟨⟨k, by rw [hk]; exact Nat.mod_lt _ hpos⟩, ?_⟩
    show encrypt r.key (rngAfter r (k + 1)).iv = _
    rw [block_eq (rngAfter r (k + 1)).iv c ((C60_counter r (k + 1)).1.trans hval)]

/-- **C96.** Among any `2^128` consecutive calls of `AES_RNG` every 64-bit word is returned exactly `2^64` times, for every
key and every counter. -/
theorem C96_equidistributed (r : Rng) (v : BitVec 64) : Nat.card {n : Fin (2 ^ 128) // (rngAfter r n.1).next.1 = v} = 2 ^ 64 := by
  have hfin : Finite Block := Finite.of_surjective _ (cipherText_bijective r).2
  have hcard : Nat.card Block = 2 ^ 128 := by
    rw [← Nat.card_eq_of_bijective _ (cipherText_bijective r), Nat.card_fin]
  have h1 : Nat.card {n : Fin (2 ^ 128) // (rngAfter r n.1).next.1 = v} = Nat.card {b : Block // fold b = v} := by
    refine Nat.card_congr ((Equiv.ofBijective _ (cipherText_bijective r)).subtypeEquiv fun n => ?_)
    rw [next_value]
    rfl
  have h2 : Nat.card Block = 2 ^ 64 * Nat.card {b : Block // fold b = 0} := by
    rw [← Nat.card_congr (Equiv.sigmaFiberEquiv fold), Nat.card_sigma]
    rw [Finset.sum_congr rfl fun v _ => fibre_card v, Finset.sum_const, Finset.card_univ]
    rw [nsmul_eq_mul, ← Nat.card_eq_fintype_card, Nat.card_congr ⟨BitVec.toFin, BitVec.ofFin, fun _ => rfl, fun _ => rfl⟩, Nat.card_fin]
    rfl
  rw [h1, fibre_card]
  rw [hcard] at h2
  have : (2 : Nat) ^ 128 = 2 ^ 64 * 2 ^ 64 := by norm_num
  rw [this] at h2
  exact (Nat.eq_of_mul_eq_mul_left (by norm_num) h2).symm

theorem word_eq (c0 c1 c2 c3 c4 c5 c6 c7 : Byte) : c0.setWidth 64 ^^^ (c1.setWidth 64 <<< 8) ^^^ (c2.setWidth 64 <<< 16) ^^^ (c3.setWidth 64 <<< 24) ^^^ (c4.setWidth 64 <<< 32) ^^^ (c5.setWidth 64 <<< 40) ^^^ (c6.setWidth 64 <<< 48) ^^^ (c7.setWidth 64 <<< 56) =
    BitVec.ofNat 64 (Fips197.littleEndian [c0, c1, c2, c3, c4, c5, c6, c7]) := by
  set w := BitVec.ofNat 64 (Fips197.littleEndian [c0, c1, c2, c3, c4, c5, c6, c7]) with hwd
  have l0 := c0.isLt
  have l1 := c1.isLt
  have l2 := c2.isLt
  have l3 := c3.isLt
  have l4 := c4.isLt
  have l5 := c5.isLt
  have l6 := c6.isLt
  have l7 := c7.isLt
  have hw : w.toNat = c0.toNat + 256 * (c1.toNat + 256 * (c2.toNat + 256 * (c3.toNat + 256 * (c4.toNat + 256 * (c5.toNat + 256 * (c6.toNat + 256 * c7.toNat)))))) := by
    rw [hwd, BitVec.toNat_ofNat]
    simp only [Fips197.littleEndian]
    omega
  clear_value w
  have h0 : w.setWidth 8 = c0 := by
    apply BitVec.eq_of_toNat_eq
    rw [BitVec.toNat_setWidth, hw]
    omega
  have h1 : (w >>> 8).setWidth 8 = c1 := by
    apply BitVec.eq_of_toNat_eq
    rw [BitVec.toNat_setWidth, BitVec.toNat_ushiftRight, hw, Nat.shiftRight_eq_div_pow]
    omega
  have h2 : (w >>> 16).setWidth 8 = c2 := by
    apply BitVec.eq_of_toNat_eq
    rw [BitVec.toNat_setWidth, BitVec.toNat_ushiftRight, hw, Nat.shiftRight_eq_div_pow]
    omega
  have h3 : (w >>> 24).setWidth 8 = c3 := by
    apply BitVec.eq_of_toNat_eq
    rw [BitVec.toNat_setWidth, BitVec.toNat_ushiftRight, hw, Nat.shiftRight_eq_div_pow]
    omega
  have h4 : (w >>> 32).setWidth 8 = c4 := by
    apply BitVec.eq_of_toNat_eq
    rw [BitVec.toNat_setWidth, BitVec.toNat_ushiftRight, hw, Nat.shiftRight_eq_div_pow]
    omega
  have h5 : (w >>> 40).setWidth 8 = c5 := by
    apply BitVec.eq_of_toNat_eq
    rw [BitVec.toNat_setWidth, BitVec.toNat_ushiftRight, hw, Nat.shiftRight_eq_div_pow]
    omega
  have h6 : (w >>> 48).setWidth 8 = c6 := by
    apply BitVec.eq_of_toNat_eq
    rw [BitVec.toNat_setWidth, BitVec.toNat_ushiftRight, hw, Nat.shiftRight_eq_div_pow]
    omega
  have h7 : (w >>> 56).setWidth 8 = c7 := by
    apply BitVec.eq_of_toNat_eq
    rw [BitVec.toNat_setWidth, BitVec.toNat_ushiftRight, hw, Nat.shiftRight_eq_div_pow]
    omega
  have := word_bytes w
  rwa [h0, h1, h2, h3, h4, h5, h6, h7] at this

theorem block_list (b : Block) : b.toList = [b[0], b[1], b[2], b[3], b[4], b[5], b[6], b[7], b[8], b[9], b[10], b[11], b[12], b[13], b[14], b[15]] := by
  apply List.ext_getElem
  · simp
  · intro i h1 h2
    rw [Vector.length_toList] at h1
    rw [Vector.getElem_toList]
    interval_cases i <;> rfl

theorem fold_halves (b : Block) : fold b = BitVec.ofNat 64 (Fips197.littleEndian (b.toList.take 8)) ^^^
    BitVec.ofNat 64 (Fips197.littleEndian (b.toList.drop 8)) := by
  rw [block_list, fold_terms]
  simp only [List.take_succ_cons, List.take_zero, List.drop_succ_cons, List.drop_zero]
  rw [← word_eq, ← word_eq]
  generalize b[0].setWidth 64 = b0
  generalize b[1].setWidth 64 <<< 8 = b1
  generalize b[2].setWidth 64 <<< 16 = b2
  generalize b[3].setWidth 64 <<< 24 = b3
  generalize b[4].setWidth 64 <<< 32 = b4
  generalize b[5].setWidth 64 <<< 40 = b5
  generalize b[6].setWidth 64 <<< 48 = b6
  generalize b[7].setWidth 64 <<< 56 = b7
  generalize b[8].setWidth 64 = b8
  generalize b[9].setWidth 64 <<< 8 = b9
  generalize b[10].setWidth 64 <<< 16 = b10
  generalize b[11].setWidth 64 <<< 24 = b11
  generalize b[12].setWidth 64 <<< 32 = b12
  generalize b[13].setWidth 64 <<< 40 = b13
  generalize b[14].setWidth 64 <<< 48 = b14
  generalize b[15].setWidth 64 <<< 56 = b15
  ac_rfl

/-- **C96, the words.** A call returns the exclusive or of the two halves of the AES-256 cipher text of its counter, read
with the least significant byte first. -/
theorem C96_word (r : Rng) (k : Nat) : (rngAfter r k).next.1 =
    BitVec.ofNat 64 (Fips197.littleEndian ((encrypt r.key (rngAfter r (k + 1)).iv).toList.take 8)) ^^^
    BitVec.ofNat 64 (Fips197.littleEndian ((encrypt r.key (rngAfter r (k + 1)).iv).toList.drop 8)) := by
  rw [next_value, fold_halves]

-- the halves 0x0807060504030201 and 0x100f0e0d0c0b0a09
example : fold (Vector.ofFn fun i => BitVec.ofNat 8 (i.1 + 1)) = 0x1808080808080808 := by decide +kernel

end ICPC.Props
