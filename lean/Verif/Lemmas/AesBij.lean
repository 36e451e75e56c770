import Verif.Lemmas.Aes
import Mathlib.Data.Fintype.Pi
import Mathlib.Data.Fintype.EquivFin

/-!
# The cipher is a bijection, and the counter of the generator
-/

namespace ICPC.Aes

open Spec Fips197

/-! ## Multiplication in GF(2^8) is additive -/

theorem xtime_xor (a b : Byte) : xtime (a ^^^ b) = xtime a ^^^ xtime b := by
  have h : ∀ c : Byte, xtime c = (c <<< 1) ^^^ (bif c.msb then 0x1b else 0) := by
    intro c
    unfold xtime
    cases c.msb <;> simp
  rw [h, h, h, BitVec.shiftLeft_xor_distrib, BitVec.msb_xor]
  have : (bif (a.msb ^^ b.msb) then (0x1b : Byte) else 0) = (bif a.msb then 0x1b else 0) ^^^ (bif b.msb then 0x1b else 0) := by
    cases a.msb <;> cases b.msb <;> decide
  rw [this]
  ac_rfl

theorem xtime_iter_xor (n : Nat) (a b : Byte) : xtime^[n] (a ^^^ b) = xtime^[n] a ^^^ xtime^[n] b := by
  induction n generalizing a b with
  | zero => rfl
  | succ n ih => rw [Function.iterate_succ_apply, xtime_xor, ih, Function.iterate_succ_apply, Function.iterate_succ_apply]

theorem gmul_xor (k a b : Byte) : gmul k (a ^^^ b) = gmul k a ^^^ gmul k b := by
  have key : ∀ (l : List Nat) (x y z : Byte), z = x ^^^ y →
      l.foldl (fun acc i => if k.getLsbD i then acc ^^^ xtime^[i] (a ^^^ b) else acc) z =
      l.foldl (fun acc i => if k.getLsbD i then acc ^^^ xtime^[i] a else acc) x ^^^
      l.foldl (fun acc i => if k.getLsbD i then acc ^^^ xtime^[i] b else acc) y := by
    intro l
    induction l with
    | nil => exact fun x y z h => h
    | cons i l ih =>
      intro x y z h
      simp only [List.foldl_cons]
      apply ih
      cases k.getLsbD i
      · simpa using h
      · simp only [if_true]
        rw [h, xtime_iter_xor]
        ac_rfl
  exact key _ _ _ _ (BitVec.xor_self).symm

/-! ## The steps of the cipher -/

theorem S_injective (a b : Byte) (h : S a = S b) : a = b := by
  rw [← sbox_eq, ← sbox_eq] at h
  have key : ∀ x : Byte, SBOX.flatten.idxOf (sbox x) = x.toNat := fun x =>
    eq_of_beq (byte_forall (fun x => SBOX.flatten.idxOf (sbox x) == x.toNat) (by decide +kernel) x)
  apply BitVec.eq_of_toNat_eq
  rw [← key a, ← key b, h]

/-- The inverse of `mixColumns`. -/
def icoef (k : Fin 4) : Byte := if k = 0 then 14 else if k = 1 then 11 else if k = 2 then 13 else 9

def invMixColumns (s : St) : St := fun r c =>
  gmul (icoef (0 - r)) (s 0 c) ^^^ gmul (icoef (1 - r)) (s 1 c) ^^^ gmul (icoef (2 - r)) (s 2 c) ^^^ gmul (icoef (3 - r)) (s 3 c)

theorem matrix_inverse (r c : Fin 4) (x : Byte) :
    gmul (icoef (0 - r)) (gmul (coef (c - 0)) x) ^^^ gmul (icoef (1 - r)) (gmul (coef (c - 1)) x) ^^^
      gmul (icoef (2 - r)) (gmul (coef (c - 2)) x) ^^^ gmul (icoef (3 - r)) (gmul (coef (c - 3)) x) = if c = r then x else 0 := by
  have h : ∀ r c : Fin 4, (List.range 256).all (fun n => (fun x =>
      gmul (icoef (0 - r)) (gmul (coef (c - 0)) x) ^^^ gmul (icoef (1 - r)) (gmul (coef (c - 1)) x) ^^^
      gmul (icoef (2 - r)) (gmul (coef (c - 2)) x) ^^^ gmul (icoef (3 - r)) (gmul (coef (c - 3)) x) == if c = r then x else 0)
      (BitVec.ofNat 8 n)) = true := by
    decide +kernel
  exact eq_of_beq (byte_forall (fun x =>
      gmul (icoef (0 - r)) (gmul (coef (c - 0)) x) ^^^ gmul (icoef (1 - r)) (gmul (coef (c - 1)) x) ^^^
      gmul (icoef (2 - r)) (gmul (coef (c - 2)) x) ^^^ gmul (icoef (3 - r)) (gmul (coef (c - 3)) x) == if c = r then x else 0) (h r c) x)

theorem invMix_mix (s : St) : invMixColumns (Fips197.mixColumns s) = s := by
  funext r c
  have h : invMixColumns (Fips197.mixColumns s) r c =
      (if (0 : Fin 4) = r then s 0 c else 0) ^^^ (if (1 : Fin 4) = r then s 1 c else 0) ^^^ (if (2 : Fin 4) = r then s 2 c else 0) ^^^
        (if (3 : Fin 4) = r then s 3 c else 0) := by
    rw [← matrix_inverse r 0, ← matrix_inverse r 1, ← matrix_inverse r 2, ← matrix_inverse r 3]
    simp only [invMixColumns, Fips197.mixColumns, gmul_xor]
    ac_rfl
  rw [h]
  revert r
  apply fin4_cases <;> intro _ <;> simp

theorem subBytes_injective : Function.Injective Fips197.subBytes := by
  intro s t h
  funext r c
  exact S_injective _ _ (congrFun (congrFun h r) c)

theorem shiftRows_injective : Function.Injective Fips197.shiftRows := by
  intro s t h
  funext r c
  have := congrFun (congrFun h r) (c - r)
  have e : ∀ c r : Fin 4, c - r + r = c := by decide
  simp only [Fips197.shiftRows, e] at this
  exact this

theorem mixColumns_injective : Function.Injective Fips197.mixColumns :=
  Function.LeftInverse.injective invMix_mix

theorem addRoundKey_injective (key : Fin 32 → Byte) (n : Nat) : Function.Injective (Fips197.addRoundKey key n) := by
  intro s t h
  funext r c
  have := congrFun (congrFun h r) c
  exact (BitVec.xor_left_inj _).1 this

theorem round_injective (key : Fin 32 → Byte) (n : Nat) : Function.Injective (Fips197.round key n) := fun _ _ h =>
  subBytes_injective (shiftRows_injective (mixColumns_injective (addRoundKey_injective key n h)))

theorem rounds_injective (key : Fin 32 → Byte) (l : List Nat) : Function.Injective (fun s => l.foldl (fun s n => Fips197.round key n s) s) := by
  induction l with
  | nil => exact fun _ _ h => h
  | cons n l ih => exact fun s t h => round_injective key n (ih h)

theorem cipher_injective (key : Fin 32 → Byte) : Function.Injective (cipher key) := by
  intro a b h
  have h1 : ∀ s t : St, (fun p : Fin 16 => s ⟨p.1 % 4, by omega⟩ ⟨p.1 / 4, by omega⟩) =
      (fun p : Fin 16 => t ⟨p.1 % 4, by omega⟩ ⟨p.1 / 4, by omega⟩) → s = t := by
    intro s t h
    funext r c
    have := congrFun h ⟨r.1 + 4 * c.1, by omega⟩
    have e1 : (⟨(r.1 + 4 * c.1) % 4, by omega⟩ : Fin 4) = r := Fin.ext (by show (r.1 + 4 * c.1) % 4 = r.1; omega)
    have e2 : (⟨(r.1 + 4 * c.1) / 4, by omega⟩ : Fin 4) = c := Fin.ext (by show (r.1 + 4 * c.1) / 4 = c.1; omega)
    simp only [e1, e2] at this
    exact this
  have h2 := addRoundKey_injective key 0 (rounds_injective key _ (subBytes_injective (shiftRows_injective (addRoundKey_injective key 14 (h1 _ _ h)))))
  funext p
  have := congrFun (congrFun h2 ⟨p.1 % 4, by omega⟩) ⟨p.1 / 4, by omega⟩
  have e : (⟨p.1 % 4 + 4 * (p.1 / 4), by omega⟩ : Fin 16) = p := Fin.ext (by show p.1 % 4 + 4 * (p.1 / 4) = p.1; omega)
  simp only [e] at this
  exact this

theorem encrypt_injective (key : Key) : Function.Injective (encrypt key) := by
  intro a b h
  have h1 : cipher (fun p => key[p]) (fun p => a[p]) = cipher (fun p => key[p]) (fun p => b[p]) := by
    funext p
    rw [← encrypt_eq, ← encrypt_eq, h]
  have h2 := cipher_injective _ h1
  apply Vector.ext
  intro i hi
  exact congrFun h2 ⟨i, hi⟩

instance : Finite Block :=
  Finite.of_injective (fun (v : Block) (i : Fin 16) => v[i].toFin) (by
    intro a b h
    apply Vector.ext
    intro i hi
    exact BitVec.eq_of_toFin_eq (congrFun h ⟨i, hi⟩))

theorem encrypt_bijective (key : Key) : Function.Bijective (encrypt key) :=
  Finite.injective_iff_bijective.1 (encrypt_injective key)

/-! ## The counter -/

theorem littleEndian_lt (l : List Byte) : littleEndian l < 256 ^ l.length := by
  induction l with
  | nil => simp [littleEndian]
  | cons b l ih =>
    rw [littleEndian, List.length_cons, Nat.pow_succ]
    have := b.isLt
    omega

theorem littleEndian_injective (l m : List Byte) (hl : l.length = m.length) (h : littleEndian l = littleEndian m) : l = m := by
  induction l generalizing m with
  | nil =>
    cases m with
    | nil => rfl
    | cons => cases hl
  | cons b l ih =>
    cases m with
    | nil => cases hl
    | cons c m =>
      simp only [littleEndian] at h
      have h1 := b.isLt
      have h2 := c.isLt
      have e : b = c := BitVec.eq_of_toNat_eq (by omega)
      rw [e, ih m (by simpa using hl) (by subst e; omega)]

/-- Adding one to one byte. -/
theorem littleEndian_set (l : List Byte) (k : Nat) (h : k < l.length) :
    littleEndian (l.set k (l[k] + 1)) + (if l[k] + 1 = 0 then 256 ^ (k + 1) else 0) = littleEndian l + 256 ^ k := by
  induction l generalizing k with
  | nil => cases h
  | cons b l ih =>
    cases k with
    | zero =>
      simp only [List.set_cons_zero, List.getElem_cons_zero, littleEndian]
      have hb := b.isLt
      by_cases hz : b + 1 = 0
      · rw [if_pos hz, hz]
        have : (b + 1).toNat = 0 := by rw [hz]; rfl
        rw [BitVec.toNat_add] at this
        have h1 : (1 : Byte).toNat = 1 := rfl
        have h0 : (0 : Byte).toNat = 0 := rfl
        rw [h1] at this
        rw [h0]
        omega
      · rw [if_neg hz]
        have h1 : (1 : Byte).toNat = 1 := rfl
        have : (b + 1).toNat = b.toNat + 1 := by
          rw [BitVec.toNat_add, h1, Nat.mod_eq_of_lt]
          by_contra hge
          apply hz
          apply BitVec.eq_of_toNat_eq
          rw [BitVec.toNat_add, h1, show b.toNat + 1 = 2 ^ 8 by omega]
          rfl
        rw [this]
        omega
    | succ k =>
      have := ih k (by simpa using h)
      simp only [List.set_cons_succ, List.getElem_cons_succ, littleEndian]
      rw [Nat.pow_succ 256 (k + 1), Nat.pow_succ 256 k] at *
      split at this
      · next hz =>
        rw [if_pos hz]
        omega
      · next hz =>
        rw [if_neg hz]
        omega

theorem carry_value (i : Nat) (iv : Block) (hi : i < 16) :
    (littleEndian (carry i iv).toList) % 2 ^ 128 = (littleEndian iv.toList + if iv[i] = 0 then 256 ^ (i + 1) else 0) % 2 ^ 128 := by
  induction hn : 16 - i using Nat.strongRecOn generalizing i iv with
  | ind n ih =>
    rw [carry]
    split
    · next h =>
      split
      · next hz =>
        rw [ih (16 - (i + 1)) (by omega) (i + 1) _ (by omega) rfl]
        have hs := littleEndian_set iv.toList (i + 1) (by simp; omega)
        simp only [Vector.getElem_toList] at hs
        rw [Vector.toList_set, Vector.getElem_set_self, hs]
      · next hz =>
        rw [Nat.add_zero]
    · next h =>
      have : i = 15 := by omega
      subst this
      split
      · rw [show (256 : Nat) ^ (15 + 1) = 2 ^ 128 by decide, Nat.add_mod_right]
      · rfl

theorem increment_value (iv : Block) : littleEndian (increment iv).toList = (littleEndian iv.toList + 1) % 2 ^ 128 := by
  have hlt : littleEndian (increment iv).toList < 2 ^ 128 := by
    have := littleEndian_lt (increment iv).toList
    rw [Vector.length_toList] at this
    exact this
  rw [← Nat.mod_eq_of_lt hlt, increment, carry_value 0 _ (by omega)]
  have hs := littleEndian_set iv.toList 0 (by simp)
  simp only [Vector.getElem_toList] at hs
  rw [Vector.toList_set, Vector.getElem_set_self, hs]
  rfl

theorem block_eq (a b : Block) (h : littleEndian a.toList = littleEndian b.toList) : a = b :=
  Vector.toList_inj.1 (littleEndian_injective _ _ (by simp) h)

end ICPC.Aes
