import Verif.Model.Aes
import Verif.Spec.Aes

/-!
# The tables of src/secure_rng.h against FIPS 197
-/

namespace ICPC.Aes

open Spec

theorem byte_forall (p : Byte → Bool) (h : (List.range 256).all (fun n => p (BitVec.ofNat 8 n)) = true) (x : Byte) : p x = true := by
  rw [List.all_eq_true] at h
  have := h x.toNat (List.mem_range.2 x.isLt)
  rwa [BitVec.ofNat_toNat, BitVec.setWidth_eq] at this

theorem sbox_eq (x : Byte) : sbox x = Fips197.S x := by
  have := byte_forall (fun x => sbox x == Fips197.S x) (by decide +kernel) x
  exact eq_of_beq this

theorem gf_table (k : Nat) (hk : k ∈ [2, 3, 9, 11, 13, 14]) (x : Byte) : (gfMulTable k).getD x.toNat 0 = Fips197.gmul (BitVec.ofNat 8 k) x := by
  have : ([2, 3, 9, 11, 13, 14].all fun k => (List.range 256).all fun n =>
      (gfMulTable k).getD (BitVec.ofNat 8 n).toNat 0 == Fips197.gmul (BitVec.ofNat 8 k) (BitVec.ofNat 8 n)) = true := by decide +kernel
  rw [List.all_eq_true] at this
  exact eq_of_beq (byte_forall (fun x => (gfMulTable k).getD x.toNat 0 == Fips197.gmul (BitVec.ofNat 8 k) x) (this k hk) x)

theorem gmul_one (x : Byte) : Fips197.gmul 1 x = x :=
  eq_of_beq (byte_forall (fun x => Fips197.gmul 1 x == x) (by decide +kernel) x)

end ICPC.Aes
