import Mathlib.Logic.Function.Iterate

/-!
# AES-256 as in FIPS 197

Bytes are `BitVec 8`, states are functions of row and column.
-/

namespace ICPC.Spec.Fips197

abbrev Byte := BitVec 8

/-- Multiplication by `x` modulo `x^8 + x^4 + x^3 + x + 1` (4.2.1). -/
def xtime (b : Byte) : Byte := if b.msb then (b <<< 1) ^^^ 0x1b else b <<< 1

/-- The product in GF(2^8) (4.2): the sum of `b * x^i` over the bits `i` of `a`. -/
def gmul (a b : Byte) : Byte := (List.range 8).foldl (fun acc i => if a.getLsbD i then acc ^^^ xtime^[i] b else acc) 0

/-- The inverse in GF(2^8), zero for zero (5.1.1). -/
def inverse (a : Byte) : Byte := (((List.range 256).map (BitVec.ofNat 8)).find? fun b => gmul a b == 1).getD 0

/-- Bit `i` of the affine transformation (5.1). -/
def affineBit (b : Byte) (i : Nat) : Bool :=
  b.getLsbD i ^^ b.getLsbD ((i + 4) % 8) ^^ b.getLsbD ((i + 5) % 8) ^^ b.getLsbD ((i + 6) % 8) ^^ b.getLsbD ((i + 7) % 8) ^^
    (0x63 : Byte).getLsbD i

/-- The substitution box (5.1.1). -/
def S (a : Byte) : Byte := (List.range 8).foldl (fun acc i => if affineBit (inverse a) i then acc ||| 1 <<< i else acc) 0

/-- A state: row, column. -/
abbrev St := Fin 4 → Fin 4 → Byte

/-- A word of the key schedule. -/
abbrev Wd := Fin 4 → Byte

def subBytes (s : St) : St := fun r c => S (s r c)

def shiftRows (s : St) : St := fun r c => s r (c + r)

/-- The coefficients of the polynomial of MixColumns (5.1.3), first row of the matrix. -/
def coef (k : Fin 4) : Byte := if k = 0 then 2 else if k = 1 then 3 else 1

def mixColumns (s : St) : St := fun r c =>
  gmul (coef (0 - r)) (s 0 c) ^^^ gmul (coef (1 - r)) (s 1 c) ^^^ gmul (coef (2 - r)) (s 2 c) ^^^ gmul (coef (3 - r)) (s 3 c)

def subWord (w : Wd) : Wd := fun j => S (w j)

def rotWord (w : Wd) : Wd := fun j => w (j + 1)

/-- `Rcon[i] = [x^(i-1), 0, 0, 0]`. -/
def rcon (i : Nat) : Wd := fun j => if j = 0 then xtime^[i - 1] 1 else 0

/-- Word `i` of the key schedule for 8 words of key (5.2). -/
def w (key : Fin 32 → Byte) (i : Nat) : Wd :=
  if h : i < 8 then fun j => key ⟨4 * i + j.1, by omega⟩
  else
    let prev := w key (i - 1)
    let temp : Wd :=
      if i % 8 = 0 then fun j => subWord (rotWord prev) j ^^^ rcon (i / 8) j
      else if i % 8 = 4 then subWord prev
      else prev
    fun j => w key (i - 8) j ^^^ temp j
termination_by i

/-- (5.1.4) -/
def addRoundKey (key : Fin 32 → Byte) (round : Nat) (s : St) : St := fun r c => s r c ^^^ w key (4 * round + c.1) r

/-- One of the rounds 1 to 13. -/
def round (key : Fin 32 → Byte) (n : Nat) (s : St) : St := addRoundKey key n (mixColumns (shiftRows (subBytes s)))

/-- The cipher (5.1) with 14 rounds. -/
def cipher (key : Fin 32 → Byte) (input : Fin 16 → Byte) : Fin 16 → Byte :=
  let s : St := fun r c => input ⟨r.1 + 4 * c.1, by omega⟩
  let s := addRoundKey key 0 s
  let s := ((List.range 13).map (· + 1)).foldl (fun s n => round key n s) s
  let s := addRoundKey key 14 (shiftRows (subBytes s))
  fun p => s ⟨p.1 % 4, by omega⟩ ⟨p.1 / 4, by omega⟩

/-- The number with the given bytes, least significant byte first. -/
def littleEndian : List Byte → Nat
  | [] => 0
  | b :: l => b.toNat + 256 * littleEndian l

end ICPC.Spec.Fips197
