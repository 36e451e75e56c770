import Verif.Lemmas.AesTables
import Mathlib.Data.List.GetD

/-!
# The cipher of src/secure_rng.h against FIPS 197
-/

namespace ICPC.Aes

open Spec

/-- A vector of vectors as a function. -/
def abs (s : State) : Fips197.St := fun r c => s[r][c]

theorem abs_subBytes (s : State) : abs (subBytes s) = Fips197.subBytes (abs s) := by
  funext r c
  simp [abs, subBytes, Fips197.subBytes, sbox_eq]

theorem abs_shiftRow (s : State) (i : Fin 4) (n : Nat) (r c : Fin 4) :
    abs (shiftRow s i n) r c = if r = i then abs s r ⟨(c.1 + n) % 4, Nat.mod_lt _ (by decide)⟩ else abs s r c := by
  unfold abs shiftRow
  by_cases h : r = i
  · subst h
    simp
  · rw [if_neg h]
    have : i.1 ≠ r.1 := fun e => h (Fin.ext e.symm)
    simp [this]

theorem abs_shiftRows (s : State) : abs (shiftRows s) = Fips197.shiftRows (abs s) := by
  funext r c
  have h : ∀ r : Fin 4, r = 0 ∨ r = 1 ∨ r = 2 ∨ r = 3 := by decide
  unfold shiftRows Fips197.shiftRows
  simp only [abs_shiftRow]
  rcases h r with rfl | rfl | rfl | rfl
  · rw [Fin.add_zero]
    rfl
  · rfl
  · rfl
  · rfl

theorem mixTerm_eq (s : State) (i k j : Fin 4) : mixTerm s i k j = Fips197.gmul (Fips197.coef (k - i)) (abs s k j) := by
  have hc : ∀ i k : Fin 4, BitVec.ofNat 8 ((CMDS.getD i []).getD k 0) = Fips197.coef (k - i) ∧
      ((CMDS.getD i []).getD k 0 = 1 ∨ (CMDS.getD i []).getD k 0 ∈ [2, 3, 9, 11, 13, 14]) := by decide
  obtain ⟨h1, h2⟩ := hc i k
  unfold mixTerm abs
  simp only
  split
  · next h =>
    rw [← h1, h]
    exact (gmul_one _).symm
  · next h =>
    rw [gf_table _ (h2.resolve_left h), h1]

theorem abs_mixColumns (s : State) : abs (mixColumns s) = Fips197.mixColumns (abs s) := by
  funext r c
  simp only [Fips197.mixColumns, ← mixTerm_eq]
  simp [abs, mixColumns]

theorem abs_addRoundKey (s : State) (k : Block) (r c : Fin 4) : abs (addRoundKey s k) r c = abs s r c ^^^ k[r.1 + 4 * c.1] := by
  simp [abs, addRoundKey]

/-! ## The key schedule -/

/-- `plain` holds a beginning of the key schedule. -/
def KeyInv (key : Key) (plain : List Byte) : Prop :=
  plain.length % 4 = 0 ∧ 32 ≤ plain.length ∧
    ∀ (i : Nat) (j : Fin 4), 4 * i + j.1 < plain.length → plain.getD (4 * i + j.1) 0 = Fips197.w (fun p => key[p]) i j

theorem keyInv_init (key : Key) : KeyInv key key.toList := by
  refine ⟨by simp, by simp, ?_⟩
  intro i j h
  rw [Vector.length_toList] at h
  rw [Fips197.w, dif_pos (by omega)]
  simp [List.getD, h]

theorem rcon_eq (n : Nat) (h1 : 1 ≤ n) (h7 : n ≤ 7) : R_CON.getD n 0 = Fips197.rcon n 0 := by
  have : ∀ n ≤ 7, 1 ≤ n → R_CON.getD n 0 = Fips197.rcon n 0 := by decide
  exact this n h7 h1

theorem fin4_cases (p : Fin 4 → Prop) (h0 : p 0) (h1 : p 1) (h2 : p 2) (h3 : p 3) (j : Fin 4) : p j := by
  have h : ∀ r : Fin 4, r = 0 ∨ r = 1 ∨ r = 2 ∨ r = 3 := by decide
  rcases h j with rfl | rfl | rfl | rfl <;> assumption

/-- The transformed word of the loop. -/
def tempWord (i : Nat) (t : Word) : Word :=
  if i / 4 % 8 = 0 then xorWord (subWord (rotWord t)) #v[R_CON.getD (i / 32) 0, 0, 0, 0]
  else if i / 4 % 8 = 4 then subWord t
  else t

theorem tempWord_eq (n : Nat) (h8 : 8 ≤ n) (h60 : n < 60) (t : Word) (prev : Fips197.Wd) (ht : ∀ j : Fin 4, t[j] = prev j) (j : Fin 4) :
    (tempWord (4 * n) t)[j] = (if n % 8 = 0 then (fun j => Fips197.subWord (Fips197.rotWord prev) j ^^^ Fips197.rcon (n / 8) j)
      else if n % 8 = 4 then Fips197.subWord prev else prev) j := by
  have e1 : 4 * n / 4 = n := by omega
  have e2 : 4 * n / 32 = n / 8 := by omega
  unfold tempWord
  rw [e1, e2]
  split
  · next h =>
    have hr := rcon_eq (n / 8) (by omega) (by omega)
    rw [hr]
    have h0 : t[0] = prev 0 := ht 0
    have h1 : t[1] = prev 1 := ht 1
    have h2 : t[2] = prev 2 := ht 2
    have h3 : t[3] = prev 3 := ht 3
    have hg : ∀ j : Fin 4, (xorWord (subWord (rotWord t)) #v[Fips197.rcon (n / 8) 0, 0, 0, 0])[j] =
        sbox ((rotWord t)[j]) ^^^ (#v[Fips197.rcon (n / 8) 0, 0, 0, 0] : Word)[j] := by
      intro j
      simp [xorWord, subWord]
    have hr2 : ∀ j : Fin 4, (rotWord t)[j] = prev (j + 1) := by
      apply fin4_cases
      · exact h1
      · exact h2
      · exact h3
      · exact h0
    rw [hg, hr2, sbox_eq]
    revert j
    apply fin4_cases <;> rfl
  · split
    · have := ht j
      simp [subWord, Fips197.subWord, sbox_eq] at this ⊢
      rw [this]
    · exact ht j

theorem expandStep_get (plain : List Byte) (j : Fin 4) :
    (expandStep plain).getD j.1 0 = plain.getD (plain.length + j.1 - 32) 0 ^^^ (tempWord plain.length
      #v[plain.getD (plain.length - 4 + 0) 0, plain.getD (plain.length - 4 + 1) 0, plain.getD (plain.length - 4 + 2) 0,
        plain.getD (plain.length - 4 + 3) 0])[j] := by
  revert j
  apply fin4_cases <;> rfl

theorem keyInv_step (key : Key) (plain : List Byte) (h : KeyInv key plain) (hlt : plain.length < 240) :
    KeyInv key (plain ++ expandStep plain) := by
  obtain ⟨h4, h32, hw⟩ := h
  have hl : (expandStep plain).length = 4 := rfl
  obtain ⟨n, hn⟩ : ∃ n, plain.length = 4 * n := ⟨plain.length / 4, by omega⟩
  refine ⟨by rw [List.length_append, hl]; omega, by rw [List.length_append]; omega, ?_⟩
  intro i j hij
  rw [List.length_append, hl] at hij
  by_cases hi : 4 * i + j.1 < plain.length
  · rw [List.getD_append _ _ _ _ hi]
    exact hw i j hi
  · have : i = n := by omega
    subst this
    rw [List.getD_append_right _ _ _ _ (by omega), show 4 * i + j.1 - plain.length = j.1 by omega, expandStep_get, Fips197.w,
      dif_neg (by omega), hn]
    have hprev : ∀ k : Fin 4, (#v[plain.getD (4 * i - 4 + 0) 0, plain.getD (4 * i - 4 + 1) 0, plain.getD (4 * i - 4 + 2) 0,
        plain.getD (4 * i - 4 + 3) 0] : Word)[k] = Fips197.w (fun p => key[p]) (i - 1) k := by
      intro k
      have e : 4 * i - 4 = 4 * (i - 1) := by omega
      rw [e]
      have := hw (i - 1) k (by omega)
      rw [← this]
      revert k
      apply fin4_cases <;> intros <;> rfl
    rw [tempWord_eq i (by omega) (by omega) _ _ hprev j]
    congr 1
    have := hw (i - 8) j (by omega)
    rw [← this]
    congr 1
    omega

theorem keyInv_loop (key : Key) (n : Nat) (plain : List Byte) (h : KeyInv key plain) (hlt : plain.length + 4 * n ≤ 240) :
    KeyInv key (expandLoop n plain) ∧ (expandLoop n plain).length = plain.length + 4 * n := by
  induction n generalizing plain with
  | zero => exact ⟨h, rfl⟩
  | succ n ih =>
    have hl : (plain ++ expandStep plain).length = plain.length + 4 := by
      rw [List.length_append]
      rfl
    obtain ⟨h1, h2⟩ := ih _ (keyInv_step key plain h (by omega)) (by omega)
    refine ⟨h1, ?_⟩
    rw [expandLoop, h2, hl]
    omega

theorem keyInv_expand (key : Key) : KeyInv key (expandKey key) ∧ (expandKey key).length = 240 := by
  have h := keyInv_loop key 52 key.toList (keyInv_init key) (by simp)
  rw [Vector.length_toList] at h
  exact h

attribute [local irreducible] expandKey

theorem roundKey_eq (key : Key) (n : Nat) (hn : n ≤ 14) (r c : Fin 4) :
    (roundKey (expandKey key) n)[r.1 + 4 * c.1] = Fips197.w (fun p => key[p]) (4 * n + c.1) r := by
  obtain ⟨⟨_, _, hw⟩, hl⟩ := keyInv_expand key
  generalize expandKey key = plain at hw hl
  rw [← hw (4 * n + c.1) r (by rw [hl]; omega)]
  simp only [roundKey, Vector.getElem_ofFn]
  congr 1
  omega

theorem abs_addRoundKey' (key : Key) (n : Nat) (hn : n ≤ 14) (s : State) :
    abs (addRoundKey s (roundKey (expandKey key) n)) = Fips197.addRoundKey (fun p => key[p]) n (abs s) := by
  funext r c
  rw [abs_addRoundKey, roundKey_eq key n hn]
  rfl

theorem abs_rounds (key : Key) (n r : Nat) (h : r + n ≤ 15) (s : State) :
    abs (rounds (expandKey key) n r s) = ((List.range n).map (· + r)).foldl (fun s n => Fips197.round (fun p => key[p]) n s) (abs s) := by
  induction n generalizing r s with
  | zero => rfl
  | succ n ih =>
    rw [rounds, ih (r + 1) (by omega), List.range_succ_eq_map, List.map_cons, List.foldl_cons, List.map_map]
    rw [abs_addRoundKey' key r (by omega), abs_mixColumns, abs_shiftRows, abs_subBytes]
    rw [Nat.zero_add]
    have : ((fun x => x + r) ∘ Nat.succ) = (· + (r + 1)) := by
      funext x
      simp
      omega
    rw [this]
    rfl

theorem encrypt_eq (key : Key) (b : Block) (p : Fin 16) : (encrypt key b)[p] = Fips197.cipher (fun p => key[p]) (fun p => b[p]) p := by
  have hstore : ∀ s : State, (store s)[p] = abs s ⟨p.1 % 4, by omega⟩ ⟨p.1 / 4, by omega⟩ := by
    intro s
    simp [store, abs, Vector.get]
  rw [encrypt, hstore, abs_addRoundKey' key 14 (by omega), abs_shiftRows, abs_subBytes, abs_rounds key 13 1 (by omega),
    abs_addRoundKey' key 0 (by omega)]
  have hload : abs (load b) = fun r c => b[(⟨r.1 + 4 * c.1, by omega⟩ : Fin 16)] := by
    funext r c
    simp [abs, load]
  rw [hload]
  rfl

end ICPC.Aes
