import Verif.Model.Alphabet
import Verif.Spec.Alphabet
import Verif.Props.RandSeq
import Verif.Props.Chars
import Verif.Lemmas.Distinct

/-! # Alphabets and the laws of string, rotate and shuffle of pairs (C110) -/

namespace ICPC.Props

open ICPC ICPC.Spec Rand

theorem ascii_cases {a : List Char} {p : Char → Prop} [DecidablePred p] (hn : a.Nodup) (ha : ∀ c ∈ a, c.toNat < 128)
    (hp : ∀ c, p c → c.toNat < 128) (h : ∀ k : Fin 128, Char.ofNat k ∈ a ↔ p (Char.ofNat k)) : AlphabetOf a p := by
  refine ⟨hn, fun c => ?_⟩
  by_cases hc : c.toNat < 128
  · have := h ⟨c.toNat, hc⟩
    rwa [show Char.ofNat (⟨c.toNat, hc⟩ : Fin 128) = c from Char.ofNat_toNat c] at this
  · exact ⟨fun h => absurd (ha c h) hc, fun h => absurd (hp c h) hc⟩

/-- **C110.** The alphabets of the header consist of the characters that their names promise, each of them once. -/
theorem C110_alphabets :
    AlphabetOf LETTER (fun c => CapitalLetter c ∨ SmallLetter c) ∧ AlphabetOf UPPER CapitalLetter ∧ AlphabetOf LOWER SmallLetter ∧
    AlphabetOf VOWEL (fun c => CapitalVowel c ∨ SmallVowel c) ∧ AlphabetOf UPPER_VOWELS CapitalVowel ∧ AlphabetOf LOWER_VOWELS SmallVowel ∧
    AlphabetOf CONSONANT (fun c => (CapitalLetter c ∧ ¬ CapitalVowel c) ∨ (SmallLetter c ∧ ¬ SmallVowel c)) ∧
    AlphabetOf UPPER_CONSONANT (fun c => CapitalLetter c ∧ ¬ CapitalVowel c) ∧ AlphabetOf LOWER_CONSONANT (fun c => SmallLetter c ∧ ¬ SmallVowel c) ∧
    AlphabetOf ALPHA_NUMERIC (fun c => DecimalDigit c ∨ CapitalLetter c ∨ SmallLetter c) ∧ AlphabetOf UPPER_ALPHA_NUMERIC (fun c => DecimalDigit c ∨ CapitalLetter c) ∧
    AlphabetOf LOWER_ALPHA_NUMERIC (fun c => DecimalDigit c ∨ SmallLetter c) ∧ AlphabetOf DIGITS DecimalDigit ∧
    AlphabetOf BRACKETS (fun c => c = '(' ∨ c = ')' ∨ c = '[' ∨ c = ']' ∨ c = '{' ∨ c = '}' ∨ c = '<' ∨ c = '>') := by
  refine ⟨?_, ?_, ?_, ?_, ?_, ?_, ?_, ?_, ?_, ?_, ?_, ?_, ?_, ?_⟩ <;> refine ascii_cases (by decide +kernel) (by decide +kernel) ?_ (by decide +kernel) <;> intro c h
  all_goals first
    | (simp only [CapitalLetter, SmallLetter, DecimalDigit, CapitalVowel, SmallVowel] at h; omega)
    | (rcases h with rfl | rfl | rfl | rfl | rfl | rfl | rfl | rfl <;> decide)

/-- **C110.** The functions on characters describe the alphabets with the same name. -/
theorem C110_functions (c : Char) :
    (isLetterC c = true ↔ c ∈ LETTER) ∧ (isUpperC c = true ↔ c ∈ UPPER) ∧ (isLowerC c = true ↔ c ∈ LOWER) ∧ (isVowelC c = true ↔ c ∈ VOWEL) ∧
    (isConsonantC c = true ↔ c ∈ CONSONANT) ∧ (isDigitC c = true ↔ c ∈ DIGITS) := by
  have hlow : isLowerC c = true ↔ SmallLetter c := by
    unfold isLowerC SmallLetter
    rw [Bool.and_eq_true, decide_eq_true_iff, decide_eq_true_iff]
    rfl
  have hup : isUpperC c = true ↔ CapitalLetter c := by
    unfold isUpperC CapitalLetter
    rw [Bool.and_eq_true, decide_eq_true_iff, decide_eq_true_iff]
    rfl
  obtain ⟨h1, h2, h3, h4, -, -, h7, -, -, -, -, -, h13, -⟩ := C110_alphabets
  obtain ⟨-, -, -, g4, g5, -⟩ := C22_classification c
  have hlet : isLetterC c = true ↔ CapitalLetter c ∨ SmallLetter c := by
    unfold isLetterC
    rw [Bool.or_eq_true, hlow, hup, or_comm]
  have hv : isVowelC c = true ↔ CapitalVowel c ∨ SmallVowel c := by
    rw [g5, show ['A', 'E', 'I', 'O', 'U', 'a', 'e', 'i', 'o', 'u'] = VOWEL by decide +kernel]
    exact h4.2 c
  refine ⟨hlet.trans (h1.2 c).symm, hup.trans (h2.2 c).symm, hlow.trans (h3.2 c).symm, hv.trans (h4.2 c).symm, ?_, g4.trans (h13.2 c).symm⟩
  rw [h7.2 c]
  unfold isConsonantC
  rw [Bool.and_eq_true, Bool.not_eq_true', ← Bool.not_eq_true, hlet, hv]
  unfold CapitalLetter SmallLetter CapitalVowel SmallVowel
  omega

/-! ## Laws -/

theorem expect_indicator {α : Type} [DecidableEq α] (r : Rand α) (a : α) (q : ℚ) : expect r (fun b => if b = a then q else 0) = prob r a * q := by
  have h : (fun b => if b = a then q else 0) = fun b => q * (if b = a then 1 else 0) := by funext b; split_ifs <;> simp
  rw [h, expect_smul, mul_comm]
  rfl

theorem stringLoop_prob {α : Type} [DecidableEq α] (l : List α) (h : 0 < l.length) (hlen : l.length < 2 ^ 63) : ∀ (n : Nat) (s : List α),
    prob (stringLoop l n) s = if s.length = n then (s.map fun c => (l.count c : ℚ) / l.length).prod else 0 := by
  intro n
  induction n with
  | zero =>
    intro s
    show prob (.done (.ok [])) s = _
    rw [prob_done]
    cases s <;> simp
  | succ n ih =>
    intro s
    unfold stringLoop
    cases s with
    | nil =>
      rw [prob_bind]
      have : (fun a => prob (stringLoop l n >>= fun rest => pure (a :: rest)) []) = fun _ => (0 : ℚ) := by
        funext a; exact prob_bind_cons_nil _ _
      rw [this, expect_zero]
      simp
    | cons c s =>
      rw [prob_bind]
      have : (fun a => prob (stringLoop l n >>= fun rest => pure (a :: rest)) (c :: s)) = fun a => if a = c then prob (stringLoop l n) s else 0 := by
        funext a; exact prob_bind_cons _ _ _ _
      rw [this, expect_indicator, C15_select_uniform l h hlen, ih]
      by_cases hs : s.length = n
      · rw [if_pos hs, if_pos (by simp [hs]), List.map_cons, List.prod_cons]
      · rw [if_neg hs, if_neg (by simp [hs]), mul_zero]

/-- **C110.** The characters of `Random::string(n, alphabet)` are chosen independently, each with the share of its occurrences in the alphabet;
other strings than those of length `n` have probability 0. -/
theorem C110_string_law (n : Int) (alphabet : List Char) (h0 : 0 ≤ n) (h1 : n ≤ 0xFFFFFFFF) (ha : alphabet ≠ []) (hlen : alphabet.length < 2 ^ 63)
    (s : List Char) :
    prob (randomString n alphabet) s = if (s.length : Int) = n then (s.map fun c => (alphabet.count c : ℚ) / alphabet.length).prod else 0 := by
  unfold randomString
  rw [decide_eq_true (And.intro h0 h1), judgeAssert_true, Rand.lift_ok, Rand.bind_done_ok, decide_eq_true ha, judgeAssert_true,
    Rand.lift_ok, Rand.bind_done_ok, stringLoop_prob alphabet (List.length_pos_iff.2 ha) hlen]
  exact if_congr (by omega) rfl rfl

/-- **C110.** With an alphabet of a class of characters all strings of length `n` over this class are equally likely, and there are no others. -/
theorem C110_string_uniform (n : Int) (alphabet : List Char) (p : Char → Prop) (hal : AlphabetOf alphabet p) (h0 : 0 ≤ n) (h1 : n ≤ 0xFFFFFFFF)
    (ha : alphabet ≠ []) (hlen : alphabet.length < 2 ^ 63) :
    SatOk (randomString n alphabet) (fun s => (s.length : Int) = n ∧ ∀ c ∈ s, p c) ∧
    ∀ s : List Char, (s.length : Int) = n → (∀ c ∈ s, p c) → prob (randomString n alphabet) s = 1 / (alphabet.length : ℚ) ^ n.toNat := by
  constructor
  · exact (C15_string n alphabet h0 h1 ha hlen).mono fun s hs => ⟨by omega, fun c hc => (hal.2 c).1 (hs.2 c hc)⟩
  · intro s hs hp
    rw [C110_string_law n alphabet h0 h1 ha hlen, if_pos hs]
    have : ∀ s : List Char, (∀ c ∈ s, p c) → (s.map fun c => (alphabet.count c : ℚ) / alphabet.length).prod = (1 / (alphabet.length : ℚ)) ^ s.length := by
      intro s
      induction s with
      | nil => intro _; simp
      | cons c s ih =>
        intro h
        rw [List.map_cons, List.prod_cons, ih fun x hx => h x (by simp [hx]), List.count_eq_one_of_mem hal.1 ((hal.2 c).2 (h c (by simp))), List.length_cons,
          pow_succ', Nat.cast_one]
    rw [this s hp, one_div_pow, show s.length = n.toNat by omega]

/-- **C110.** `Random::string(n)` makes all strings of `n` small letters with the same probability. -/
theorem C110_string_default (n : Int) (h0 : 0 ≤ n) (h1 : n ≤ 0xFFFFFFFF) (s : List Char) (hs : (s.length : Int) = n) (hp : ∀ c ∈ s, SmallLetter c) :
    prob (randomStringDefault n) s = 1 / (26 : ℚ) ^ n.toNat := by
  have := (C110_string_uniform n LOWER SmallLetter C110_alphabets.2.2.1 h0 h1 (by decide +kernel) (by decide +kernel)).2 s hs hp
  rw [show LOWER.length = 26 by decide +kernel] at this
  exact_mod_cast this

/-- **C110.** All rotations are equally likely. -/
theorem C110_rotate_uniform {α : Type} [DecidableEq α] (l : List α) (hlen : l.length < 2 ^ 63) (k : Nat) (hk : k < l.length) :
    prob (rotate l) (l.rotate k, (k : Int)) = 1 / (l.length : ℚ) := by
  unfold rotate
  have := prob_integer_unique (f := fun r => (pure (l.drop r.toNat ++ l.take r.toNat, r) : Rand (List α × Int))) (b := (l.rotate k, (k : Int)))
    (v := k) (q := 1) i64_zero (i64_nat hlen) (by omega) (by omega) ?_ ?_
  · rw [this]; simp
  · show prob (.done (.ok _)) _ = _
    rw [prob_done, if_pos]
    rw [List.rotate_eq_drop_append_take (by omega)]
    rfl
  · intro w _ _ hw
    show prob (.done (.ok _)) _ = _
    rw [prob_done, if_neg]
    intro h
    exact hw (Prod.mk.inj h).2

/-- **C110.** `Random::shuffle` of a pair exchanges its parts with probability 1/2. -/
theorem C110_shufflePair {α : Type} [DecidableEq α] (x y : α) (q : α × α) :
    prob (shufflePair (x, y)) q = ((if (x, y) = q then 1 else 0) + (if (y, x) = q then 1 else 0)) / 2 := by
  show (prob (.done (.ok (x, y))) q + prob (.done (.ok (y, x))) q) / 2 = _
  rw [prob_done, prob_done]

example : prob (shufflePair (1, 2)) (2, 1) = 1 / 2 := by rw [C110_shufflePair]; norm_num

example : prob (randomStringDefault 3) ['a', 'z', 'q'] = 1 / 17576 := by
  rw [C110_string_default 3 (by norm_num) (by norm_num) _ rfl (by decide), show (3 : Int).toNat = 3 from rfl]; norm_num

example : prob (rotate ['a', 'a', 'b']) (['a', 'b', 'a'], 1) = 1 / 3 := C110_rotate_uniform ['a', 'a', 'b'] (by decide) 1 (by decide)

end ICPC.Props
