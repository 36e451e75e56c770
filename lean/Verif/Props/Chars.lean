import Verif.Lemmas.Chars

/-!
# Property theorem C22 (case handling and string comparison)
-/

namespace ICPC.Props
open ICPC ICPC.Spec

/-- **C22 (characters).** `toLower` maps the 26 ASCII upper case letters to the corresponding lower case
letters and fixes every other character; `toUpper` does the converse. -/
theorem C22_case_mapping :
    (∀ i, toLowerC (upperLetter i) = lowerLetter i) ∧
    (∀ c, (∀ i, c ≠ upperLetter i) → toLowerC c = c) ∧
    (∀ i, toUpperC (lowerLetter i) = upperLetter i) ∧
    (∀ c, (∀ i, c ≠ lowerLetter i) → toUpperC c = c) :=
  ⟨toLowerC_upper, toLowerC_other, toUpperC_lower, toUpperC_other⟩

example : toDefaultCaseC true 'Q' = 'q' ∧ toDefaultCaseC false 'q' = 'Q' := by decide

example : toLowerC 'Q' = 'q' ∧ toLowerC '{' = '{' ∧ toUpperC 'z' = 'Z' := by decide

/-- **C22 (classification).** The character predicates accept exactly the documented ASCII sets. -/
theorem C22_classification (c : Char) :
    (isLowerC c = true ↔ ∃ i, c = lowerLetter i) ∧
    (isUpperC c = true ↔ ∃ i, c = upperLetter i) ∧
    (isLetterC c = true ↔ (∃ i, c = lowerLetter i) ∨ ∃ i, c = upperLetter i) ∧
    (isDigitC c = true ↔ 48 ≤ c.toNat ∧ c.toNat ≤ 57) ∧
    (isVowelC c = true ↔ c ∈ ['A', 'E', 'I', 'O', 'U', 'a', 'e', 'i', 'o', 'u']) ∧
    (isConsonantC c = true ↔ ((∃ i, c = lowerLetter i) ∨ ∃ i, c = upperLetter i) ∧
      c ∉ ['A', 'E', 'I', 'O', 'U', 'a', 'e', 'i', 'o', 'u']) := by
  have hv : isVowelC c = true ↔ c ∈ ['A', 'E', 'I', 'O', 'U', 'a', 'e', 'i', 'o', 'u'] := by
    by_cases hu : ∃ i, c = upperLetter i
    · obtain ⟨i, rfl⟩ := hu
      revert i; decide
    · have h1 : toLowerC c = c := toLowerC_other c (fun i hi => hu ⟨i, hi⟩)
      have hA : ∀ d ∈ ['A', 'E', 'I', 'O', 'U'], c ≠ d := by
        intro d hd hcd
        have : ∀ d ∈ ['A', 'E', 'I', 'O', 'U'], ∃ i, d = upperLetter i := by decide
        exact hu (hcd ▸ this d hd)
      simp only [isVowelC, h1, LOWER_VOWELS]
      simp only [List.mem_cons, List.not_mem_nil, or_false, forall_eq_or_imp, forall_eq] at hA
      simp [hA]
  have hL : isLetterC c = true ↔ (∃ i, c = lowerLetter i) ∨ ∃ i, c = upperLetter i := by
    simp only [isLetterC, Bool.or_eq_true, isLowerC_letter, isUpperC_letter]
  refine ⟨isLowerC_letter c, isUpperC_letter c, hL, by simp [isDigitC, le_iff_toNat], hv, ?_⟩
  simp only [isConsonantC, Bool.and_eq_true, hL, Bool.not_eq_true', Bool.eq_false_iff, Ne, hv]

/-- **C22 (comparison).** `stringEqual(a, b, true)` holds iff the strings are identical;
`stringEqual(a, b, false)` iff they agree up to ASCII case, whichever default case is configured. -/
theorem C22_stringEqual (defaultLower : Bool) (a b : List Char) :
    ((stringEqual defaultLower a b true).value = true ↔ a = b) ∧
    ((stringEqual defaultLower a b false).value = true ↔ List.Forall₂ SameLetter a b) := by
  constructor
  · rw [stringEqual, (stringEqualLoop_value defaultLower a b 0 true).1]; simp
  · rw [stringEqual, (stringEqualLoop_value defaultLower a b 0 false).1]; simp

/-- **C22 (witness of the comparison).** If the strings differ, the reported position is the length of the
longest common prefix (up to case if not case sensitive): the prefixes of this length agree, the ones that are
one longer do not. -/
theorem C22_stringEqual_witness (defaultLower : Bool) (a b : List Char) (cs : Bool)
    (h : (stringEqual defaultLower a b cs).value = false) :
    ∃ k, (stringEqual defaultLower a b cs).reason = some k ∧
      List.Forall₂ (fun x y => if cs then x = y else SameLetter x y) (a.take k) (b.take k) ∧
      ¬ List.Forall₂ (fun x y => if cs then x = y else SameLetter x y) (a.take (k + 1)) (b.take (k + 1)) := by
  obtain ⟨k, h1, h2, h3⟩ := (stringEqualLoop_value defaultLower a b 0 cs).2 h
  exact ⟨k, by rw [stringEqual, h1]; simp, h2, h3⟩

example : (stringEqual true "Yes".toList "yES".toList false).value = true := by decide

example : stringEqual true "Yes".toList "yEx".toList false = { value := false, reason := some 2 } := by decide

example : stringEqual true "Yes".toList "Yes!".toList false = { value := false, reason := some 3 } ∧
    stringEqual true "Yes!".toList "Yes".toList true = { value := false, reason := some 3 } := by decide

example : (stringEqual true "Yes".toList "yes".toList true).value = false := by decide

/-- **C22 (strings).** `toLower` and `toUpper` on strings keep the length, are idempotent, and undo each other
on the other's image. -/
theorem C22_case_strings (s : List Char) :
    (toLowerS s).length = s.length ∧ (toUpperS s).length = s.length ∧
    toLowerS (toLowerS s) = toLowerS s ∧ toUpperS (toUpperS s) = toUpperS s ∧
    toLowerS (toUpperS s) = toLowerS s ∧ toUpperS (toLowerS s) = toUpperS s := by
  have h1 : ∀ c, SameLetter (toLowerC c) c := by
    intro c
    by_cases h : ∃ i, c = upperLetter i
    · obtain ⟨i, rfl⟩ := h; rw [toLowerC_upper]; exact .lu i
    · rw [toLowerC_other c (fun i hi => h ⟨i, hi⟩)]; exact .refl c
  have h2 : ∀ c, SameLetter (toUpperC c) c := by
    intro c
    by_cases h : ∃ i, c = lowerLetter i
    · obtain ⟨i, rfl⟩ := h; rw [toUpperC_lower]; exact .ul i
    · rw [toUpperC_other c (fun i hi => h ⟨i, hi⟩)]; exact .refl c
  refine ⟨by simp [toLowerS], by simp [toUpperS], ?_, ?_, ?_, ?_⟩ <;>
    simp only [toLowerS, toUpperS, List.map_map] <;> apply List.map_congr_left <;> intro c _
  · exact (toLowerC_eq_iff _ _).2 (h1 c)
  · exact (toUpperC_eq_iff _ _).2 (h2 c)
  · exact (toLowerC_eq_iff _ _).2 (h2 c)
  · exact (toUpperC_eq_iff _ _).2 (h1 c)

/-- **C22 (string classification).** Each string predicate is true iff all characters satisfy the character
predicate; all of them except `isLower` (which returns a plain `bool`, src/validate.h 748) report the first
offending character. -/
theorem C22_string_classification (s : List Char) :
    (isLowerS s = true ↔ ∀ c ∈ s, ∃ i, c = lowerLetter i) ∧
    ((isUpperS s).value = true ↔ ∀ c ∈ s, ∃ i, c = upperLetter i) ∧
    ((isDigitS s).value = true ↔ ∀ c ∈ s, 48 ≤ c.toNat ∧ c.toNat ≤ 57) ∧
    (∀ p ∈ [isUpperC, isLetterC, isDigitC, isVowelC, isConsonantC],
      ((allChars p s).value = true ↔ ∀ c ∈ s, p c = true) ∧
      ((allChars p s).value = false → ∃ a c b, s = a ++ c :: b ∧ (allChars p s).reason = some c ∧ p c = false ∧
        ∀ d ∈ a, p d = true)) := by
  refine ⟨?_, ?_, ?_, fun p _ => allChars_spec p s⟩
  · rw [isLowerS_spec]; simp only [isLowerC_letter]
  · rw [isUpperS, (allChars_spec _ _).1]; simp only [isUpperC_letter]
  · rw [isDigitS, (allChars_spec _ _).1]; simp [isDigitC, le_iff_toNat]

example : isDigitS "12x4y".toList = { value := false, reason := some 'x' } := by decide

/-- **C22 (tokens).** `isToken` accepts exactly the non-empty strings without white space. -/
theorem C22_isToken (s : List Char) : isToken s = true ↔ s ≠ [] ∧ ∀ c ∈ s, ¬ IsSpace c := by
  have key : ∀ c : Char, (!(c == ' ' || c == '\n' || c == '\r' || c == '\t' || c == Char.ofNat 12 ||
      c == Char.ofNat 11)) = true ↔ ¬ IsSpace c := by
    intro c
    have e : ∀ d : Char, (c == d) = true ↔ c.toNat = d.toNat := by
      intro d; rw [beq_iff_eq]; exact ⟨fun h => by rw [h], char_eq_of_toNat⟩
    rw [Bool.not_eq_true', Bool.eq_false_iff, Ne, not_iff_not]
    simp only [Bool.or_eq_true, e, IsSpace]
    have h1 : ' '.toNat = 32 := rfl
    have h2 : '\n'.toNat = 10 := rfl
    have h3 : '\r'.toNat = 13 := rfl
    have h4 : '\t'.toNat = 9 := rfl
    have h5 : (Char.ofNat 12).toNat = 12 := rfl
    have h6 : (Char.ofNat 11).toNat = 11 := rfl
    rw [h1, h2, h3, h4, h5, h6]
    omega
  unfold isToken
  cases s with
  | nil => simp
  | cons c cs =>
    simp only [List.isEmpty_cons, Bool.false_eq_true, if_false, List.all_eq_true, key]
    simp

example : isToken "a-b".toList = true ∧ isToken "a b".toList = false ∧ isToken [] = false := by decide

end ICPC.Props
