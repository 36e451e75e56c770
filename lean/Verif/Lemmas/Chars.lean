import Verif.Model.Chars
import Verif.Spec.Chars
import Mathlib.Data.List.Forall2

namespace ICPC
open ICPC.Spec

theorem char_eq_of_toNat {a b : Char} (h : a.toNat = b.toNat) : a = b := by
  apply Char.ext; exact UInt32.toNat.inj h

theorem le_iff_toNat {a b : Char} : a ≤ b ↔ a.toNat ≤ b.toNat := Iff.rfl

theorem isUpperC_iff (c : Char) : isUpperC c = true ↔ 65 ≤ c.toNat ∧ c.toNat ≤ 90 := by
  simp [isUpperC, le_iff_toNat]

theorem isLowerC_iff (c : Char) : isLowerC c = true ↔ 97 ≤ c.toNat ∧ c.toNat ≤ 122 := by
  simp [isLowerC, le_iff_toNat]

theorem isUpperC_letter (c : Char) : isUpperC c = true ↔ ∃ i, c = upperLetter i := by
  rw [isUpperC_iff]
  constructor
  · rintro ⟨h1, h2⟩
    refine ⟨⟨c.toNat - 65, by omega⟩, ?_⟩
    simp only [upperLetter]
    rw [show 65 + (c.toNat - 65) = c.toNat by omega, Char.ofNat_toNat]
  · rintro ⟨i, rfl⟩
    revert i; decide

theorem isLowerC_letter (c : Char) : isLowerC c = true ↔ ∃ i, c = lowerLetter i := by
  rw [isLowerC_iff]
  constructor
  · rintro ⟨h1, h2⟩
    refine ⟨⟨c.toNat - 97, by omega⟩, ?_⟩
    simp only [lowerLetter]
    rw [show 97 + (c.toNat - 97) = c.toNat by omega, Char.ofNat_toNat]
  · rintro ⟨i, rfl⟩
    revert i; decide

theorem toLowerC_upper (i : Fin 26) : toLowerC (upperLetter i) = lowerLetter i := by revert i; decide

theorem toLowerC_lower (i : Fin 26) : toLowerC (lowerLetter i) = lowerLetter i := by revert i; decide

theorem toUpperC_lower (i : Fin 26) : toUpperC (lowerLetter i) = upperLetter i := by revert i; decide

theorem toUpperC_upper (i : Fin 26) : toUpperC (upperLetter i) = upperLetter i := by revert i; decide

theorem toLowerC_other (c : Char) (h : ∀ i, c ≠ upperLetter i) : toLowerC c = c := by
  have : isUpperC c = false := by
    rw [Bool.eq_false_iff, Ne, isUpperC_letter]; rintro ⟨i, hi⟩; exact h i hi
  simp [toLowerC, this]

theorem toUpperC_other (c : Char) (h : ∀ i, c ≠ lowerLetter i) : toUpperC c = c := by
  have : isLowerC c = false := by
    rw [Bool.eq_false_iff, Ne, isLowerC_letter]; rintro ⟨i, hi⟩; exact h i hi
  simp [toUpperC, this]

theorem toLowerC_eq_iff (a b : Char) : toLowerC a = toLowerC b ↔ SameLetter a b := by
  constructor
  · intro h
    by_cases ha : ∃ i, a = upperLetter i
    · obtain ⟨i, rfl⟩ := ha
      by_cases hb : ∃ j, b = upperLetter j
      · obtain ⟨j, rfl⟩ := hb
        rw [toLowerC_upper, toLowerC_upper] at h
        have : i = j := by revert i j; decide
        subst this; exact .refl _
      · rw [toLowerC_other b (fun j hj => hb ⟨j, hj⟩), toLowerC_upper] at h
        subst h; exact .ul i
    · rw [toLowerC_other a (fun j hj => ha ⟨j, hj⟩)] at h
      by_cases hb : ∃ j, b = upperLetter j
      · obtain ⟨j, rfl⟩ := hb
        rw [toLowerC_upper] at h; subst h; exact .lu j
      · rw [toLowerC_other b (fun j hj => hb ⟨j, hj⟩)] at h
        subst h; exact .refl _
  · intro h
    cases h with
    | refl => rfl
    | lu i => rw [toLowerC_lower, toLowerC_upper]
    | ul i => rw [toLowerC_lower, toLowerC_upper]

theorem toUpperC_eq_iff (a b : Char) : toUpperC a = toUpperC b ↔ SameLetter a b := by
  constructor
  · intro h
    by_cases ha : ∃ i, a = lowerLetter i
    · obtain ⟨i, rfl⟩ := ha
      by_cases hb : ∃ j, b = lowerLetter j
      · obtain ⟨j, rfl⟩ := hb
        rw [toUpperC_lower, toUpperC_lower] at h
        have : i = j := by revert i j; decide
        subst this; exact .refl _
      · rw [toUpperC_other b (fun j hj => hb ⟨j, hj⟩), toUpperC_lower] at h
        subst h; exact .lu i
    · rw [toUpperC_other a (fun j hj => ha ⟨j, hj⟩)] at h
      by_cases hb : ∃ j, b = lowerLetter j
      · obtain ⟨j, rfl⟩ := hb
        rw [toUpperC_lower] at h; subst h; exact .ul j
      · rw [toUpperC_other b (fun j hj => hb ⟨j, hj⟩)] at h
        subst h; exact .refl _
  · intro h
    cases h with
    | refl => rfl
    | lu i => rw [toUpperC_lower, toUpperC_upper]
    | ul i => rw [toUpperC_lower, toUpperC_upper]

theorem toDefaultCaseC_eq_iff (dl : Bool) (a b : Char) :
    toDefaultCaseC dl a = toDefaultCaseC dl b ↔ SameLetter a b := by
  cases dl
  · exact toUpperC_eq_iff a b
  · exact toLowerC_eq_iff a b

theorem stringEqualLoop_value (dl : Bool) (a : List Char) : ∀ (b : List Char) (i : Nat) (cs : Bool),
    ((stringEqualLoop dl cs a b i).value = true ↔
      List.Forall₂ (fun x y => if cs then x = y else SameLetter x y) a b) ∧
    ((stringEqualLoop dl cs a b i).value = false → ∃ k, (stringEqualLoop dl cs a b i).reason = some (i + k) ∧
      List.Forall₂ (fun x y => if cs then x = y else SameLetter x y) (a.take k) (b.take k) ∧
      ¬ List.Forall₂ (fun x y => if cs then x = y else SameLetter x y) (a.take (k + 1)) (b.take (k + 1))) := by
  induction a with
  | nil =>
    intro b i cs
    cases b with
    | nil => simp [stringEqualLoop]
    | cons y b => exact ⟨by simp [stringEqualLoop], fun _ => ⟨0, by simp [stringEqualLoop], by simp, by simp⟩⟩
  | cons x a ih =>
    intro b i cs
    cases b with
    | nil => exact ⟨by simp [stringEqualLoop], fun _ => ⟨0, by simp [stringEqualLoop], by simp, by simp⟩⟩
    | cons y b =>
      unfold stringEqualLoop
      have key : ((if !cs then toDefaultCaseC dl x else x) = (if !cs then toDefaultCaseC dl y else y)) ↔
          (if cs then x = y else SameLetter x y) := by
        cases cs <;> simp [toDefaultCaseC_eq_iff]
      by_cases h : (if !cs then toDefaultCaseC dl x else x) = (if !cs then toDefaultCaseC dl y else y)
      · obtain ⟨h1, h2⟩ := ih b (i + 1) cs
        simp only [ne_eq, h, not_true_eq_false, if_false]
        have hk := key.1 h
        refine ⟨by rw [h1, List.forall₂_cons]; simp [hk], fun hf => ?_⟩
        obtain ⟨k, hr, ht, hn⟩ := h2 hf
        refine ⟨k + 1, by rw [hr]; congr 1; omega, ?_, ?_⟩
        · simpa [List.take_succ_cons, hk] using ht
        · simpa [List.take_succ_cons, hk] using hn
      · simp only [ne_eq, h, not_false_eq_true, if_true]
        have hk : ¬ (if cs then x = y else SameLetter x y) := fun hc => h (key.2 hc)
        refine ⟨by simp [hk], fun _ => ⟨0, by simp, by simp, ?_⟩⟩
        simp [hk]

theorem allChars_spec (p : Char → Bool) (s : List Char) :
    ((allChars p s).value = true ↔ ∀ c ∈ s, p c = true) ∧
    ((allChars p s).value = false → ∃ a c b, s = a ++ c :: b ∧ (allChars p s).reason = some c ∧ p c = false ∧
      ∀ d ∈ a, p d = true) := by
  induction s with
  | nil => simp [allChars]
  | cons c cs ih =>
    unfold allChars
    by_cases h : p c = true
    · simp only [h, Bool.not_true, Bool.false_eq_true, if_false]
      refine ⟨by rw [ih.1]; simp [h], fun hf => ?_⟩
      obtain ⟨a, d, b, rfl, hr, hp, ha⟩ := ih.2 hf
      exact ⟨c :: a, d, b, rfl, hr, hp, by simpa [h] using ha⟩
    · have h' : p c = false := by simpa using h
      simp only [h', Bool.not_false, if_true]
      exact ⟨by simp [h'], fun _ => ⟨[], c, cs, rfl, rfl, h', by simp⟩⟩

theorem isLowerS_spec (s : List Char) : isLowerS s = true ↔ ∀ c ∈ s, isLowerC c = true := by
  induction s with
  | nil => simp [isLowerS]
  | cons c cs ih =>
    unfold isLowerS
    by_cases h : isLowerC c = true
    · simp [h, ih]
    · have h' : isLowerC c = false := by simpa using h
      simp [h']

end ICPC
