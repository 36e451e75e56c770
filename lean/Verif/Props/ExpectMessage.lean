import Verif.Model.ExpectMessage
import Verif.Spec.ExpectMessage
import Verif.Props.Chars

/-!
# C86: the message of `expectString`
-/

namespace ICPC.Props

open ICPC.Spec ICPC.Spec.Shown ICPC.ExpectMessage

private theorem dots_length : dots.length = 5 := rfl

/-- What `format` returns, case by case. -/
private theorem format_eq (pos : Nat) (s : List Char) : format pos s = .ok (
    if s.length ≤ 25 then s
    else if pos ≤ 17 ∨ s.length ≤ pos then s.take 20 ++ dots
    else if pos + 7 > s.length then s.take 10 ++ dots ++ s.drop (pos - 2)
    else s.take 10 ++ dots ++ (s.drop (pos - 2)).take 5 ++ dots) := by
  have hsub : ¬ (pos ≤ 17 ∨ s.length ≤ pos) → FailMessage.substr s (pos - 2) = .ok (s.drop (pos - 2)) := by
    intro h
    unfold FailMessage.substr
    rw [if_neg (by omega)]
  have hform : format pos s = if s.length ≤ 25 then .ok s
      else if pos ≤ 17 ∨ s.length ≤ pos then .ok (s.take 20 ++ dots)
      else if pos + 7 > s.length then (FailMessage.substr s (pos - 2)) >>= fun t => .ok (s.take 10 ++ dots ++ t)
      else (FailMessage.substr s (pos - 2)) >>= fun t => .ok (s.take 10 ++ dots ++ t.take 5 ++ dots) := rfl
  rw [hform]
  by_cases h1 : s.length ≤ 25
  · rw [if_pos h1, if_pos h1]
  · rw [if_neg h1, if_neg h1]
    by_cases h2 : pos ≤ 17 ∨ s.length ≤ pos
    · rw [if_pos h2, if_pos h2]
    · rw [if_neg h2, if_neg h2, hsub h2]
      by_cases h3 : pos + 7 > s.length
      · rw [if_pos h3, if_pos h3]; rfl
      · rw [if_neg h3, if_neg h3]; rfl

private theorem format_excerpt (pos : Nat) (s : List Char) : ∃ e, format pos s = .ok e ∧ Excerpt pos s e ∧ e.length ≤ 25 := by
  refine ⟨_, format_eq pos s, ?_⟩
  by_cases h1 : s.length ≤ 25
  · rw [if_pos h1]; exact ⟨.whole s, h1⟩
  rw [if_neg h1]
  by_cases h2 : pos ≤ 17 ∨ s.length ≤ pos
  · rw [if_pos h2]
    refine ⟨?_, by simp [dots_length]; omega⟩
    have := Excerpt.front (pos := pos) (s.take 20) (s.drop 20) (by intro h; have := congrArg List.length h; simp at this; omega)
      (by simp; omega)
    rwa [List.take_append_drop] at this
  rw [if_neg h2]
  have hb : (s.drop 10).take (pos - 12) ≠ [] := by
    intro h; have := congrArg List.length h; simp at this; omega
  have hsplit : s.take 10 ++ (s.drop 10).take (pos - 12) ++ s.drop (pos - 2) = s := by
    rw [show pos - 2 = 10 + (pos - 12) by omega, ← List.drop_drop, List.append_assoc, List.take_append_drop, List.take_append_drop]
  by_cases h3 : pos + 7 > s.length
  · rw [if_pos h3]
    refine ⟨?_, by simp [dots_length]; omega⟩
    have := Excerpt.ends (pos := pos) (s.take 10) ((s.drop 10).take (pos - 12)) (s.drop (pos - 2)) hb (by simp; omega)
      (by rw [hsplit]; omega)
    rwa [hsplit] at this
  · rw [if_neg h3]
    refine ⟨?_, by simp [dots_length]; omega⟩
    have := Excerpt.middle (pos := pos) (s.take 10) ((s.drop 10).take (pos - 12)) ((s.drop (pos - 2)).take 5) ((s.drop (pos - 2)).drop 5) hb
      (by intro h; have := congrArg List.length h; simp at this; omega) (by simp; omega) (by simp; omega)
    rwa [List.append_assoc _ (List.take 5 _), List.take_append_drop, hsplit] at this

private theorem differ_get {R : Char → Char → Prop} (hR : ∀ c, R c c) {a b : List Char} {k : Nat} (h : DifferAt R a b k) :
    a[k]? ≠ b[k]? ∧ k ≤ a.length ∧ k ≤ b.length := by
  obtain ⟨h1, h2⟩ := h
  have hne : a[k]? ≠ b[k]? := by
    intro he
    apply h2
    rw [List.take_add_one, List.take_add_one, he]
    refine List.rel_append h1 ?_
    cases b[k]? with
    | none => exact .nil
    | some c => exact .cons (hR c) .nil
  have hl := h1.length_eq
  rw [List.length_take, List.length_take] at hl
  have : ¬ (a.length ≤ k ∧ b.length ≤ k) := by
    rintro ⟨ha, hb⟩
    exact hne (by rw [List.getElem?_eq_none ha, List.getElem?_eq_none hb])
  exact ⟨hne, by omega, by omega⟩

/-- The excerpts differ unless one of the strings contains the dots. -/
private theorem format_differ {a b x y : List Char} {k : Nat} (hne : a[k]? ≠ b[k]?) (hka : k ≤ a.length) (hkb : k ≤ b.length)
    (ha : ¬ dots <:+: a) (hb : ¬ dots <:+: b) (hx : format k a = .ok x) (hy : format k b = .ok y) : x ≠ y := by
  rw [format_eq] at hx hy
  have hx := Except.ok.inj hx
  have hy := Except.ok.inj hy
  have hab : ¬ (a.length ≤ k ∧ b.length ≤ k) := by
    rintro ⟨ha, hb⟩
    exact hne (by rw [List.getElem?_eq_none ha, List.getElem?_eq_none hb])
  rintro rfl
  -- long strings whose window is shown
  have hwin : ∀ s : List Char, ¬ s.length ≤ 25 → ¬ (k ≤ 17 ∨ s.length ≤ k) → ∀ z,
      (if k + 7 > s.length then s.take 10 ++ dots ++ s.drop (k - 2) else s.take 10 ++ dots ++ (s.drop (k - 2)).take 5 ++ dots) = z →
      z[17]? = s[k]? ∧ (z.drop 10).take 5 = dots := by
    intro s h1 h2 z hz
    have hlen : (s.take 10).length = 10 := by simp; omega
    have hrest : ∃ t, z = s.take 10 ++ (dots ++ t) ∧ t[2]? = s[k]? := by
      by_cases h3 : k + 7 > s.length
      · rw [if_pos h3] at hz
        refine ⟨s.drop (k - 2), by rw [← hz, List.append_assoc], ?_⟩
        rw [List.getElem?_drop]; congr 1; omega
      · rw [if_neg h3] at hz
        refine ⟨(s.drop (k - 2)).take 5 ++ dots, by rw [← hz]; simp only [List.append_assoc], ?_⟩
        rw [List.getElem?_append_left (by simp; omega), List.getElem?_take_of_lt (by omega), List.getElem?_drop]
        congr 1; omega
    obtain ⟨t, rfl, ht⟩ := hrest
    constructor
    · rw [List.getElem?_append_right (by omega), hlen, List.getElem?_append_right (by simp [dots_length]), dots_length]
      exact ht
    · rw [List.drop_append_of_le_length (by omega), List.drop_of_length_le (by omega), List.nil_append, List.take_left' dots_length]
  -- all long excerpts contain the dots
  have hdots : ∀ s z : List Char, ¬ s.length ≤ 25 → (if k ≤ 17 ∨ s.length ≤ k then s.take 20 ++ dots
      else if k + 7 > s.length then s.take 10 ++ dots ++ s.drop (k - 2) else s.take 10 ++ dots ++ (s.drop (k - 2)).take 5 ++ dots) = z →
      dots <:+: z := by
    intro s z h1 hz
    rw [← hz]
    split
    · exact ⟨s.take 20, [], by simp⟩
    split
    · exact ⟨s.take 10, s.drop (k - 2), rfl⟩
    · exact ⟨s.take 10, (s.drop (k - 2)).take 5 ++ dots, by simp only [List.append_assoc]⟩
  -- a long string shown by its beginning has no dots in the middle of it
  have hbeg : ∀ s z : List Char, ¬ s.length ≤ 25 → ¬ dots <:+: s → s.take 20 ++ dots = z → (z.drop 10).take 5 ≠ dots := by
    intro s z h1 hs hz he
    apply hs
    rw [← hz, List.drop_append_of_le_length (by simp; omega), List.take_append_of_le_length (by simp; omega)] at he
    refine ⟨s.take 10, s.drop 15, ?_⟩
    rw [← he]
    rw [List.drop_take, List.take_take, List.append_assoc]
    have : List.take (min 5 (20 - 10)) (s.drop 10) ++ s.drop 15 = s.drop 10 := by
      rw [show 15 = 10 + 5 by rfl, ← List.drop_drop]
      exact List.take_append_drop 5 _
    rw [this, List.take_append_drop]
  by_cases la : a.length ≤ 25
  · rw [if_pos la] at hx
    by_cases lb : b.length ≤ 25
    · rw [if_pos lb] at hy
      exact hne (by rw [hx, hy])
    · rw [if_neg lb] at hy
      exact ha (hx ▸ hdots b x lb hy)
  · rw [if_neg la] at hx
    by_cases lb : b.length ≤ 25
    · rw [if_pos lb] at hy
      exact hb (hy ▸ hdots a x la hx)
    · rw [if_neg lb] at hy
      by_cases h17 : k ≤ 17
      · rw [if_pos (.inl h17)] at hx hy
        have : (a.take 20 ++ dots)[k]? = (b.take 20 ++ dots)[k]? := by rw [hx, hy]
        rw [List.getElem?_append_left (by simp; omega), List.getElem?_append_left (by simp; omega), List.getElem?_take_of_lt (by omega),
          List.getElem?_take_of_lt (by omega)] at this
        exact hne this
      · by_cases ka : a.length ≤ k
        · rw [if_pos (.inr ka)] at hx
          have kb : ¬ (k ≤ 17 ∨ b.length ≤ k) := by omega
          rw [if_neg kb] at hy
          exact hbeg a x la ha hx (hwin b lb kb x hy).2
        · by_cases kb : b.length ≤ k
          · rw [if_pos (.inr kb)] at hy
            have ka' : ¬ (k ≤ 17 ∨ a.length ≤ k) := by omega
            rw [if_neg ka'] at hx
            exact hbeg b x lb hb hy (hwin a la ka' x hx).2
          · have ka' : ¬ (k ≤ 17 ∨ a.length ≤ k) := by omega
            have kb' : ¬ (k ≤ 17 ∨ b.length ≤ k) := by omega
            rw [if_neg ka'] at hx
            rw [if_neg kb'] at hy
            exact hne ((hwin a la ka' x hx).1.symm.trans (hwin b lb kb' x hy).1)

/-- When characters count as equal. -/
def SameChar (cs : Bool) (x y : Char) : Prop := if cs then x = y else SameLetter x y

private theorem sameChar_refl (cs : Bool) (c : Char) : SameChar cs c c := by
  unfold SameChar
  cases cs
  · exact .refl c
  · rfl

private theorem sameChar_comm (cs : Bool) {x y : Char} (h : SameChar cs x y) : SameChar cs y x := by
  unfold SameChar at *
  cases cs
  · simp only [Bool.false_eq_true, if_false] at *
    cases h with
    | refl => exact .refl _
    | lu i => exact .ul i
    | ul i => exact .lu i
  · simp only [if_true] at *; exact h.symm

private theorem differ_comm {cs : Bool} {a b : List Char} {k : Nat} (h : DifferAt (SameChar cs) a b k) : DifferAt (SameChar cs) b a k := by
  have hf : ∀ {u v : List Char}, List.Forall₂ (SameChar cs) u v → List.Forall₂ (SameChar cs) v u := by
    intro u v h
    exact (h.imp fun _ _ h => sameChar_comm cs h).flip
  exact ⟨hf h.1, fun h' => h.2 (hf h')⟩

/-- **C86.** If the strings are not equal, the message consists of an excerpt of each of them with at most 25 characters that shows the
character at the first difference, and the position (counted from 1) if it is larger than 6.  Nothing throws.  The two excerpts are
different unless one of the strings contains the text of the dots. -/
theorem C86_message_partial (defaultLower cs : Bool) (expected seen : List Char) (h : ¬ List.Forall₂ (SameChar cs) expected seen) :
    ∃ k e s, DifferAt (SameChar cs) expected seen k ∧ Excerpt k expected e ∧ Excerpt k seen s ∧ e.length ≤ 25 ∧ s.length ≤ 25 ∧
      (¬ dots <:+: expected → ¬ dots <:+: seen → e ≠ s) ∧
      message defaultLower cs expected seen = .ok (some ("Expected \"".toList ++ e ++ "\" but got \"".toList ++ s ++ "\"!".toList ++
        if k > 5 then " (different at position: ".toList ++ Nat.toDigits 10 (k + 1) ++ ")".toList else [])) := by
  have hval : (stringEqual defaultLower seen expected cs).value = false := by
    rw [Bool.eq_false_iff]
    intro hv
    apply h
    have h2 : List.Forall₂ (SameChar cs) seen expected := by
      cases cs with
      | true =>
        rw [(C22_stringEqual defaultLower seen expected).1.1 hv]
        exact List.forall₂_same.2 fun c _ => sameChar_refl _ c
      | false => exact (C22_stringEqual defaultLower seen expected).2.1 hv
    exact (h2.imp fun _ _ h => sameChar_comm cs h).flip
  obtain ⟨k, hk, h1, h2⟩ := C22_stringEqual_witness defaultLower seen expected cs hval
  have hd : DifferAt (SameChar cs) expected seen k := differ_comm ⟨h1, h2⟩
  obtain ⟨hne, ka, kb⟩ := differ_get (sameChar_refl cs) hd
  obtain ⟨e, he, hee, hel⟩ := format_excerpt k expected
  obtain ⟨s, hs, hse, hsl⟩ := format_excerpt k seen
  refine ⟨k, e, s, hd, hee, hse, hel, hsl, fun ha hb => format_differ hne ka kb ha hb he hs, ?_⟩
  unfold message
  simp only [hval, hk, he, hs, Bool.not_false, if_true]
  rfl

/-- **C86.** Equal strings give no message. -/
theorem C86_equal (defaultLower cs : Bool) (expected seen : List Char) (h : List.Forall₂ (SameChar cs) expected seen) :
    message defaultLower cs expected seen = .ok none := by
  have hval : (stringEqual defaultLower seen expected cs).value = true := by
    have h2 : List.Forall₂ (SameChar cs) seen expected := (h.imp fun _ _ h => sameChar_comm cs h).flip
    cases cs with
    | true =>
      refine (C22_stringEqual defaultLower seen expected).1.2 ?_
      exact List.forall₂_eq_eq_eq ▸ h2
    | false => exact (C22_stringEqual defaultLower seen expected).2.2 h2
  unfold message
  simp only [hval, Bool.not_true, Bool.false_eq_true, if_false]

/-- The same text is shown twice if one of the strings contains dots. -/
theorem C86_ellipsis_refuted :
    message true true "0123456789[...]abcab[...]".toList "0123456789[...]abcabcabxxxxxx".toList =
      .ok (some "Expected \"0123456789[...]abcab[...]\" but got \"0123456789[...]abcab[...]\"! (different at position: 21)".toList) := by
  decide +kernel

example : message true true "yes".toList "no".toList = .ok (some "Expected \"yes\" but got \"no\"!".toList) := by decide +kernel

example : message true true "abcdefghijklmnopqrstuvwxyz0123456789".toList "abcdefghijklmnopqrstuvwXyz0123456789".toList =
    .ok (some "Expected \"abcdefghij[...]vwxyz[...]\" but got \"abcdefghij[...]vwXyz[...]\"! (different at position: 24)".toList) := by
  decide +kernel

end ICPC.Props
