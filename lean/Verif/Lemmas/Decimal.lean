import Verif.Lemmas.Regex
import Verif.Model.Stream
import Mathlib.Data.List.Induction

/-! # Decimal notation: printing, matching and parsing -/

namespace ICPC
open Spec

theorem char_toNat_inj {a b : Char} (h : a.toNat = b.toNat) : a = b := by
  apply Char.ext
  exact UInt32.toNat_inj.1 h

theorem isDigitC_iff (c : Char) : isDigitC c = true ↔ 48 ≤ c.toNat ∧ c.toNat ≤ 57 := by
  simp only [isDigitC, Bool.and_eq_true, decide_eq_true_eq, Char.le_def, UInt32.le_iff_toNat_le]
  rfl

theorem range_iff (a b c : Char) : (decide (a ≤ c) && decide (c ≤ b)) = true ↔ a.toNat ≤ c.toNat ∧ c.toNat ≤ b.toNat := by
  simp only [Bool.and_eq_true, decide_eq_true_eq, Char.le_def, UInt32.le_iff_toNat_le]
  rfl

theorem digit_toNat {d : Nat} (h : d < 10) : (Char.ofNat (48 + d)).toNat = 48 + d := by
  have : ∀ d < 10, (Char.ofNat (48 + d)).toNat = 48 + d := by decide
  exact this d h

theorem digit_isDigit {d : Nat} (h : d < 10) : isDigitC (Char.ofNat (48 + d)) = true := by
  rw [isDigitC_iff, digit_toNat h]; omega

theorem digit_value {d : Nat} (h : d < 10) : digitValue (Char.ofNat (48 + d)) = d := by
  rw [digitValue, digit_toNat h]; omega

theorem digit_of {c : Char} (h : isDigitC c = true) : digitValue c < 10 ∧ c = Char.ofNat (48 + digitValue c) := by
  have h' := (isDigitC_iff c).1 h
  have h1 : digitValue c < 10 := by unfold digitValue; omega
  refine ⟨h1, char_toNat_inj ?_⟩
  rw [digit_toNat h1]; unfold digitValue; omega

theorem digitsValue_append (acc : Nat) (l : List Char) (c : Char) :
    digitsValue acc (l ++ [c]) = 10 * digitsValue acc l + digitValue c := by
  simp only [digitsValue, List.foldl_append, List.foldl_cons, List.foldl_nil]

theorem digitsValue_one (c : Char) : digitsValue 0 [c] = digitValue c := by
  simp only [digitsValue, List.foldl_cons, List.foldl_nil, Nat.mul_zero, Nat.zero_add]

theorem digitsValue_nil : digitsValue 0 [] = 0 := rfl

theorem natDecimal_digits (n : Nat) : ∀ c ∈ natDecimal n, isDigitC c = true := by
  induction n using Nat.strongRecOn with
  | _ n ih =>
    rw [natDecimal]
    split
    · rename_i h
      intro c hc
      rw [List.mem_singleton.1 hc]; exact digit_isDigit h
    · rename_i h
      intro c hc
      rcases List.mem_append.1 hc with hc | hc
      · exact ih (n / 10) (by omega) c hc
      · rw [List.mem_singleton.1 hc]; exact digit_isDigit (by omega)

theorem natDecimal_ne_nil (n : Nat) : natDecimal n ≠ [] := by
  rw [natDecimal]; split <;> simp

theorem natDecimal_value (n : Nat) : digitsValue 0 (natDecimal n) = n := by
  induction n using Nat.strongRecOn with
  | _ n ih =>
    rw [natDecimal]
    split
    · rename_i h
      rw [digitsValue_one, digit_value h]
    · rename_i h
      rw [digitsValue_append, ih (n / 10) (by omega), digit_value (by omega)]; omega

/-- The first digit of a positive number is not 0. -/
theorem natDecimal_head {n : Nat} (hn : 0 < n) : ∃ c l, natDecimal n = c :: l ∧ 49 ≤ c.toNat ∧ c.toNat ≤ 57 := by
  induction n using Nat.strongRecOn with
  | _ n ih =>
    rw [natDecimal]
    split
    · rename_i h
      exact ⟨_, _, rfl, by rw [digit_toNat h]; omega, by rw [digit_toNat h]; omega⟩
    · rename_i h
      obtain ⟨c, l, he, hc⟩ := ih (n / 10) (by omega) (by omega)
      rw [he]
      exact ⟨c, l ++ _, rfl, hc⟩

theorem natDecimal_of_digits {l : List Char} (hd : ∀ c ∈ l, isDigitC c = true) (h0 : ∃ c r, l = c :: r ∧ 49 ≤ c.toNat) :
    natDecimal (digitsValue 0 l) = l ∧ 0 < digitsValue 0 l := by
  induction l using List.reverseRecOn with
  | nil => obtain ⟨_, _, h, _⟩ := h0; cases h
  | append_singleton l c ih =>
    have hc := digit_of (hd c (by simp))
    rw [digitsValue_append]
    rcases l with _ | ⟨x, l⟩
    · obtain ⟨y, r, he, hy⟩ := h0
      simp only [List.nil_append, List.cons.injEq] at he
      obtain ⟨rfl, rfl⟩ := he
      have : 0 < digitValue c := by unfold digitValue; omega
      refine ⟨?_, by rw [digitsValue_nil]; omega⟩
      rw [natDecimal, if_pos (by rw [digitsValue_nil]; omega)]
      simp only [digitsValue_nil, Nat.mul_zero, Nat.zero_add, List.nil_append]
      rw [← hc.2]
    · obtain ⟨y, r, he, hy⟩ := h0
      simp only [List.cons_append, List.cons.injEq] at he
      obtain ⟨rfl, _⟩ := he
      obtain ⟨h1, h2⟩ := ih (fun z hz => hd z (List.mem_append_left _ hz)) ⟨x, l, rfl, hy⟩
      refine ⟨?_, by omega⟩
      rw [natDecimal, if_neg (by omega)]
      have e1 : (10 * digitsValue 0 (x :: l) + digitValue c) / 10 = digitsValue 0 (x :: l) := by omega
      have e2 : (10 * digitsValue 0 (x :: l) + digitValue c) % 10 = digitValue c := by omega
      rw [e1, e2, h1, ← hc.2]

/-- The words of `[1-9][0-9]*`. -/
theorem posInt_iff (w : List Char) :
    Lang (.cat (.range '1' '9') (.star (.range '0' '9'))) w ↔ ∃ n, 0 < n ∧ w = natDecimal n := by
  rw [lang_cat_iff]
  constructor
  · rintro ⟨u, v, rfl, h1, h2⟩
    obtain ⟨c, hc, rfl⟩ := lang_chr_iff.1 h1
    have h2 := lang_star_chr.1 h2
    rw [range_iff] at hc
    have hc1 : 49 ≤ c.toNat ∧ c.toNat ≤ 57 := hc
    have := natDecimal_of_digits (l := c :: v) (fun x hx => by
      rcases List.mem_cons.1 hx with rfl | hx
      · rw [isDigitC_iff]; omega
      · exact h2 x hx) ⟨c, v, rfl, hc1.1⟩
    exact ⟨_, this.2, this.1.symm⟩
  · rintro ⟨n, hn, rfl⟩
    obtain ⟨c, l, he, h1, h2⟩ := natDecimal_head hn
    refine ⟨[c], l, he, .chr ((range_iff _ _ _).2 ⟨h1, h2⟩), lang_star_chr.2 fun x hx => ?_⟩
    exact natDecimal_digits n x (by rw [he]; exact List.mem_cons_of_mem _ hx)

theorem lang_lit_iff (c : Char) (w : List Char) : Lang (.lit c) w ↔ w = [c] := by
  unfold Re.lit
  rw [lang_chr_iff]
  simp

/-- The pattern for integers describes exactly the canonical notations. -/
theorem integerRegex_iff (w : List Char) : Lang INTEGER_REGEX w ↔ ∃ v : Int, w = decimal v := by
  unfold INTEGER_REGEX Re.opt
  rw [lang_alt_iff, lang_cat_iff, lang_lit_iff]
  simp only [lang_alt_iff, lang_eps_iff, lang_lit_iff, posInt_iff]
  constructor
  · rintro (rfl | ⟨u, v, rfl, rfl | rfl, n, hn, rfl⟩)
    · exact ⟨0, by decide +kernel⟩
    · exact ⟨n, by simp [decimal]⟩
    · refine ⟨-n, ?_⟩
      rw [decimal, if_pos (by omega)]; simp
  · rintro ⟨v, rfl⟩
    rcases Int.lt_trichotomy v 0 with h | h | h
    · right
      refine ⟨['-'], natDecimal v.natAbs, by rw [decimal, if_pos h]; rfl, .inr rfl, _, by omega, rfl⟩
    · subst h; left; decide +kernel
    · right
      refine ⟨[], natDecimal v.natAbs, by rw [decimal, if_neg (by omega)]; rfl, .inl rfl, _, by omega, rfl⟩

theorem takeWhile_all {p : Char → Bool} {l r : List Char} (h : ∀ c ∈ l, p c = true) (hr : ∀ c t, r = c :: t → p c = false) :
    (l ++ r).takeWhile p = l ∧ (l ++ r).dropWhile p = r := by
  constructor
  · rw [List.takeWhile_append_of_pos h]
    cases r with
    | nil => simp
    | cons c t => simp [hr c t rfl]
  · rw [List.dropWhile_append_of_pos h]
    cases r with
    | nil => simp
    | cons c t => simp [hr c t rfl]

theorem natDecimal_head_ne {n : Nat} {c : Char} (hc : isDigitC c = false) : ∀ t, natDecimal n ≠ c :: t := by
  intro t h
  have := natDecimal_digits n c (by rw [h]; exact List.mem_cons_self)
  rw [hc] at this; cases this

theorem stripMinus_decimal (v : Int) : stripMinus (decimal v) = (decide (v < 0), natDecimal v.natAbs) := by
  unfold decimal
  by_cases h : v < 0
  · simp [h, stripMinus]
  · simp only [h, if_false]
    cases hd : natDecimal v.natAbs with
    | nil => exact absurd hd (natDecimal_ne_nil _)
    | cons c t =>
      have : c ≠ '-' := by rintro rfl; exact natDecimal_head_ne (by decide) t hd
      simp [stripMinus, this]

theorem fromChars_decimal (v : Int) : fromChars (decimal v) = if I64 v then some (v, []) else none := by
  have hs := takeWhile_all (r := []) (natDecimal_digits v.natAbs) (by intro c t h; cases h)
  rw [List.append_nil] at hs
  have he : (natDecimal v.natAbs).isEmpty = false := by
    have := natDecimal_ne_nil v.natAbs
    cases hx : natDecimal v.natAbs <;> simp_all
  unfold fromChars
  simp only [stripMinus_decimal, hs.1, hs.2, he, natDecimal_value]
  have e : (if decide (v < 0) = true then -(v.natAbs : Int) else (v.natAbs : Int)) = v := by
    by_cases h : v < 0
    · simp only [h, decide_true, if_true]; omega
    · simp only [h, decide_false]; simp; omega
  rw [e]; rfl

theorem stripPlus_decimal (v : Int) : stripPlus (decimal v) = decimal v := by
  unfold decimal
  split
  · rfl
  · cases hd : natDecimal v.natAbs with
    | nil => rfl
    | cons c t =>
      have : c ≠ '+' := by rintro rfl; exact natDecimal_head_ne (by decide) t hd
      simp [stripPlus, this]

theorem parseInteger_decimal (v : Int) : parseInteger (decimal v) = if I64 v then some v else none := by
  unfold parseInteger
  rw [stripPlus_decimal, fromChars_decimal]
  by_cases h : I64 v
  · simp only [h, if_true]
  · simp only [h, if_false]

theorem decimal_inj {v w : Int} (h : decimal v = decimal w) : v = w := by
  have key : ∀ v w : Int, decimal v = decimal w → ¬ v < 0 → ¬ w < 0 → v = w := by
    intro v w h hv hw
    rw [decimal, decimal, if_neg hv, if_neg hw] at h
    have := congrArg (digitsValue 0) h
    rw [natDecimal_value, natDecimal_value] at this; omega
  by_cases hv : v < 0 <;> by_cases hw : w < 0
  · rw [decimal, decimal, if_pos hv, if_pos hw] at h
    have := congrArg (digitsValue 0) (List.cons.inj h).2
    rw [natDecimal_value, natDecimal_value] at this; omega
  · rw [decimal, decimal, if_pos hv, if_neg hw] at h
    exact absurd h.symm (natDecimal_head_ne (by decide) _)
  · rw [decimal, decimal, if_neg hv, if_pos hw] at h
    exact absurd h (natDecimal_head_ne (by decide) _)
  · exact key v w h hv hw

theorem decimal_chars (v : Int) : ∀ c ∈ decimal v, c = '-' ∨ isDigitC c = true := by
  unfold decimal
  split
  · intro c hc
    rcases List.mem_cons.1 hc with h | h
    · exact .inl h
    · exact .inr (natDecimal_digits _ c h)
  · intro c hc; exact .inr (natDecimal_digits _ c hc)

theorem decimal_ne_nil (v : Int) : decimal v ≠ [] := by
  unfold decimal; split
  · simp
  · exact natDecimal_ne_nil _

end ICPC
