import Verif.Lemmas.RoundNear
import Verif.Lemmas.Decimal
import Verif.Model.RealText
import Verif.Spec.RealText

/-! Lemmas about the decimal notation of real numbers. -/

namespace ICPC.Fp

open ICPC.Spec ICPC.Spec.Fp

theorem digit_iff (c : Char) : isDigitC c = true ↔ '0' ≤ c ∧ c ≤ '9' := by
  unfold isDigitC
  simp only [Bool.and_eq_true, decide_eq_true_eq]

theorem digits_iff (ds : List Char) : Digits ds ↔ ∀ c ∈ ds, isDigitC c = true := by
  unfold Digits
  simp only [digit_iff]

theorem digitsValue_acc (ds : List Char) : ∀ acc, digitsValue acc ds = acc * 10 ^ ds.length + positional ds := by
  induction ds with
  | nil => intro acc; simp [digitsValue, positional]
  | cons c ds ih =>
    intro acc
    have : digitsValue acc (c :: ds) = digitsValue (10 * acc + digitValue c) ds := rfl
    rw [this, ih, positional, List.length_cons, pow_succ]
    have : digitValue c = c.toNat - '0'.toNat := rfl
    rw [this]
    ring

theorem digitsValue_eq (ds : List Char) : digitsValue 0 ds = positional ds := by
  rw [digitsValue_acc]; simp

theorem positional_append (a b : List Char) : positional (a ++ b) = positional a * 10 ^ b.length + positional b := by
  induction a with
  | nil => simp [positional]
  | cons c a ih =>
    rw [List.cons_append, positional, ih, positional, List.length_append, pow_add]
    ring

theorem digit_ne {c : Char} (h : isDigitC c = true) {d : Char} (hd : isDigitC d = false) : c ≠ d := by
  rintro rfl; rw [h] at hd; cases hd

/-- What may follow the digits. -/
def NoDigit (r : List Char) : Prop := ∀ c t, r = c :: t → isDigitC c = false

theorem exponent_noDigit {ex : List Char} {e : ℤ} (h : Exponent ex e) : NoDigit ex := by
  intro c t hc
  rcases h with ⟨rfl, -⟩ | ⟨E, sign, s, ds, rfl, hE, -⟩
  · cases hc
  · obtain ⟨rfl, rfl⟩ := List.cons.inj hc
    rcases hE with rfl | rfl <;> decide

theorem takeExponent_eq {ex : List Char} {e : ℤ} (h : Exponent ex e) : takeExponent ex = (e, []) := by
  rcases h with ⟨rfl, rfl⟩ | ⟨E, sign, s, ds, rfl, hE, hs, h0, hd, rfl⟩
  · rfl
  · have hd' := (digits_iff ds).1 hd
    have key := takeWhile_all (p := isDigitC) (l := ds) (r := []) hd' (by intro c t h; cases h)
    rw [List.append_nil] at key
    have hne : ds.isEmpty = false := by simpa [List.isEmpty_eq_false_iff] using h0
    rw [takeExponent, if_pos hE]
    rcases hs with ⟨rfl, rfl⟩ | ⟨rfl, rfl⟩ | ⟨rfl, rfl⟩
    · rcases ds with _ | ⟨c, ds⟩
      · exact absurd rfl h0
      have hc := hd' c (by simp)
      have c1 : c ≠ '+' := digit_ne hc (by decide)
      have c2 : c ≠ '-' := digit_ne hc (by decide)
      simp only [List.nil_append, List.head?_cons, Option.some.injEq, c1, c2, or_self, if_false, key, hne, Bool.false_eq_true, digitsValue_eq, one_mul]
    · simp [key, hne, digitsValue_eq]
    · simp [key, hne, digitsValue_eq]

/-- The fraction and the exponent. -/
theorem takeFraction_eq {point b ex : List Char} {e : ℤ} (hb : Digits b) (hp : point = ['.'] ∨ (point = [] ∧ b = [])) (h : Exponent ex e) :
    takeFraction (point ++ (b ++ ex)) = (b, ex) ∧ NoDigit (point ++ (b ++ ex)) := by
  have key := takeWhile_all (p := isDigitC) (l := b) (r := ex) ((digits_iff b).1 hb) (exponent_noDigit h)
  rcases hp with rfl | ⟨rfl, rfl⟩
  · refine ⟨?_, ?_⟩
    · simp only [List.cons_append, List.nil_append, takeFraction, if_true, key]
    · intro c t hc
      obtain ⟨rfl, -⟩ := List.cons.inj hc
      decide
  · refine ⟨?_, exponent_noDigit h⟩
    rw [List.nil_append, List.nil_append]
    rcases h with ⟨rfl, -⟩ | ⟨E, sign, s, ds, rfl, hE, -⟩
    · rfl
    · have : E ≠ '.' := by rcases hE with rfl | rfl <;> decide
      simp only [takeFraction, this, if_false]

/-- What `parse` computes. -/
def valueOf (F : Format) (q : ℚ) : Option Flt :=
  match round F q with
  | .fin x => if x = 0 ∧ q ≠ 0 then none else some (.fin x)
  | _ => none

/-- The exact number that `fromChars` rounds. -/
def exactOf (t : List Char) : ℚ :=
  let w := stripMinus (stripPlus t)
  let f := takeFraction (w.2.dropWhile isDigitC)
  let q : ℚ := digitsValue 0 (w.2.takeWhile isDigitC ++ f.1) * 10 ^ ((takeExponent f.2).1 - f.1.length)
  if w.1 then -q else q

/-- The sign of a number is read before its digits. -/
theorem sign_read {sign a point b ex : List Char} {s : ℤ} (hs : Sign sign s) (ha : Digits a) (h0 : a ++ b ≠ [])
    (hp : point = ['.'] ∨ (point = [] ∧ b = [])) :
    stripMinus (stripPlus (sign ++ (a ++ (point ++ (b ++ ex))))) = (decide (s = -1), a ++ (point ++ (b ++ ex))) := by
  have hhead : ∀ c r, a ++ (point ++ (b ++ ex)) = c :: r → c ≠ '+' ∧ c ≠ '-' := by
    intro c r hc
    rcases a with _ | ⟨x, a⟩
    · rcases hp with rfl | ⟨rfl, rfl⟩
      · obtain ⟨rfl, -⟩ := List.cons.inj hc
        decide
      · exact absurd rfl h0
    · obtain ⟨rfl, -⟩ := List.cons.inj hc
      have := (digits_iff _).1 ha x (by simp)
      exact ⟨digit_ne this (by decide), digit_ne this (by decide)⟩
  have plain : stripPlus (a ++ (point ++ (b ++ ex))) = a ++ (point ++ (b ++ ex)) ∧
      stripMinus (a ++ (point ++ (b ++ ex))) = (false, a ++ (point ++ (b ++ ex))) := by
    generalize a ++ (point ++ (b ++ ex)) = w at hhead
    rcases w with _ | ⟨c, r⟩
    · exact ⟨rfl, rfl⟩
    · have := hhead c r rfl
      exact ⟨by simp [stripPlus, this.1], by simp [stripMinus, this.2]⟩
  rcases hs with ⟨rfl, rfl⟩ | ⟨rfl, rfl⟩ | ⟨rfl, rfl⟩
  · rw [List.nil_append, plain.1, plain.2]; rfl
  · rw [show ['+'] ++ (a ++ (point ++ (b ++ ex))) = '+' :: (a ++ (point ++ (b ++ ex))) from rfl, stripPlus, if_pos rfl, plain.2]; rfl
  · rw [show ['-'] ++ (a ++ (point ++ (b ++ ex))) = '-' :: (a ++ (point ++ (b ++ ex))) from rfl, stripPlus, if_neg (by decide)]
    simp [stripMinus]

theorem sign_value {sign : List Char} {s : ℤ} (hs : Sign sign s) (q : ℚ) :
    (if decide (s = -1) = true then -q else q) = s * q := by
  rcases hs with ⟨-, rfl⟩ | ⟨-, rfl⟩ | ⟨-, rfl⟩ <;> simp

theorem exactOf_denotes {t : List Char} {q : ℚ} (h : Denotes t q) : exactOf t = q := by
  obtain ⟨sign, a, point, b, ex, s, e, rfl, hs, ha, hb, h0, hp, he, rfl⟩ := h
  obtain ⟨hf, hn⟩ := takeFraction_eq hb hp he
  have key := takeWhile_all (p := isDigitC) (l := a) (r := point ++ (b ++ ex)) ((digits_iff a).1 ha) hn
  unfold exactOf
  simp only [sign_read hs ha h0 hp, key.1, key.2, hf, takeExponent_eq he, digitsValue_eq, sign_value hs]

theorem parse_denotes {F : Format} {t : List Char} {q : ℚ} (h : Denotes t q) : parseReal F t = valueOf F q := by
  obtain ⟨sign, a, point, b, ex, s, e, rfl, hs, ha, hb, h0, hp, he, rfl⟩ := h
  obtain ⟨hf, hn⟩ := takeFraction_eq hb hp he
  have key := takeWhile_all (p := isDigitC) (l := a) (r := point ++ (b ++ ex)) ((digits_iff a).1 ha) hn
  have hemp : (a.isEmpty && b.isEmpty) = false := by
    rw [Bool.eq_false_iff]
    intro h
    simp only [Bool.and_eq_true, List.isEmpty_iff] at h
    exact h0 (by simp [h.1, h.2])
  have hzero : (s : ℚ) * (positional (a ++ b) * 10 ^ (e - b.length)) ≠ 0 ↔ (positional (a ++ b) : ℚ) * 10 ^ (e - b.length) ≠ 0 := by
    rcases hs with ⟨-, rfl⟩ | ⟨-, rfl⟩ | ⟨-, rfl⟩ <;> simp
  unfold parseReal fromChars valueOf
  simp only [sign_read hs ha h0 hp, key.1, key.2, hf, hemp, takeExponent_eq he, digitsValue_eq, sign_value hs, hzero, Bool.false_eq_true, if_false]
  cases round F ((s : ℚ) * (positional (a ++ b) * 10 ^ (e - b.length))) with
  | nan s => rfl
  | inf s => rfl
  | fin x =>
    dsimp only
    split_ifs <;> rfl

theorem lang_sign_iff (w : List Char) : Lang (.opt reSign) w ↔ ∃ s, Sign w s := by
  unfold Re.opt reSign Sign
  simp only [lang_alt_iff, lang_eps_iff, lang_lit_iff]
  constructor
  · rintro (rfl | rfl | rfl)
    · exact ⟨1, .inl ⟨rfl, rfl⟩⟩
    · exact ⟨1, .inr (.inl ⟨rfl, rfl⟩)⟩
    · exact ⟨-1, .inr (.inr ⟨rfl, rfl⟩)⟩
  · rintro ⟨s, ⟨rfl, -⟩ | ⟨rfl, -⟩ | ⟨rfl, -⟩⟩
    · exact .inl rfl
    · exact .inr (.inl rfl)
    · exact .inr (.inr rfl)

theorem lang_digits_iff (w : List Char) : Lang (.star reDigit) w ↔ Digits w := by
  rw [digits_iff]
  unfold reDigit Re.range
  exact lang_star_chr

theorem lang_plus_digits_iff (w : List Char) : Lang (.plus reDigit) w ↔ w ≠ [] ∧ Digits w := by
  unfold Re.plus
  rw [lang_cat_iff]
  constructor
  · rintro ⟨u, v, rfl, hu, hv⟩
    unfold reDigit Re.range at hu
    obtain ⟨c, hc, rfl⟩ := lang_chr_iff.1 hu
    refine ⟨by simp, ?_⟩
    rw [digits_iff]
    intro x hx
    rcases List.mem_append.1 hx with h | h
    · rw [List.mem_singleton.1 h]; exact hc
    · exact (digits_iff v).1 ((lang_digits_iff v).1 hv) x h
  · rintro ⟨h0, hd⟩
    rcases w with _ | ⟨c, w⟩
    · exact absurd rfl h0
    refine ⟨[c], w, rfl, ?_, ?_⟩
    · unfold reDigit Re.range
      exact lang_chr_iff.2 ⟨c, (digits_iff _).1 hd c (by simp), rfl⟩
    · rw [lang_digits_iff]
      intro x hx
      exact hd x (by simp [hx])

theorem lang_exponent_iff (w : List Char) :
    Lang (.opt (.cat (.alt (.lit 'e') (.lit 'E')) (.cat (.opt reSign) (.plus reDigit)))) w ↔ ∃ e, Exponent w e := by
  rw [Re.opt]
  simp only [lang_alt_iff, lang_eps_iff, lang_cat_iff, lang_lit_iff, lang_plus_digits_iff, lang_sign_iff]
  constructor
  · rintro (rfl | ⟨u, v, rfl, hu, sg, ds, rfl, ⟨s, hs⟩, h0, hd⟩)
    · exact ⟨0, .inl ⟨rfl, rfl⟩⟩
    · rcases hu with rfl | rfl
      · exact ⟨s * positional ds, .inr ⟨'e', sg, s, ds, rfl, .inl rfl, hs, h0, hd, rfl⟩⟩
      · exact ⟨s * positional ds, .inr ⟨'E', sg, s, ds, rfl, .inr rfl, hs, h0, hd, rfl⟩⟩
  · rintro ⟨e, ⟨rfl, -⟩ | ⟨E, sg, s, ds, rfl, hE, hs, h0, hd, -⟩⟩
    · exact .inl rfl
    · refine .inr ⟨[E], sg ++ ds, rfl, ?_, sg, ds, rfl, ⟨s, hs⟩, h0, hd⟩
      rcases hE with rfl | rfl
      · exact .inl rfl
      · exact .inr rfl

/-- The texts that the regular expression for real numbers describes are the decimal notations. -/
theorem realRegex_iff (w : List Char) : Lang REAL_REGEX w ↔ ∃ q, Denotes w q := by
  unfold REAL_REGEX
  rw [lang_cat_iff]
  simp only [lang_sign_iff]
  constructor
  · rintro ⟨sign, r, rfl, ⟨s, hs⟩, hr⟩
    rw [lang_cat_iff] at hr
    obtain ⟨m, ex, rfl, hm, hex⟩ := hr
    obtain ⟨e, he⟩ := (lang_exponent_iff ex).1 hex
    simp only [lang_alt_iff, lang_cat_iff, lang_lit_iff, lang_plus_digits_iff, lang_digits_iff] at hm
    rcases hm with ⟨a, r, rfl, ha, p, b, rfl, rfl, h0, hb⟩ | ⟨a, p, rfl, ⟨h0, ha⟩, rfl⟩ | ⟨h0, ha⟩
    · exact ⟨_, sign, a, ['.'], b, ex, s, e, by simp, hs, ha, hb, by simp [h0], .inl rfl, he, rfl⟩
    · exact ⟨_, sign, a, ['.'], [], ex, s, e, by simp, hs, ha, by simp [Digits], by simp [h0], .inl rfl, he, rfl⟩
    · exact ⟨_, sign, m, [], [], ex, s, e, by simp, hs, ha, by simp [Digits], by simp [h0], .inr ⟨rfl, rfl⟩, he, rfl⟩
  · rintro ⟨q, sign, a, point, b, ex, s, e, rfl, hs, ha, hb, h0, hp, he, rfl⟩
    refine ⟨sign, _, rfl, ⟨s, hs⟩, ?_⟩
    rw [lang_cat_iff]
    refine ⟨a ++ (point ++ b), ex, by simp, ?_, (lang_exponent_iff ex).2 ⟨e, he⟩⟩
    simp only [lang_alt_iff, lang_cat_iff, lang_lit_iff, lang_plus_digits_iff, lang_digits_iff]
    rcases hp with rfl | ⟨rfl, rfl⟩
    · by_cases hb0 : b = []
      · subst hb0
        exact .inr (.inl ⟨a, ['.'], by simp, ⟨by simpa using h0, ha⟩, rfl⟩)
      · exact .inl ⟨a, '.' :: b, rfl, ha, ['.'], b, rfl, rfl, hb0, hb⟩
    · exact .inr (.inr ⟨by simpa using h0, by simpa using ha⟩)

theorem valueOf_none {F : Format} {q : ℚ} : valueOf F q = none ↔ ¬ InRange F q := by
  unfold valueOf InRange
  have h1 := roundMag_lt_iff (F := F) (abs_nonneg q)
  have h2 := roundMag_eq_zero_iff (F := F) (abs_nonneg q)
  unfold Fp.round
  by_cases h : roundMag F |q| < 2 ^ (F.emax + F.p)
  · rw [if_pos h]
    have hz : (if q < 0 then -roundMag F |q| else roundMag F |q|) = 0 ↔ roundMag F |q| = 0 := by
      split_ifs <;> simp
    simp only [hz, h2, h1.1 h, true_and, not_or, not_lt, ite_eq_left_iff, reduceCtorEq, imp_false, not_not]
    tauto
  · rw [if_neg h]
    have : ¬ |q| < (2 ^ F.p - 1 / 2) * 2 ^ F.emax := fun h' => h (h1.2 h')
    simp only [this, false_and, not_false_eq_true]

theorem valueOf_some {F : Format} {q : ℚ} {x : Flt} (h : valueOf F q = some x) : ∃ v, x = .fin v ∧ Nearest F q v ∧ round F q = .fin v := by
  unfold valueOf at h
  have hr : round F q = if roundMag F |q| < 2 ^ (F.emax + F.p) then .fin (if q < 0 then -roundMag F |q| else roundMag F |q|) else .inf (q < 0) := rfl
  by_cases hlt : roundMag F |q| < 2 ^ (F.emax + F.p)
  · rw [if_pos hlt] at hr
    rw [hr] at h
    dsimp only at h
    rw [hr]
    generalize hv : (if q < 0 then -roundMag F |q| else roundMag F |q|) = v at h
    split at h
    · cases h
    · refine ⟨v, (Option.some.inj h).symm, ⟨?_, ?_⟩, rfl⟩
      · rw [← hv]
        have := rep_roundMag (abs_nonneg q) hlt
        split
        · exact rep_neg this
        · exact this
      · intro y hy
        rw [← hv]
        split
        · next hq =>
          have := roundMag_near (abs_nonneg q) (rep_neg hy)
          rw [abs_of_neg hq] at this
          rw [abs_of_neg hq, ← abs_neg (y - q), ← abs_neg (-roundMag F (-q) - q)]
          rw [show -(y - q) = -y - -q by ring, show -(-roundMag F (-q) - q) = roundMag F (-q) - -q by ring]
          exact this
        · next hq =>
          have := roundMag_near (abs_nonneg q) hy
          rwa [abs_of_nonneg (not_lt.1 hq)] at this ⊢
  · rw [if_neg hlt] at hr
    rw [hr] at h
    cases h

end ICPC.Fp
