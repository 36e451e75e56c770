import Verif.Lemmas.RealPrint
import Verif.Lemmas.Stream
import Verif.Lemmas.Float

/-! # Real numbers in streams -/

namespace ICPC.Fp

open ICPC.Spec ICPC.Spec.Fp

theorem digit_nonletter {c : Char} (h : isDigitC c = true) : isLetterC c = false := by
  have := (isDigitC_iff c).1 h
  have h1 : isLowerC c = false := by
    rw [Bool.eq_false_iff]; intro h; have := (isLowerC_iff c).1 h; omega
  have h2 : isUpperC c = false := by
    rw [Bool.eq_false_iff]; intro h; have := (isUpperC_iff c).1 h; omega
  simp [isLetterC, h1, h2]

theorem digits_nonletter {ds : List Char} (h : Digits ds) : ∀ c ∈ ds, isLetterC c = false :=
  fun c hc => digit_nonletter ((digits_iff ds).1 h c hc)

theorem sign_nonletter {t : List Char} {s : ℤ} (h : Sign t s) : ∀ c ∈ t, isLetterC c = false := by
  rcases h with ⟨rfl, -⟩ | ⟨rfl, -⟩ | ⟨rfl, -⟩ <;> decide

theorem foldOf_append (cfg : StreamCfg) (a b : List Char) : foldOf cfg (a ++ b) = foldOf cfg a ++ foldOf cfg b := by
  obtain ⟨f, hf, -⟩ := foldOf_eq_map cfg
  rw [hf, hf, hf, List.map_append]

/-- The case of the letter `e` is not changed to another letter. -/
theorem fold_e (cfg : StreamCfg) (E : Char) (h : E = 'e' ∨ E = 'E') : foldOf cfg [E] = ['e'] ∨ foldOf cfg [E] = ['E'] := by
  unfold foldOf toDefaultCaseS
  rcases h with rfl | rfl <;> cases cfg.caseSensitive <;> cases cfg.defaultLower <;> decide

theorem fold_e_inv (cfg : StreamCfg) (c : Char) (h : foldOf cfg [c] = ['e'] ∨ foldOf cfg [c] = ['E']) : c = 'e' ∨ c = 'E' := by
  have key : ∀ b : Bool, (toDefaultCaseC b c = 'e' ∨ toDefaultCaseC b c = 'E') → c = 'e' ∨ c = 'E' := by
    clear h
    intro b
    unfold toDefaultCaseC
    cases b
    · simp only [Bool.false_eq_true, if_false]
      by_cases h : ∃ i, c = lowerLetter i
      · obtain ⟨i, rfl⟩ := h
        rw [toUpperC_lower]; revert i; decide
      · rw [toUpperC_other c fun i hi => h ⟨i, hi⟩]; exact id
    · simp only [if_true]
      by_cases h : ∃ i, c = upperLetter i
      · obtain ⟨i, rfl⟩ := h
        rw [toLowerC_upper]; revert i; decide
      · rw [toLowerC_other c fun i hi => h ⟨i, hi⟩]; exact id
  unfold foldOf toDefaultCaseS at h
  cases hc : cfg.caseSensitive
  · rw [hc] at h
    cases hd : cfg.defaultLower
    · exact key false (by simpa [hd, toUpperS, toDefaultCaseC] using h)
    · exact key true (by simpa [hd, toLowerS, toDefaultCaseC] using h)
  · rw [hc] at h; simpa using h

theorem exponent_fold (cfg : StreamCfg) (t : List Char) (e : ℤ) : Exponent (foldOf cfg t) e ↔ Exponent t e := by
  constructor
  · rintro (⟨h, rfl⟩ | ⟨E, sign, s, ds, h, hE, hs, h0, hd, rfl⟩)
    · left
      exact ⟨(foldOf_eq_iff_nonletter cfg t [] (by simp)).1 h, rfl⟩
    · right
      rcases t with _ | ⟨c, t⟩
      · obtain ⟨f, hf, -⟩ := foldOf_eq_map cfg
        rw [hf] at h; cases h
      · rw [show c :: t = [c] ++ t from rfl, foldOf_append] at h
        have hl : (foldOf cfg [c]).length = 1 := foldOf_length cfg [c]
        obtain ⟨d, hd'⟩ : ∃ d, foldOf cfg [c] = [d] := List.length_eq_one_iff.1 hl
        rw [hd'] at h
        obtain ⟨rfl, h'⟩ := List.cons.inj h
        refine ⟨c, sign, s, ds, ?_, fold_e_inv cfg c (by rw [hd']; simpa using hE), hs, h0, hd, rfl⟩
        rw [(foldOf_eq_iff_nonletter cfg t (sign ++ ds) (by
          intro x hx
          rcases List.mem_append.1 hx with hx | hx
          · exact sign_nonletter hs x hx
          · exact digits_nonletter hd x hx)).1 h']
  · rintro (⟨rfl, rfl⟩ | ⟨E, sign, s, ds, rfl, hE, hs, h0, hd, rfl⟩)
    · left; exact ⟨foldOf_nonletter cfg [] (by simp), rfl⟩
    · right
      have : foldOf cfg (E :: (sign ++ ds)) = foldOf cfg [E] ++ (sign ++ ds) := by
        rw [show E :: (sign ++ ds) = [E] ++ (sign ++ ds) from rfl, foldOf_append, foldOf_nonletter cfg (sign ++ ds)]
        intro x hx
        rcases List.mem_append.1 hx with hx | hx
        · exact sign_nonletter hs x hx
        · exact digits_nonletter hd x hx
      rcases fold_e cfg E hE with h | h
      · exact ⟨'e', sign, s, ds, by rw [this, h]; rfl, .inl rfl, hs, h0, hd, rfl⟩
      · exact ⟨'E', sign, s, ds, by rw [this, h]; rfl, .inr rfl, hs, h0, hd, rfl⟩

theorem point_nonletter {point b : List Char} (h : point = ['.'] ∨ (point = [] ∧ b = [])) : ∀ c ∈ point, isLetterC c = false := by
  rcases h with rfl | ⟨rfl, -⟩ <;> decide

/-- The case of letters plays no role in the notation of numbers. -/
theorem denotes_fold (cfg : StreamCfg) (t : List Char) (q : ℚ) : Denotes (foldOf cfg t) q ↔ Denotes t q := by
  constructor
  · rintro ⟨sign, a, point, b, ex, s, e, h, hs, ha, hb, h0, hp, he, rfl⟩
    obtain ⟨f, hf, -⟩ := foldOf_eq_map cfg
    rw [hf] at h
    obtain ⟨t1, r1, rfl, h1, h⟩ := List.map_eq_append_iff.1 h
    obtain ⟨t2, r2, rfl, h2, h⟩ := List.map_eq_append_iff.1 h
    obtain ⟨t3, r3, rfl, h3, h⟩ := List.map_eq_append_iff.1 h
    obtain ⟨t4, r4, rfl, h4, h⟩ := List.map_eq_append_iff.1 h
    rw [← hf] at h1 h2 h3 h4 h
    rw [← h, exponent_fold] at he
    rw [(foldOf_eq_iff_nonletter cfg _ _ (sign_nonletter hs)).1 h1, (foldOf_eq_iff_nonletter cfg _ _ (digits_nonletter ha)).1 h2,
      (foldOf_eq_iff_nonletter cfg _ _ (point_nonletter hp)).1 h3, (foldOf_eq_iff_nonletter cfg _ _ (digits_nonletter hb)).1 h4]
    exact ⟨sign, a, point, b, r4, s, e, rfl, hs, ha, hb, h0, hp, he, rfl⟩
  · rintro ⟨sign, a, point, b, ex, s, e, rfl, hs, ha, hb, h0, hp, he, rfl⟩
    refine ⟨sign, a, point, b, foldOf cfg ex, s, e, ?_, hs, ha, hb, h0, hp, (exponent_fold cfg ex e).2 he, rfl⟩
    rw [foldOf_append, foldOf_append, foldOf_append, foldOf_append, foldOf_nonletter cfg _ (sign_nonletter hs),
      foldOf_nonletter cfg _ (digits_nonletter ha), foldOf_nonletter cfg _ (point_nonletter hp), foldOf_nonletter cfg _ (digits_nonletter hb)]

/-- The characters of numbers. -/
theorem denotes_chars {P : Char → Prop} (hdig : ∀ c, isDigitC c = true → P c) (hsym : ∀ c ∈ ['+', '-', '.', 'e', 'E'], P c)
    {t : List Char} {q : ℚ} (h : Denotes t q) : ∀ c ∈ t, P c := by
  obtain ⟨sign, a, point, b, ex, s, e, rfl, hs, ha, hb, h0, hp, he, rfl⟩ := h
  have hd : ∀ ds, Digits ds → ∀ c ∈ ds, P c := fun ds h c hc => hdig c ((digits_iff ds).1 h c hc)
  have hsg : ∀ t s, Sign t s → ∀ c ∈ t, P c := by
    intro t s h c hc
    rcases h with ⟨rfl, -⟩ | ⟨rfl, -⟩ | ⟨rfl, -⟩
    · cases hc
    · rw [List.mem_singleton.1 hc]; exact hsym _ (by decide)
    · rw [List.mem_singleton.1 hc]; exact hsym _ (by decide)
  intro c hc
  simp only [List.mem_append] at hc
  rcases hc with hc | hc | hc | hc | hc
  · exact hsg _ _ hs c hc
  · exact hd _ ha c hc
  · rcases hp with rfl | ⟨rfl, -⟩
    · rw [List.mem_singleton.1 hc]; exact hsym _ (by decide)
    · cases hc
  · exact hd _ hb c hc
  · rcases he with ⟨rfl, -⟩ | ⟨E, sg, s', ds, rfl, hE, hs', -, hd', -⟩
    · cases hc
    · rcases List.mem_cons.1 hc with rfl | hc
      · rcases hE with rfl | rfl <;> exact hsym _ (by decide)
      · rcases List.mem_append.1 hc with hc | hc
        · exact hsg _ _ hs' c hc
        · exact hd _ hd' c hc

theorem denotes_visible {t : List Char} {q : ℚ} (h : Denotes t q) : t ≠ [] ∧ ∀ c ∈ t, Visible c := by
  refine ⟨?_, denotes_chars ?_ ?_ h⟩
  · obtain ⟨sign, a, point, b, ex, s, e, rfl, hs, ha, hb, h0, hp, he, rfl⟩ := h
    intro h
    simp only [List.append_eq_nil_iff] at h
    exact h0 (by simp [h.2.1, h.2.2.2.1])
  · intro c hc
    have := (isDigitC_iff c).1 hc
    unfold Visible; omega
  · unfold Visible; decide

theorem strictToken_denotes {t : List Char} {q : ℚ} (h : Denotes t q) : StrictToken t := by
  obtain ⟨h0, hv⟩ := denotes_visible h
  refine ⟨⟨h0, fun c hc => visible_not_white (hv c hc)⟩, ?_⟩
  rcases t with _ | ⟨c, r⟩
  · exact absurd rfl h0
  · exact ⟨c, r, rfl, hv c (by simp)⟩

/-- Rounding to nearest stays on the same side of numbers of the format. -/
theorem nearest_ge {F : Format} {q v l : ℚ} (h : Nearest F q v) (hl : Rep F l) (hq : l ≤ q) : l ≤ v := by
  by_contra hc
  have hc := not_le.1 hc
  have := h.2 l hl
  rw [abs_of_nonpos (by linarith), abs_of_nonpos (by linarith)] at this
  linarith

theorem nearest_le {F : Format} {q v u : ℚ} (h : Nearest F q v) (hu : Rep F u) (hq : q ≤ u) : v ≤ u := by
  by_contra hc
  have hc := not_le.1 hc
  have := h.2 u hu
  rw [abs_of_nonneg (by linarith), abs_of_nonneg (by linarith)] at this
  linarith

/-- What `real` of a strict stream accepts. -/
theorem parse_fold (cfg : StreamCfg) (F : Format) (text : List Char) (x : Flt) :
    (StrictToken text ∧ Lang REAL_REGEX (foldOf cfg text) ∧ parseReal F (foldOf cfg text) = some x) ↔
      ∃ q, Denotes text q ∧ valueOf F q = some x := by
  constructor
  · rintro ⟨-, h2, h3⟩
    obtain ⟨q, hq⟩ := (realRegex_iff _).1 h2
    rw [parse_denotes hq] at h3
    exact ⟨q, (denotes_fold cfg text q).1 hq, h3⟩
  · rintro ⟨q, hq, h⟩
    have hf := (denotes_fold cfg text q).2 hq
    exact ⟨strictToken_denotes hq, (realRegex_iff _).2 ⟨q, hf⟩, by rw [parse_denotes hf]; exact h⟩

end ICPC.Fp
