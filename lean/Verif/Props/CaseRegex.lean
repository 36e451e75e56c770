import Verif.Spec.CaseRegex
import Verif.Props.Examples

/-!
# C108: `caseSensitive.regex`; the second example of an output validator (C87)
-/

namespace ICPC.Props

open ICPC ICPC.Spec ICPC.Spec.Examples ICPC.Examples

private theorem same_lower (c : Char) : SameLetter (toLowerC c) c := by
  by_cases h : ∃ i, c = upperLetter i
  · obtain ⟨i, rfl⟩ := h; rw [toLowerC_upper]; exact .lu i
  · rw [toLowerC_other c (fun i hi => h ⟨i, hi⟩)]; exact .refl c

private theorem same_upper (c : Char) : SameLetter (toUpperC c) c := by
  by_cases h : ∃ i, c = lowerLetter i
  · obtain ⟨i, rfl⟩ := h; rw [toUpperC_lower]; exact .ul i
  · rw [toUpperC_other c (fun i hi => h ⟨i, hi⟩)]; exact .refl c

private theorem same_symm {a b : Char} (h : SameLetter a b) : SameLetter b a := by
  cases h with
  | refl => exact .refl _
  | lu i => exact .ul i
  | ul i => exact .lu i

private theorem lower_or_upper {a b : Char} (h : SameLetter a b) : b = toLowerC a ∨ b = toUpperC a := by
  cases h with
  | refl =>
    by_cases h : ∃ i, a = upperLetter i
    · obtain ⟨i, rfl⟩ := h
      right
      rw [toUpperC_other]
      intro j
      revert i j
      decide
    · left
      rw [toLowerC_other a (fun i hi => h ⟨i, hi⟩)]
  | lu i => right; rw [toUpperC_lower]
  | ul i => left; rw [toLowerC_upper]

/-- One letter or both cases. -/
private def Near (cs : Bool) (a b : Char) : Prop := if cs then a = b else SameLetter a b

private theorem same_iff (cs : Bool) (a b : List Char) : SameWord cs a b ↔ List.Forall₂ (Near cs) a b := by
  unfold SameWord Near
  cases cs with
  | true => simp
  | false => simp

private theorem forall2_append_right {R : Char → Char → Prop} {t u v : List Char} (h : List.Forall₂ R t (u ++ v)) :
    ∃ t1 t2, List.Forall₂ R t1 u ∧ List.Forall₂ R t2 v ∧ t = t1 ++ t2 :=
  ⟨_, _, List.forall₂_take_append t u v h, List.forall₂_drop_append t u v h, (List.take_append_drop _ _).symm⟩

/-- **C108, the expression.** A word matches `caseSensitive.regex(p)` exactly if it is, letter by letter or (if the setting is off) up to the case of
letters, a word that the pattern stands for. -/
theorem C108_regex (cs : Bool) (p : Pattern) (t : List Char) : (settingRegex cs p).matches t = true ↔ ∃ w, Denotes p w ∧ SameWord cs t w := by
  rw [matches_iff, settingRegex]
  simp only [same_iff]
  induction p generalizing t with
  | empty =>
    rw [Pattern.compile, lang_eps_iff]
    constructor
    · rintro rfl; exact ⟨[], .empty, .nil⟩
    · rintro ⟨w, h, h'⟩; cases h; cases h'; rfl
  | lit c =>
    rw [Pattern.compile, lang_chr_iff]
    constructor
    · rintro ⟨x, hx, rfl⟩
      refine ⟨[c], .lit c, .cons ?_ .nil⟩
      cases cs with
      | true => simpa [Near] using hx
      | false => simpa [Near, toLowerC_eq_iff] using hx
    · rintro ⟨w, h, h'⟩
      cases h
      cases h' with
      | cons hx hn =>
        cases hn
        refine ⟨_, ?_, rfl⟩
        cases cs with
        | true => simpa [Near] using hx
        | false => simpa [Near, toLowerC_eq_iff] using hx
  | range a b =>
    rw [Pattern.compile, lang_chr_iff]
    constructor
    · rintro ⟨x, hx, rfl⟩
      cases cs with
      | true =>
        simp only [Bool.not_true, Bool.false_eq_true, if_false, decide_eq_true_eq] at hx
        exact ⟨[x], .range hx.1 hx.2, .cons (by simp [Near]) .nil⟩
      | false =>
        simp only [Bool.not_false, if_true, Bool.or_eq_true, decide_eq_true_eq] at hx
        rcases hx with hx | hx
        · exact ⟨[toLowerC x], .range hx.1 hx.2, .cons (by simpa [Near] using same_symm (same_lower x)) .nil⟩
        · exact ⟨[toUpperC x], .range hx.1 hx.2, .cons (by simpa [Near] using same_symm (same_upper x)) .nil⟩
    · rintro ⟨w, h, h'⟩
      cases h with
      | range h1 h2 =>
        cases h' with
        | cons hx hn =>
          cases hn
          refine ⟨_, ?_, rfl⟩
          cases cs with
          | true =>
            simp only [Near, if_true] at hx
            subst hx
            simp [h1, h2]
          | false =>
            simp only [Near, Bool.false_eq_true, if_false] at hx
            rcases lower_or_upper hx with rfl | rfl
            · simp [h1, h2]
            · simp [h1, h2]
  | alt p q ihp ihq =>
    rw [Pattern.compile, lang_alt_iff, ihp, ihq]
    constructor
    · rintro (⟨w, h, h'⟩ | ⟨w, h, h'⟩)
      · exact ⟨w, .left h, h'⟩
      · exact ⟨w, .right h, h'⟩
    · rintro ⟨w, h, h'⟩
      cases h with
      | left h => exact .inl ⟨w, h, h'⟩
      | right h => exact .inr ⟨w, h, h'⟩
  | cat p q ihp ihq =>
    rw [Pattern.compile, lang_cat_iff]
    constructor
    · rintro ⟨u, v, rfl, hu, hv⟩
      obtain ⟨w1, a1, a2⟩ := (ihp u).1 hu
      obtain ⟨w2, b1, b2⟩ := (ihq v).1 hv
      exact ⟨w1 ++ w2, .cat a1 b1, List.rel_append a2 b2⟩
    · rintro ⟨w, h, h'⟩
      cases h with
      | @cat _ _ u v hu hv =>
        obtain ⟨t1, t2, h1, h2, rfl⟩ := forall2_append_right h'
        exact ⟨t1, t2, rfl, (ihp t1).2 ⟨u, hu, h1⟩, (ihq t2).2 ⟨v, hv, h2⟩⟩
  | star p ih =>
    rw [Pattern.compile]
    constructor
    · intro h
      generalize hr : Re.star (p.compile !cs) = r at h
      induction h with
      | starNil => exact ⟨[], .none, .nil⟩
      | starCons h1 _ _ ih2 =>
        cases hr
        obtain ⟨w1, a1, a2⟩ := (ih _).1 h1
        obtain ⟨w2, b1, b2⟩ := ih2 rfl
        exact ⟨w1 ++ w2, .more a1 b1, List.rel_append a2 b2⟩
      | _ => cases hr
    · rintro ⟨w, h, h'⟩
      generalize hr : Pattern.star p = r at h
      induction h generalizing t with
      | none => cases h'; exact .starNil
      | @more q u v h1 _ _ ih2 =>
        cases hr
        obtain ⟨t1, t2, h1', h2', rfl⟩ := forall2_append_right h'
        exact .starCons ((ih t1).2 ⟨u, h1, h1'⟩) (ih2 t2 h2' rfl)
      | _ => cases hr

private theorem fold_fold (cfg : StreamCfg) (t : List Char) : foldOf cfg (foldOf cfg t) = foldOf cfg t := by
  by_cases hc : cfg.caseSensitive = true
  · rw [foldOf_sensitive hc, foldOf_sensitive hc]
  · have hc' : cfg.caseSensitive = false := by simpa using hc
    rw [foldOf_insensitive hc', foldOf_insensitive hc', List.map_map]
    exact List.map_congr_left fun c _ => toDefaultCaseC_idem cfg.defaultLower c

/-- A word as it is read matches if the word in the file does. -/
private theorem fold_matches (cfg : StreamCfg) (p : Pattern) (t : List Char) :
    (settingRegex cfg.caseSensitive p).matches (foldOf cfg t) = true ↔ ∃ w, Denotes p w ∧ SameWord cfg.caseSensitive t w := by
  rw [C108_regex]
  have h : ∀ w, SameWord cfg.caseSensitive (foldOf cfg t) w ↔ SameWord cfg.caseSensitive t w := by
    intro w
    rw [← fold_same, ← fold_same]
    rw [fold_fold]
  simp only [h]

/-- **C108, reading words.** With `caseSensitive.regex(p)`, where the setting is that of the stream, a stream reads exactly the words that the
pattern stands for (up to the case of letters if the stream is not case sensitive) and fails for all others: on space sensitive streams... -/
theorem C108_strict (cfg : StreamCfg) (hs : cfg.spaceSensitive = true) (p : Pattern) (s v rest : List Char) :
    Stream.stringRe cfg (settingRegex cfg.caseSensitive p) s = .ok (v, rest) ↔ ∃ t w, s = t ++ rest ∧ StrictToken t ∧ Delimited rest ∧
      v = foldOf cfg t ∧ Denotes p w ∧ SameWord cfg.caseSensitive t w := by
  rw [strict_stringRe hs _ s v rest]
  constructor
  · rintro ⟨t, h1, ⟨h2, rfl, h3⟩, h4⟩
    rw [← matches_iff, fold_matches] at h3
    obtain ⟨w, h5, h6⟩ := h3
    exact ⟨t, w, h1, h2, h4, rfl, h5, h6⟩
  · rintro ⟨t, w, h1, h2, h3, rfl, h4, h5⟩
    refine ⟨t, h1, ⟨h2, rfl, ?_⟩, h3⟩
    rw [← matches_iff, fold_matches]
    exact ⟨w, h4, h5⟩

/-- Every other input gives the verdict of the stream. -/
theorem C108_verdict (cfg : StreamCfg) (p : Pattern) (s : List Char) :
    (∃ v rest, Stream.stringRe cfg (settingRegex cfg.caseSensitive p) s = .ok (v, rest)) ∨
    Stream.stringRe cfg (settingRegex cfg.caseSensitive p) s = .error (.exit cfg.onFail) := by
  rcases stringRe_okOrFail cfg (settingRegex cfg.caseSensitive p) s with ⟨⟨v, r⟩, e⟩ | e
  · exact .inl ⟨v, r, e⟩
  · exact .inr e

/-- ... and on other streams. -/
theorem C108_loose (cfg : StreamCfg) (hs : cfg.spaceSensitive = false) (p : Pattern) (s : List Char) :
    (∀ t ts, tokens s = t :: ts → (∃ w, Denotes p w ∧ SameWord cfg.caseSensitive t w) →
      ∃ rest, Stream.stringRe cfg (settingRegex cfg.caseSensitive p) s = .ok (foldOf cfg t, rest) ∧ tokens rest = ts) ∧
    ((¬ ∃ t ts w, tokens s = t :: ts ∧ Denotes p w ∧ SameWord cfg.caseSensitive t w) →
      Stream.stringRe cfg (settingRegex cfg.caseSensitive p) s = .error (.exit cfg.onFail)) := by
  unfold Stream.stringRe
  rcases string_loose hs s with ⟨h1, h2⟩ | ⟨t, ts, r, h1, h2, h3, _⟩
  · rw [h1, h2]
    exact ⟨fun t ts h => (by cases h), fun _ => rfl⟩
  · rw [h3, ok_bind]
    simp only []
    constructor
    · intro t' ts' h hw
      rw [h1] at h
      simp only [List.cons.injEq] at h
      obtain ⟨rfl, rfl⟩ := h
      rw [(fold_matches cfg p t).2 hw]
      exact ⟨r, rfl, h2⟩
    · intro h
      have hm : (settingRegex cfg.caseSensitive p).matches (foldOf cfg t) = false := by
        rw [Bool.eq_false_iff, Ne, fold_matches]
        rintro ⟨w, h4, h5⟩
        exact h ⟨t, ts, w, h1, h4, h5⟩
      rw [hm]
      rfl

/-- **C108, why the setting is needed.** On a stream that is not case sensitive an ordinary expression accepts a word exactly if the pattern stands for
the word in lower case (upper case with `DEFAULT_CASE_LOWER` off); a pattern all of whose words have a letter of the other case accepts nothing. -/
theorem C108_plain (cfg : StreamCfg) (hc : cfg.caseSensitive = false) (p : Pattern) :
    (∀ s v rest, Stream.stringRe cfg (p.compile false) s = .ok (v, rest) → Denotes p v ∧ foldOf cfg v = v) ∧
    ((∀ w, Denotes p w → foldOf cfg w ≠ w) → ∀ s, Stream.stringRe cfg (p.compile false) s = .error (.exit cfg.onFail)) := by
  have h1 : ∀ s v rest, Stream.stringRe cfg (p.compile false) s = .ok (v, rest) → Denotes p v ∧ foldOf cfg v = v := by
    intro s v rest h
    unfold Stream.stringRe at h
    obtain ⟨⟨a, r⟩, ha, h⟩ := bind_eq_ok.1 h
    rw [ite_fail_eq_ok] at h
    obtain ⟨h2, h3⟩ := h
    simp only [Except.ok.injEq, Prod.mk.injEq] at h3
    obtain ⟨rfl, rfl⟩ := h3
    obtain ⟨w, hw, h4⟩ := (C108_regex true p a).1 (by simpa [settingRegex] using h2)
    obtain rfl : a = w := h4
    refine ⟨hw, ?_⟩
    unfold Stream.string at ha
    obtain ⟨s', -, ha⟩ := bind_eq_ok.1 ha
    rw [ite_fail_eq_ok] at ha
    have ha := ha.2
    simp only [] at ha
    rw [ite_fail_eq_ok] at ha
    have ha := ha.2
    simp only [Except.ok.injEq, Prod.mk.injEq, hc, Bool.not_false, if_true] at ha
    rw [← ha.1, foldOf_insensitive hc]
    have : ∀ l, toDefaultCaseS cfg.defaultLower l = l.map (toDefaultCaseC cfg.defaultLower) := by
      intro l
      unfold toDefaultCaseS
      cases cfg.defaultLower <;> rfl
    rw [this, List.map_map]
    exact List.map_congr_left fun c _ => toDefaultCaseC_idem cfg.defaultLower c
  refine ⟨h1, fun h s => ?_⟩
  rcases stringRe_okOrFail cfg (p.compile false) s with ⟨⟨v, r⟩, e⟩ | e
  · exact absurd (h1 s v r e).2 (h v (h1 s v r e).1)
  · exact e

example : Stream.stringRe ⟨true, false, true, 43⟩ (settingRegex false (.alt (.word yes) (.word no))) "yES\n".toList = .ok ("yes".toList, ['\n']) := by
  decide +kernel
example : Stream.stringRe ⟨true, false, true, 43⟩ (Pattern.compile false (.alt (.word yes) (.word no))) "Yes\n".toList = .error (.exit 43) := by
  decide +kernel
example : Stream.stringRe ⟨true, true, true, 43⟩ (settingRegex true (.alt (.word yes) (.word no))) "Yes\n".toList = .ok ("Yes".toList, ['\n']) := by
  decide +kernel

/-! ## example/outputValidator2.cpp -/

private theorem denotes_word (w v : List Char) : Denotes (.word w) v ↔ v = w := by
  induction w generalizing v with
  | nil =>
    constructor
    · intro h; cases h; rfl
    · rintro rfl; exact .empty
  | cons c w ih =>
    constructor
    · intro h
      cases h with
      | cat h1 h2 =>
        cases h1
        rw [(ih _).1 h2]
        rfl
    · rintro rfl
      exact .cat (.lit c) ((ih w).2 rfl)

private theorem denotes_options (v : List Char) : Denotes (.alt (.word yes) (.word no)) v ↔ v = yes ∨ v = no := by
  constructor
  · intro h
    cases h with
    | left h => exact .inl ((denotes_word _ _).1 h)
    | right h => exact .inr ((denotes_word _ _).1 h)
  · rintro (rfl | rfl)
    · exact .left ((denotes_word _ _).2 rfl)
    · exact .right ((denotes_word _ _).2 rfl)

private theorem visible_of_same (cs : Bool) (t e : List Char) (he : e ≠ []) (hl : ∀ y ∈ e, (65 ≤ y.toNat ∧ y.toNat ≤ 90) ∨ (97 ≤ y.toNat ∧ y.toNat ≤ 122))
    (h : SameWord cs t e) : StrictToken t := by
  have hv : ∀ x y : Char, Near cs x y → (65 ≤ y.toNat ∧ y.toNat ≤ 90) ∨ (97 ≤ y.toNat ∧ y.toNat ≤ 122) → Visible x := by
    intro x y h hy
    have h' : SameLetter x y := by
      cases cs with
      | true => simp only [Near, if_true] at h; exact h ▸ .refl _
      | false => simpa [Near] using h
    cases h' with
    | refl => exact ⟨by omega, by omega⟩
    | lu i => clear hy h; revert i; unfold Visible; decide
    | ul i => clear hy h; revert i; unfold Visible; decide
  rw [same_iff] at h
  have hvis : ∀ c ∈ t, Visible c := by
    clear he
    induction h with
    | nil => simp
    | cons h1 _ ih =>
      intro c hc
      rcases List.mem_cons.1 hc with rfl | hc
      · exact hv _ _ h1 (hl _ (by simp))
      · exact ih (fun y hy => hl y (by simp [hy])) c hc
  have hlen := h.length_eq
  cases t with
  | nil => exact absurd hlen.symm (by simpa using he)
  | cons c t => exact ⟨⟨by simp, fun x hx => visible_not_white (hvis x hx)⟩, c, t, rfl, hvis c (by simp)⟩

private theorem yes_no (cs : Bool) (t : List Char) (h1 : SameWord cs t yes) (h2 : SameWord cs t no) : False := by
  rw [same_iff] at h1 h2
  have a := h1.length_eq
  have b := h2.length_eq
  rw [a] at b
  exact absurd b (by decide)

/-- The answers that are read. -/
private theorem readsWord_options (cfg : StreamCfg) : ReadsWord cfg
    (fun v t => v = foldOf cfg t ∧ (SameWord cfg.caseSensitive t yes ∨ SameWord cfg.caseSensitive t no)) (Stream.stringRe cfg (options cfg.caseSensitive)) := by
  have hw : ∀ t, (∃ w, Denotes (.alt (.word yes) (.word no)) w ∧ SameWord cfg.caseSensitive t w) ↔
      (SameWord cfg.caseSensitive t yes ∨ SameWord cfg.caseSensitive t no) := by
    intro t
    simp only [denotes_options]
    constructor
    · rintro ⟨w, rfl | rfl, h⟩
      · exact .inl h
      · exact .inr h
    · rintro (h | h)
      · exact ⟨_, .inl rfl, h⟩
      · exact ⟨_, .inr rfl, h⟩
  refine ⟨fun hs s v rest => ?_, fun hs => ⟨fun s v rest h => ?_, fun s v t ts h1 h2 => ?_⟩⟩
  · unfold options
    rw [C108_strict cfg hs]
    constructor
    · rintro ⟨t, w, h1, -, h3, h4, h5, h6⟩
      exact ⟨t, h1, ⟨h4, (hw t).1 ⟨w, h5, h6⟩⟩, h3⟩
    · rintro ⟨t, h1, ⟨h2, h3⟩, h4⟩
      obtain ⟨w, h5, h6⟩ := (hw t).2 h3
      refine ⟨t, w, h1, ?_, h4, h2, h5, h6⟩
      rcases h3 with h3 | h3
      · exact visible_of_same _ t yes (by decide) (by decide) h3
      · exact visible_of_same _ t no (by decide) (by decide) h3
  · obtain ⟨a1, a2⟩ := C108_loose cfg hs (.alt (.word yes) (.word no)) s
    by_cases hex : ∃ t ts w, tokens s = t :: ts ∧ Denotes (.alt (.word yes) (.word no)) w ∧ SameWord cfg.caseSensitive t w
    · obtain ⟨t, ts, w, b1, b2, b3⟩ := hex
      obtain ⟨r, c1, c2⟩ := a1 t ts b1 ⟨w, b2, b3⟩
      unfold options at h
      rw [h] at c1
      simp only [Except.ok.injEq, Prod.mk.injEq] at c1
      exact ⟨t, ⟨c1.1, (hw t).1 ⟨w, b2, b3⟩⟩, by rw [b1, c1.2, c2]⟩
    · unfold options at h
      rw [a2 hex] at h
      cases h
  · obtain ⟨a1, -⟩ := C108_loose cfg hs (.alt (.word yes) (.word no)) s
    obtain ⟨r, c1, c2⟩ := a1 t ts h1 ((hw t).2 h2.2)
    exact ⟨r, by unfold options; rw [h2.1]; exact c1, c2⟩

private theorem same_fold (cfg : StreamCfg) (t e : List Char) :
    (stringEqual cfg.defaultLower (foldOf cfg t) e cfg.caseSensitive).value = true ↔ SameWord cfg.caseSensitive t e := by
  rw [stringEqual_fold, fold_same]

/-- The first word of the team, and in strict mode the line break after it. -/
def Begins (space : Bool) (t : List Char) (s : List Char) : Prop := if space then ∃ r, s = t ++ '\n' :: r else ∃ ts, tokens s = t :: ts

/-- The program after the files of the jury have been read. -/
private theorem rest_of_program (juryCfg teamCfg : StreamCfg) (hj : juryCfg.spaceSensitive = false) (hjf : juryCfg.onFail = 1)
    (hcs : juryCfg.caseSensitive = teamCfg.caseSensitive) (hdl : juryCfg.defaultLower = teamCfg.defaultLower) (jury team j : List Char)
    (hjury : (tokens jury = [j, decimal 6] ∧ SameWord juryCfg.caseSensitive j yes) ∨ (tokens jury = [j] ∧ SameWord juryCfg.caseSensitive j no)) :
    outputValidator2 juryCfg teamCfg jury team = (Stream.stringRe teamCfg (options teamCfg.caseSensitive) team >>= fun x =>
      Stream.newline teamCfg x.2 >>= fun r =>
      if (stringEqual teamCfg.defaultLower x.1 yes teamCfg.caseSensitive).value then .error (.exit 1)
      else Stream.eof teamCfg r >>= fun _ =>
        if (stringEqual teamCfg.defaultLower (foldOf teamCfg j) x.1 teamCfg.caseSensitive).value then .error (.exit 42)
        else if (stringEqual teamCfg.defaultLower (foldOf teamCfg j) yes teamCfg.caseSensitive).value then .error (.exit 43)
        else .error (.exit 1)) := by
  have hfold : ∀ t, foldOf juryCfg t = foldOf teamCfg t := by
    intro t
    unfold foldOf
    rw [hcs, hdl]
  have hint := (readsWord_integer juryCfg).2 hj
  have hnone : ∀ r, tokens r = [] → Stream.integer juryCfg r = .error (.exit 1) := by
    intro r hr
    rcases integer_okOrFail juryCfg r with ⟨⟨v, r'⟩, h⟩ | h
    · obtain ⟨t, -, h'⟩ := hint.1 r v r' h
      rw [hr] at h'
      cases h'
    · rw [h, ← hjf]; rfl
  -- the jury
  obtain ⟨r1, r2, hr1, hr2, hr3⟩ : ∃ r1 r2, Stream.stringRe juryCfg (options juryCfg.caseSensitive) jury = .ok (foldOf juryCfg j, r1) ∧
      (if (stringEqual juryCfg.defaultLower (foldOf juryCfg j) yes juryCfg.caseSensitive).value then jurySolution juryCfg r1 else .ok r1) = .ok r2 ∧
      tokens r2 = [] := by
    rcases hjury with ⟨h1, h2⟩ | ⟨h1, h2⟩
    · obtain ⟨r1, a1, a2⟩ := ((readsWord_options juryCfg).2 hj).2 jury (foldOf juryCfg j) j _ h1 ⟨rfl, .inl h2⟩
      obtain ⟨r2, b1, b2⟩ := hint.2 r1 6 _ [] a2 ⟨rfl, by decide⟩
      refine ⟨r1, r2, a1, ?_, b2⟩
      rw [if_pos ((same_fold juryCfg j yes).2 h2)]
      unfold jurySolution
      rw [b1, ok_bind]
      rfl
    · obtain ⟨r1, a1, a2⟩ := ((readsWord_options juryCfg).2 hj).2 jury (foldOf juryCfg j) j _ h1 ⟨rfl, .inr h2⟩
      refine ⟨r1, r1, a1, ?_, a2⟩
      rw [if_neg fun h => yes_no _ _ ((same_fold juryCfg j yes).1 h) h2]
  unfold outputValidator2
  simp only []
  rw [hr1, ok_bind]
  simp only []
  rw [hcs, hdl, hfold] at hr2 ⊢
  congr 1
  funext x
  obtain ⟨t, team⟩ := x
  simp only []
  congr 1
  funext r
  rw [hr2, ok_bind]
  by_cases ht : (stringEqual teamCfg.defaultLower t yes teamCfg.caseSensitive).value = true
  · simp only [ht, if_true]
    unfold teamSolution
    rw [hnone r2 hr3]
    rfl
  · simp only [Bool.not_eq_true] at ht
    simp only [ht, Bool.false_eq_true, if_false, ok_bind]
    rfl

/-- A team that answers `Yes`. -/
private theorem says_yes (teamCfg : StreamCfg) {α : Type} (team t : List Char) (ht : SameWord teamCfg.caseSensitive t yes)
    (hb : Begins teamCfg.spaceSensitive t team) (g : List Char × List Char → List Char → Out α) : (Stream.stringRe teamCfg (options teamCfg.caseSensitive) team >>= fun x =>
      Stream.newline teamCfg x.2 >>= fun r =>
      if (stringEqual teamCfg.defaultLower x.1 yes teamCfg.caseSensitive).value then .error (.exit 1) else g x r) = .error (.exit 1) := by
  have hread : ∃ r1 r2, Stream.stringRe teamCfg (options teamCfg.caseSensitive) team = .ok (foldOf teamCfg t, r1) ∧ Stream.newline teamCfg r1 = .ok r2 := by
    unfold Begins at hb
    have hw := readsWord_options teamCfg
    cases hs : teamCfg.spaceSensitive with
    | true =>
      rw [hs, if_pos rfl] at hb
      obtain ⟨r, rfl⟩ := hb
      exact ⟨_, r, (hw.1 hs _ _ _).2 ⟨t, rfl, ⟨rfl, .inl ht⟩, .inr ⟨_, _, rfl, .inr (.inr (.inl rfl))⟩⟩, (newline_strict hs _ _).2 rfl⟩
    | false =>
      rw [hs] at hb
      obtain ⟨ts, hb⟩ : ∃ ts, tokens team = t :: ts := by simpa using hb
      obtain ⟨r, h1, -⟩ := (hw.2 hs).2 team _ t ts hb ⟨rfl, .inl ht⟩
      exact ⟨r, r, h1, newline_loose hs r⟩
  obtain ⟨r1, r2, h1, h2⟩ := hread
  rw [h1, ok_bind]
  simp only []
  rw [h2, ok_bind, if_pos ((same_fold teamCfg t yes).2 ht)]

/-- What a team that is not stopped has written. -/
private theorem read_answer (teamCfg : StreamCfg) (team v r : List Char) (h : Stream.stringRe teamCfg (options teamCfg.caseSensitive) team = .ok (v, r)) :
    ∃ t, v = foldOf teamCfg t ∧ (SameWord teamCfg.caseSensitive t yes ∨ SameWord teamCfg.caseSensitive t no) := by
  have hw := readsWord_options teamCfg
  cases hs : teamCfg.spaceSensitive with
  | true =>
    obtain ⟨t, -, h, -⟩ := (hw.1 hs _ _ _).1 h
    exact ⟨t, h⟩
  | false =>
    obtain ⟨t, h, -⟩ := (hw.2 hs).1 _ _ _ h
    exact ⟨t, h⟩

private theorem same_folds (cfg : StreamCfg) (a b : List Char) :
    (stringEqual cfg.defaultLower (foldOf cfg a) (foldOf cfg b) cfg.caseSensitive).value = true ↔ SameWord cfg.caseSensitive a b := by
  rw [stringEqual_fold, fold_fold, fold_same]

private theorem same_trans (cfg : StreamCfg) {a b e : List Char} (h : SameWord cfg.caseSensitive a b) (h' : SameWord cfg.caseSensitive b e) :
    SameWord cfg.caseSensitive a e := by
  rw [← fold_same] at *
  rw [h, h']

/-- **C87 (refuted for example/outputValidator2.cpp).** The number of the team is read from the file of the jury. If the answer of the jury is `Yes 6`, then
nothing that a team can write is accepted, and every team that answers `Yes` gets the verdict that the jury has failed. -/
theorem C87_output2_refuted (juryCfg teamCfg : StreamCfg) (hj : juryCfg.spaceSensitive = false) (hjf : juryCfg.onFail = 1) (hf : teamCfg.onFail = 43)
    (hcs : juryCfg.caseSensitive = teamCfg.caseSensitive) (hdl : juryCfg.defaultLower = teamCfg.defaultLower) (jury team j : List Char)
    (hjury : tokens jury = [j, decimal 6]) (hyes : SameWord juryCfg.caseSensitive j yes) :
    outputValidator2 juryCfg teamCfg jury team ≠ .error (.exit 42) ∧
    ∀ t, SameWord teamCfg.caseSensitive t yes → Begins teamCfg.spaceSensitive t team → outputValidator2 juryCfg teamCfg jury team = .error (.exit 1) := by
  rw [rest_of_program juryCfg teamCfg hj hjf hcs hdl jury team j (.inl ⟨hjury, hyes⟩)]
  refine ⟨fun h => ?_, fun t ht hb => says_yes teamCfg team t ht hb _⟩
  have hn : teamCfg.onFail ≠ 42 := by omega
  rw [bind_exit_iff (stringRe_okOrFail teamCfg _ _) hn] at h
  obtain ⟨⟨v, r⟩, h1, h⟩ := h
  simp only [] at h
  rw [bind_exit_iff (newline_okOrFail teamCfg _) hn] at h
  obtain ⟨r2, -, h⟩ := h
  obtain ⟨t, rfl, ht⟩ := read_answer teamCfg team v r h1
  split at h
  · cases h
  · rename_i hy
    rw [same_fold] at hy
    rw [bind_exit_iff (eof_okOrFail teamCfg _) hn] at h
    obtain ⟨r3, -, h⟩ := h
    rw [hcs] at hyes
    split at h
    · rename_i hsame
      rw [same_folds] at hsame
      rcases ht with ht | ht
      · exact hy ht
      · exact yes_no _ j hyes (same_trans teamCfg hsame ht)
    · split at h <;> cases h

/-- **C87.** If the answer of the jury is `No`, example/outputValidator2.cpp accepts exactly `No`; a team that answers `Yes` gets the verdict that the
jury has failed, whether its solution is right or not, and everything else is wrong. -/
theorem C87_output2_partial (juryCfg teamCfg : StreamCfg) (hj : juryCfg.spaceSensitive = false) (hjf : juryCfg.onFail = 1) (hf : teamCfg.onFail = 43)
    (hcs : juryCfg.caseSensitive = teamCfg.caseSensitive) (hdl : juryCfg.defaultLower = teamCfg.defaultLower) (jury team j : List Char)
    (hjury : tokens jury = [j]) (hno : SameWord juryCfg.caseSensitive j no) :
    (outputValidator2 juryCfg teamCfg jury team = .error (.exit 42) ↔ OneWord teamCfg.spaceSensitive (fun t => SameWord teamCfg.caseSensitive t no) team) ∧
    (∀ t, SameWord teamCfg.caseSensitive t yes → Begins teamCfg.spaceSensitive t team → outputValidator2 juryCfg teamCfg jury team = .error (.exit 1)) ∧
    ((¬ OneWord teamCfg.spaceSensitive (fun t => SameWord teamCfg.caseSensitive t no) team) →
      (¬ ∃ t, SameWord teamCfg.caseSensitive t yes ∧ Begins teamCfg.spaceSensitive t team) →
      outputValidator2 juryCfg teamCfg jury team = .error (.exit 43)) := by
  rw [rest_of_program juryCfg teamCfg hj hjf hcs hdl jury team j (.inr ⟨hjury, hno⟩)]
  have hn : teamCfg.onFail ≠ 42 := by omega
  rw [hcs] at hno
  -- the runs that are accepted
  have hiff : (Stream.stringRe teamCfg (options teamCfg.caseSensitive) team >>= fun x =>
      Stream.newline teamCfg x.2 >>= fun r =>
      if (stringEqual teamCfg.defaultLower x.1 yes teamCfg.caseSensitive).value then .error (.exit 1)
      else Stream.eof teamCfg r >>= fun _ =>
        if (stringEqual teamCfg.defaultLower (foldOf teamCfg j) x.1 teamCfg.caseSensitive).value then .error (.exit 42)
        else if (stringEqual teamCfg.defaultLower (foldOf teamCfg j) yes teamCfg.caseSensitive).value then .error (.exit 43)
        else .error (.exit 1) : Out Unit) = .error (.exit 42) ↔ OneWord teamCfg.spaceSensitive (fun t => SameWord teamCfg.caseSensitive t no) team := by
    have hend := readsWord_end (readsWord_options teamCfg) team
    constructor
    · intro h
      rw [bind_exit_iff (stringRe_okOrFail teamCfg _ _) hn] at h
      obtain ⟨⟨v, r⟩, h1, h⟩ := h
      simp only [] at h
      rw [bind_exit_iff (newline_okOrFail teamCfg _) hn] at h
      obtain ⟨r2, h2, h⟩ := h
      split at h
      · cases h
      · rename_i hy
        rw [bind_exit_iff (eof_okOrFail teamCfg _) hn] at h
        obtain ⟨r3, h3, h⟩ := h
        obtain ⟨t, ⟨rfl, ht⟩, hrest⟩ := (hend v).1 ⟨r, r2, r3, h1, h2, h3⟩
        rw [same_fold] at hy
        rcases ht with ht | ht
        · exact absurd ht hy
        · exact ⟨t, ht, hrest⟩
    · rintro ⟨t, ht, hrest⟩
      obtain ⟨r, r2, r3, h1, h2, h3⟩ := (hend (foldOf teamCfg t)).2 ⟨t, ⟨rfl, .inr ht⟩, hrest⟩
      rw [h1, ok_bind]
      simp only []
      rw [h2, ok_bind, if_neg fun h => yes_no _ t ((same_fold teamCfg t yes).1 h) ht, h3, ok_bind,
        if_pos ((same_folds teamCfg j t).2 ((fold_same _ _ _).1 (((fold_same _ _ _).2 hno).trans ((fold_same _ _ _).2 ht).symm)))]
  refine ⟨hiff, fun t ht hb => says_yes teamCfg team t ht hb _, fun h1 h2 => ?_⟩
  rw [← hiff] at h1
  rcases stringRe_okOrFail teamCfg (options teamCfg.caseSensitive) team with ⟨⟨v, r⟩, e⟩ | e
  · rw [e, ok_bind] at h1 ⊢
    simp only [] at h1 ⊢
    rcases newline_okOrFail teamCfg r with ⟨r2, e2⟩ | e2
    · rw [e2, ok_bind] at h1 ⊢
      obtain ⟨t, rfl, ht⟩ := read_answer teamCfg team v r e
      by_cases hy : SameWord teamCfg.caseSensitive t yes
      · exfalso
        have hw := readsWord_options teamCfg
        unfold Begins at h2
        cases hs : teamCfg.spaceSensitive with
        | true =>
          obtain ⟨t', e3, ⟨e4, ht'⟩, -⟩ := (hw.1 hs _ _ _).1 e
          have e5 := (newline_strict hs _ _).1 e2
          simp only [hs, if_true] at h2
          refine h2 ⟨t', ?_, r2, by rw [e3, e5]⟩
          rw [← fold_same, ← e4, fold_same]
          exact hy
        | false =>
          obtain ⟨t', ⟨e4, ht'⟩, e3⟩ := (hw.2 hs).1 _ _ _ e
          simp only [hs, Bool.false_eq_true, if_false] at h2
          refine h2 ⟨t', ?_, _, e3⟩
          rw [← fold_same, ← e4, fold_same]
          exact hy
      · rw [if_neg (fun h => hy ((same_fold teamCfg t yes).1 h))] at h1 ⊢
        rcases eof_okOrFail teamCfg r2 with ⟨r3, e3⟩ | e3
        · rw [e3, ok_bind] at h1 ⊢
          have ht := ht.resolve_left hy
          rw [if_pos ((same_folds teamCfg j t).2 ((fold_same _ _ _).1 (((fold_same _ _ _).2 hno).trans ((fold_same _ _ _).2 ht).symm)))] at h1
          exact absurd rfl h1
        · rw [e3, ← hf]; rfl
    · rw [e2, ← hf]; rfl
  · rw [e, ← hf]; rfl

/-- The streams of a judge that validates the answer of the jury, strictly. -/
example : outputValidator2 juryCfg strictCfg "Yes 6".toList "Yes\n6\n".toList = .error (.exit 1) := by decide +kernel
example : outputValidator2 juryCfg teamCfg "Yes 6".toList "No".toList = .error (.exit 43) := by decide +kernel
example : outputValidator2 juryCfg teamCfg "No".toList "No".toList = .error (.exit 42) := by decide +kernel
/-- A jury that gives its solution twice makes a team right that writes no solution. -/
example : outputValidator2 juryCfg teamCfg "Yes 6 6".toList "Yes".toList = .error (.exit 42) := by decide +kernel

end ICPC.Props
