import Verif.Lemmas.Decimal
import Verif.Lemmas.Chars
import Verif.Spec.Validator

/-! # Lemmas about the input stream -/

namespace ICPC
open Spec

theorem isSpaceC_iff (c : Char) : isSpaceC c = true ↔ White c := by
  unfold isSpaceC White
  simp only [Bool.or_eq_true, beq_iff_eq, Bool.and_eq_true, decide_eq_true_eq]
  constructor
  · rintro (h | h)
    · exact .inl h
    · have : c.toNat = 9 ∨ c.toNat = 10 ∨ c.toNat = 11 ∨ c.toNat = 12 ∨ c.toNat = 13 := by omega
      rcases this with h | h | h | h | h
      · exact .inr (.inl (char_toNat_inj h))
      · exact .inr (.inr (.inl (char_toNat_inj h)))
      · exact .inr (.inr (.inr (.inl (char_toNat_inj h))))
      · exact .inr (.inr (.inr (.inr (.inl (char_toNat_inj h)))))
      · exact .inr (.inr (.inr (.inr (.inr (char_toNat_inj h)))))
  · rintro (rfl | rfl | rfl | rfl | rfl | rfl) <;> decide

theorem isSpaceC_false_iff (c : Char) : isSpaceC c = false ↔ ¬ White c := by
  rw [← isSpaceC_iff]; simp

theorem isGraphC_iff (c : Char) : isGraphC c = true ↔ Visible c := by
  simp [isGraphC, Visible]

theorem visible_not_white {c : Char} (h : Visible c) : ¬ White c := by
  rintro (rfl | rfl | rfl | rfl | rfl | rfl) <;> exact absurd h (by unfold Visible; decide)

/-- The conversion of tokens: identity or default case. -/
def foldOf (cfg : StreamCfg) (t : List Char) : List Char :=
  if !cfg.caseSensitive then toDefaultCaseS cfg.defaultLower t else t

theorem foldOf_eq_map (cfg : StreamCfg) : ∃ f : Char → Char,
    (∀ t, foldOf cfg t = t.map f) ∧ (∀ c, f c = c ∨ (isLetterC (f c) = true)) := by
  unfold foldOf
  cases cfg.caseSensitive
  · refine ⟨toDefaultCaseC cfg.defaultLower, fun t => ?_, fun c => ?_⟩
    · simp only [toDefaultCaseS]
      cases cfg.defaultLower <;> rfl
    · unfold toDefaultCaseC
      cases cfg.defaultLower
      · simp only [Bool.false_eq_true, if_false]
        by_cases h : ∃ i, c = lowerLetter i
        · obtain ⟨i, rfl⟩ := h
          right; rw [toUpperC_lower]; revert i; decide
        · left; exact toUpperC_other c fun i hi => h ⟨i, hi⟩
      · simp only [if_true]
        by_cases h : ∃ i, c = upperLetter i
        · obtain ⟨i, rfl⟩ := h
          right; rw [toLowerC_upper]; revert i; decide
        · left; exact toLowerC_other c fun i hi => h ⟨i, hi⟩
  · exact ⟨id, fun t => by simp, fun c => .inl rfl⟩

theorem foldOf_length (cfg : StreamCfg) (t : List Char) : (foldOf cfg t).length = t.length := by
  obtain ⟨f, hf, _⟩ := foldOf_eq_map cfg
  rw [hf, List.length_map]

/-- Converting to the default case neither creates nor destroys characters that are not letters. -/
theorem map_eq_of_nonletter {f : Char → Char} (hf : ∀ c, f c = c ∨ isLetterC (f c) = true) :
    ∀ (t w : List Char), (∀ c ∈ w, isLetterC c = false) → t.map f = w → t = w
  | [], _, _, h => h
  | c :: t, w, hw, h => by
    subst h
    have h1 : f c = c := by
      rcases hf c with h | h
      · exact h
      · rw [hw (f c) (by simp)] at h; cases h
    have h2 := map_eq_of_nonletter hf t (t.map f) (fun x hx => hw x (by simp only [List.map_cons, List.mem_cons]; exact .inr hx)) rfl
    rw [List.map_cons, h1, ← h2]

theorem map_nonletter {f : Char → Char} (hf : ∀ c, isLetterC c = false → f c = c) :
    ∀ (w : List Char), (∀ c ∈ w, isLetterC c = false) → w.map f = w
  | [], _ => rfl
  | c :: t, hw => by
    rw [List.map_cons, hf c (hw c (by simp)), map_nonletter hf t fun x hx => hw x (List.mem_cons_of_mem _ hx)]

theorem toDefault_nonletter (dl : Bool) (c : Char) (h : isLetterC c = false) : toDefaultCaseC dl c = c := by
  simp only [isLetterC, Bool.or_eq_false_iff] at h
  cases dl
  · exact toUpperC_other c fun i hi => by
      rw [hi] at h; rw [(isLowerC_letter _).2 ⟨i, rfl⟩] at h; exact absurd h.1 (by simp)
  · exact toLowerC_other c fun i hi => by
      rw [hi] at h; rw [(isUpperC_letter _).2 ⟨i, rfl⟩] at h; exact absurd h.2 (by simp)

theorem foldOf_nonletter (cfg : StreamCfg) (w : List Char) (h : ∀ c ∈ w, isLetterC c = false) : foldOf cfg w = w := by
  unfold foldOf
  cases cfg.caseSensitive
  · simp only [toDefaultCaseS]
    have := map_nonletter (toDefault_nonletter cfg.defaultLower) w h
    revert this; unfold toDefaultCaseC
    cases cfg.defaultLower <;> exact id
  · rfl

theorem foldOf_eq_iff_nonletter (cfg : StreamCfg) (t w : List Char) (h : ∀ c ∈ w, isLetterC c = false) :
    foldOf cfg t = w ↔ t = w := by
  constructor
  · intro hx
    obtain ⟨f, hf, hl⟩ := foldOf_eq_map cfg
    rw [hf] at hx
    exact map_eq_of_nonletter hl t w h hx
  · rintro rfl; exact foldOf_nonletter cfg t h

theorem decimal_nonletter (v : Int) : ∀ c ∈ decimal v, isLetterC c = false := by
  intro c hc
  rcases decimal_chars v c hc with rfl | h
  · decide
  · have := (isDigitC_iff c).1 h
    have h1 : isLowerC c = false := by
      rw [Bool.eq_false_iff]; intro h; have := (isLowerC_iff c).1 h; omega
    have h2 : isUpperC c = false := by
      rw [Bool.eq_false_iff]; intro h; have := (isUpperC_iff c).1 h; omega
    simp [isLetterC, h1, h2]

theorem decimal_strict (v : Int) : StrictToken (decimal v) := by
  have hv : ∀ c ∈ decimal v, Visible c := by
    intro c hc
    rcases decimal_chars v c hc with rfl | h
    · exact ⟨by decide, by decide⟩
    · have := (isDigitC_iff c).1 h; exact ⟨by omega, by omega⟩
  refine ⟨⟨decimal_ne_nil v, fun c hc => visible_not_white (hv c hc)⟩, ?_⟩
  cases hd : decimal v with
  | nil => exact absurd hd (decimal_ne_nil v)
  | cons c r => exact ⟨c, r, rfl, hv c (by rw [hd]; simp)⟩

/-- The call ends with a value or with the failure verdict of the stream. -/
def OkOrFail {α : Type} (cfg : StreamCfg) (x : Out α) : Prop := (∃ a, x = .ok a) ∨ x = Stream.fail cfg

theorem OkOrFail.ok {α : Type} (cfg : StreamCfg) (a : α) : OkOrFail cfg (Except.ok a : Out α) := .inl ⟨a, rfl⟩

theorem OkOrFail.fail {α : Type} (cfg : StreamCfg) : OkOrFail cfg (Stream.fail cfg : Out α) := .inr rfl

theorem OkOrFail.bind {α β : Type} {cfg : StreamCfg} {x : Out α} {f : α → Out β} (hx : OkOrFail cfg x)
    (hf : ∀ a, OkOrFail cfg (f a)) : OkOrFail cfg (x >>= f) := by
  rcases hx with ⟨a, rfl⟩ | rfl
  · exact hf a
  · exact .inr rfl

theorem noteof_okOrFail (cfg : StreamCfg) (s : List Char) : OkOrFail cfg (Stream.noteof cfg s) := by
  unfold Stream.noteof
  simp only
  generalize (if (!cfg.spaceSensitive) = true then Stream.skipWs s else s) = s
  split
  · exact .fail cfg
  · exact .ok cfg _

theorem eof_okOrFail (cfg : StreamCfg) (s : List Char) : OkOrFail cfg (Stream.eof cfg s) := by
  unfold Stream.eof
  simp only
  generalize (if (!cfg.spaceSensitive) = true then Stream.skipWs s else s) = s
  split
  · exact .ok cfg _
  · exact .fail cfg

theorem getExpect_okOrFail (cfg : StreamCfg) (c : Char) (s : List Char) : OkOrFail cfg (Stream.getExpect cfg c s) := by
  cases s with
  | nil => exact .fail cfg
  | cons x s =>
    show OkOrFail cfg (if x ≠ c then Stream.fail cfg else .ok s)
    by_cases h : x = c
    · rw [if_neg (by simp [h])]; exact .ok cfg _
    · rw [if_pos h]; exact .fail cfg

theorem space_okOrFail (cfg : StreamCfg) (s : List Char) : OkOrFail cfg (Stream.space cfg s) := by
  unfold Stream.space
  split
  · exact (noteof_okOrFail cfg s).bind fun a => getExpect_okOrFail cfg ' ' a
  · exact .ok cfg _

theorem newline_okOrFail (cfg : StreamCfg) (s : List Char) : OkOrFail cfg (Stream.newline cfg s) := by
  unfold Stream.newline
  split
  · exact (noteof_okOrFail cfg s).bind fun a => getExpect_okOrFail cfg '\n' a
  · exact .ok cfg _

theorem string_okOrFail (cfg : StreamCfg) (s : List Char) : OkOrFail cfg (Stream.string cfg s) := by
  unfold Stream.string
  refine (noteof_okOrFail cfg s).bind fun a => ?_
  split
  · exact .fail cfg
  · dsimp only
    split
    · exact .fail cfg
    · exact .ok cfg _

theorem ite_okOrFail {α : Type} {cfg : StreamCfg} {c : Prop} [Decidable c] {a : α} :
    OkOrFail cfg (if c then Stream.fail cfg else .ok a) := by
  split
  · exact .fail cfg
  · exact .ok cfg _

theorem stringRe_okOrFail (cfg : StreamCfg) (p : Re) (s : List Char) : OkOrFail cfg (Stream.stringRe cfg p s) :=
  (string_okOrFail cfg s).bind fun _ => ite_okOrFail

theorem stringBounded_okOrFail (cfg : StreamCfg) (l u : Int) (s : List Char) : OkOrFail cfg (Stream.stringBounded cfg l u s) :=
  (string_okOrFail cfg s).bind fun _ => ite_okOrFail

theorem parseToken_okOrFail {α : Type} (cfg : StreamCfg) (parse : List Char → Option α) (t rest : List Char) :
    OkOrFail cfg (Stream.parseToken cfg parse t rest) := by
  unfold Stream.parseToken
  split
  · exact .ok cfg _
  · exact .fail cfg

theorem integer_okOrFail (cfg : StreamCfg) (s : List Char) : OkOrFail cfg (Stream.integer cfg s) :=
  (stringRe_okOrFail cfg _ s).bind fun _ => parseToken_okOrFail cfg _ _ _

theorem real_okOrFail {R : Type} (cfg : StreamCfg) (ops : RealOps R) (s : List Char) : OkOrFail cfg (Stream.real cfg ops s) :=
  (stringRe_okOrFail cfg _ s).bind fun _ => parseToken_okOrFail cfg _ _ _

theorem wrap_okOrFail {α R : Type} {cfg : StreamCfg} {f : α → Val R} {x : Out (α × List Char)} (h : OkOrFail cfg x) :
    OkOrFail cfg (wrap f x) := h.bind fun _ => .ok cfg _

theorem tok_okOrFail {R : Type} (cfg : StreamCfg) (ops : RealOps R) (t : Tok R) (s : List Char) :
    OkOrFail cfg (t.run cfg ops s) := by
  cases t with
  | string => exact wrap_okOrFail (string_okOrFail cfg s)
  | stringBounded l u => exact wrap_okOrFail (stringBounded_okOrFail cfg l u s)
  | stringRe p => exact wrap_okOrFail (stringRe_okOrFail cfg p s)
  | stringReBounded p l u =>
    exact wrap_okOrFail ((stringBounded_okOrFail cfg l u s).bind fun _ => ite_okOrFail)
  | integer => exact wrap_okOrFail (integer_okOrFail cfg s)
  | integerBounded l u => exact wrap_okOrFail ((integer_okOrFail cfg s).bind fun _ => ite_okOrFail)
  | real => exact wrap_okOrFail (real_okOrFail cfg ops s)
  | realBounded l u =>
    refine wrap_okOrFail ((real_okOrFail cfg ops s).bind fun _ => ?_)
    dsimp only
    split
    · exact .ok cfg _
    · split
      · exact .ok cfg _
      · exact ite_okOrFail
  | realStrict l u mi ma =>
    refine wrap_okOrFail ((stringRe_okOrFail cfg _ s).bind fun _ => ?_)
    dsimp only
    split
    · exact .fail cfg
    · exact (parseToken_okOrFail cfg _ _ _).bind fun _ => ite_okOrFail

theorem manyLoop_okOrFail {α : Type} (cfg : StreamCfg) {sep : List Char → Out (List Char)} {one : List Char → Out (α × List Char)}
    (hs : ∀ s, OkOrFail cfg (sep s)) (ho : ∀ s, OkOrFail cfg (one s)) :
    ∀ n s, OkOrFail cfg (Stream.manyLoop sep one n s)
  | 0, _ => .ok cfg _
  | 1, s => (ho s).bind fun _ => .ok cfg _
  | n + 2, s => (ho s).bind fun _ => (hs _).bind fun _ => (manyLoop_okOrFail cfg hs ho (n + 1) _).bind fun _ => .ok cfg _

/-! ## Successful reads -/

theorem bind_eq_ok {α β : Type} {x : Out α} {f : α → Out β} {b : β} : (x >>= f) = .ok b ↔ ∃ a, x = .ok a ∧ f a = .ok b := by
  cases x with
  | error e => simp [error_bind]
  | ok a => simp [ok_bind]

theorem fail_ne_ok {α : Type} {cfg : StreamCfg} {a : α} : (Stream.fail cfg : Out α) ≠ .ok a := by
  intro h; cases h

theorem ite_fail_eq_ok {α : Type} {cfg : StreamCfg} {c : Prop} [Decidable c] {x : Out α} {b : α} :
    ((if c then Stream.fail cfg else x) = .ok b) ↔ ¬ c ∧ x = .ok b := by
  split
  · rename_i h; simp [h, fail_ne_ok]
  · rename_i h; simp [h]

theorem delimited_iff (r : List Char) : Delimited r ↔ ∀ c t, r = c :: t → isSpaceC c = true := by
  constructor
  · rintro (rfl | ⟨c, t, rfl, h⟩) c' t' he
    · cases he
    · simp only [List.cons.injEq] at he
      rw [isSpaceC_iff, ← he.1]; exact h
  · intro h
    cases r with
    | nil => exact .inl rfl
    | cons c t => exact .inr ⟨c, t, rfl, (isSpaceC_iff c).1 (h c t rfl)⟩

theorem dropWhile_head {p : Char → Bool} : ∀ (s : List Char) (c : Char) (t : List Char), s.dropWhile p = c :: t → p c = false
  | [], _, _, h => by simp at h
  | x :: s, c, t, h => by
    by_cases hx : p x = true
    · rw [List.dropWhile_cons_of_pos hx] at h
      exact dropWhile_head s c t h
    · rw [List.dropWhile_cons_of_neg hx] at h
      simp only [List.cons.injEq] at h
      rw [← h.1]; simpa using hx

theorem mem_takeWhile_imp {p : Char → Bool} {c : Char} : ∀ {s : List Char}, c ∈ s.takeWhile p → p c = true
  | [], h => by simp at h
  | x :: s, h => by
    by_cases hx : p x = true
    · rw [List.takeWhile_cons_of_pos hx] at h
      rcases List.mem_cons.1 h with rfl | h
      · exact hx
      · exact mem_takeWhile_imp h
    · rw [List.takeWhile_cons_of_neg hx] at h; simp at h

/-- Splitting at the first white space. -/
theorem split_token_iff (s t rest : List Char) :
    (s.takeWhile (fun c => !isSpaceC c) = t ∧ s.dropWhile (fun c => !isSpaceC c) = rest) ↔
      s = t ++ rest ∧ (∀ c ∈ t, ¬ White c) ∧ Delimited rest := by
  constructor
  · rintro ⟨rfl, rfl⟩
    refine ⟨(List.takeWhile_append_dropWhile).symm, fun c hc => ?_, (delimited_iff _).2 fun c t h => ?_⟩
    · have := mem_takeWhile_imp hc
      rw [← isSpaceC_false_iff]; simpa using this
    · have := dropWhile_head s c t h
      simpa using this
  · rintro ⟨rfl, h1, h2⟩
    exact takeWhile_all (fun c hc => by
      have := h1 c hc; rw [← isSpaceC_false_iff] at this; simp [this]) (fun c t h => by
      have := (delimited_iff rest).1 h2 c t h; simp [this])

theorem noteof_strict {cfg : StreamCfg} (hs : cfg.spaceSensitive = true) (s s' : List Char) :
    Stream.noteof cfg s = .ok s' ↔ s ≠ [] ∧ s' = s := by
  unfold Stream.noteof
  simp only [hs, Bool.not_true, Bool.false_eq_true, if_false, ite_fail_eq_ok, List.isEmpty_iff, Except.ok.injEq]
  constructor
  · rintro ⟨h, rfl⟩; exact ⟨h, rfl⟩
  · rintro ⟨h, rfl⟩; exact ⟨h, rfl⟩

theorem string_strict {cfg : StreamCfg} (hs : cfg.spaceSensitive = true) (s t rest : List Char) :
    Stream.string cfg s = .ok (t, rest) ↔ ∃ text, s = text ++ rest ∧ StrictToken text ∧ Delimited rest ∧ t = foldOf cfg text := by
  have key := split_token_iff s
  unfold Stream.string
  rw [bind_eq_ok]
  simp only [noteof_strict hs, hs, Bool.true_and, ite_fail_eq_ok]
  simp only [Stream.extract, hs, if_true, Except.ok.injEq, Prod.mk.injEq]
  constructor
  · rintro ⟨s', ⟨h0, rfl⟩, h1, h2, h3, h4⟩
    obtain ⟨e1, e2, e3⟩ := (key _ rest).1 ⟨rfl, h4⟩
    refine ⟨_, e1, ⟨⟨by simpa using h2, e2⟩, ?_⟩, e3, h3.symm⟩
    cases s' with
    | nil => exact absurd rfl h0
    | cons c r =>
      have hv : Visible c := by
        rw [← isGraphC_iff]; simpa [Stream.badStart] using h1
      have hn := (isSpaceC_false_iff c).2 (visible_not_white hv)
      refine ⟨c, _, List.takeWhile_cons_of_pos (by simp [hn]), hv⟩
  · rintro ⟨text, h1, ⟨⟨h2, h2'⟩, c, r, rfl, hv⟩, h3, h4⟩
    obtain ⟨e1, e2⟩ := (key _ rest).2 ⟨h1, h2', h3⟩
    refine ⟨s, ⟨by rw [h1]; simp, rfl⟩, ?_, ?_, ?_, e2⟩
    · rw [h1, List.cons_append, Stream.badStart, (isGraphC_iff c).2 hv]; simp
    · rw [e1]; simp
    · rw [e1]; exact h4.symm

/-- Success of a function in space sensitive mode: the input starts with an accepted text and goes on properly. -/
def Strict {α : Type} (P : α → List Char → Prop) (x : List Char → Out (α × List Char)) : Prop :=
  ∀ s v rest, x s = .ok (v, rest) ↔ ∃ text, s = text ++ rest ∧ P v text ∧ Delimited rest

theorem strict_string {cfg : StreamCfg} (hs : cfg.spaceSensitive = true) :
    Strict (fun t text => StrictToken text ∧ t = foldOf cfg text) (Stream.string cfg) := by
  intro s v rest
  rw [string_strict hs]
  constructor
  · rintro ⟨text, h1, h2, h3, h4⟩; exact ⟨text, h1, ⟨h2, h4⟩, h3⟩
  · rintro ⟨text, h1, ⟨h2, h4⟩, h3⟩; exact ⟨text, h1, h2, h3, h4⟩

/-- A check of the value after a read. -/
theorem Strict.check {α β : Type} {P : α → List Char → Prop} {x : List Char → Out (α × List Char)} (h : Strict P x)
    {f : α × List Char → Out (β × List Char)} {Q : α → β → Prop}
    (hf : ∀ a rest b rest', f (a, rest) = .ok (b, rest') ↔ rest' = rest ∧ Q a b) :
    Strict (fun b text => ∃ a, P a text ∧ Q a b) (fun s => x s >>= f) := by
  intro s v rest
  rw [bind_eq_ok]
  constructor
  · rintro ⟨⟨a, r⟩, h1, h2⟩
    obtain ⟨rfl, hq⟩ := (hf a r v rest).1 h2
    obtain ⟨text, e, hp, hd⟩ := (h s a rest).1 h1
    exact ⟨text, e, ⟨a, hp, hq⟩, hd⟩
  · rintro ⟨text, e, ⟨a, hp, hq⟩, hd⟩
    exact ⟨(a, rest), (h s a rest).2 ⟨text, e, hp, hd⟩, (hf a rest v rest).2 ⟨rfl, hq⟩⟩

theorem Strict.congr {α : Type} {P Q : α → List Char → Prop} {x : List Char → Out (α × List Char)} (h : Strict P x)
    (hpq : ∀ v text, P v text ↔ Q v text) : Strict Q x := by
  intro s v rest
  rw [h s v rest]
  simp only [hpq]

theorem strict_stringRe {cfg : StreamCfg} (hs : cfg.spaceSensitive = true) (p : Re) :
    Strict (fun t text => StrictToken text ∧ t = foldOf cfg text ∧ Lang p t) (Stream.stringRe cfg p) := by
  refine ((strict_string hs).check (f := fun x => if (!p.matches x.1) = true then Stream.fail cfg else .ok (x.1, x.2))
    (Q := fun a b => Lang p a ∧ b = a) ?_).congr ?_
  · intro a rest b rest'
    simp only [ite_fail_eq_ok, Except.ok.injEq, Prod.mk.injEq, ← matches_iff]
    simp only [Bool.not_eq_true', Bool.not_eq_false]
    constructor
    · rintro ⟨h, rfl, rfl⟩; exact ⟨rfl, h, rfl⟩
    · rintro ⟨rfl, h, rfl⟩; exact ⟨h, rfl, rfl⟩
  · intro v text
    constructor
    · rintro ⟨a, ⟨h1, h2⟩, h3, rfl⟩; exact ⟨h1, h2, h3⟩
    · rintro ⟨h1, h2, h3⟩; exact ⟨v, ⟨h1, h2⟩, h3, rfl⟩

theorem strict_stringBounded {cfg : StreamCfg} (hs : cfg.spaceSensitive = true) (l u : Int) :
    Strict (fun t text => StrictToken text ∧ t = foldOf cfg text ∧ l ≤ text.length ∧ text.length < u)
      (Stream.stringBounded cfg l u) := by
  refine ((strict_string hs).check (f := fun x => if (x.1.length : Int) < l ∨ (x.1.length : Int) ≥ u then Stream.fail cfg else .ok (x.1, x.2))
    (Q := fun a b => (l ≤ a.length ∧ (a.length : Int) < u) ∧ b = a) ?_).congr ?_
  · intro a rest b rest'
    simp only [ite_fail_eq_ok, Except.ok.injEq, Prod.mk.injEq]
    constructor
    · rintro ⟨h, rfl, rfl⟩; exact ⟨rfl, by omega, rfl⟩
    · rintro ⟨rfl, h, rfl⟩; exact ⟨by omega, rfl, rfl⟩
  · intro v text
    constructor
    · rintro ⟨a, ⟨h1, rfl⟩, h3, rfl⟩
      rw [foldOf_length] at h3; exact ⟨h1, rfl, h3⟩
    · rintro ⟨h1, rfl, h3⟩; exact ⟨_, ⟨h1, rfl⟩, by rw [foldOf_length]; exact h3, rfl⟩

theorem strict_stringReBounded {cfg : StreamCfg} (hs : cfg.spaceSensitive = true) (p : Re) (l u : Int) :
    Strict (fun t text => StrictToken text ∧ t = foldOf cfg text ∧ Lang p t ∧ l ≤ text.length ∧ text.length < u)
      (Stream.stringReBounded cfg p l u) := by
  refine ((strict_stringBounded hs l u).check (f := fun x => if (!p.matches x.1) = true then Stream.fail cfg else .ok (x.1, x.2))
    (Q := fun a b => Lang p a ∧ b = a) ?_).congr ?_
  · intro a rest b rest'
    simp only [ite_fail_eq_ok, Except.ok.injEq, Prod.mk.injEq, ← matches_iff]
    simp only [Bool.not_eq_true', Bool.not_eq_false]
    constructor
    · rintro ⟨h, rfl, rfl⟩; exact ⟨rfl, h, rfl⟩
    · rintro ⟨rfl, h, rfl⟩; exact ⟨h, rfl, rfl⟩
  · intro v text
    constructor
    · rintro ⟨a, ⟨h1, h2, h3⟩, h4, rfl⟩; exact ⟨h1, h2, h4, h3⟩
    · rintro ⟨h1, h2, h4, h3⟩; exact ⟨v, ⟨h1, h2, h3⟩, h4, rfl⟩

theorem parseToken_eq_ok {α : Type} {cfg : StreamCfg} {parse : List Char → Option α} {t rest rest' : List Char} {b : α} :
    Stream.parseToken cfg parse t rest = .ok (b, rest') ↔ rest' = rest ∧ parse t = some b := by
  unfold Stream.parseToken
  cases parse t with
  | none => simp [fail_ne_ok]
  | some v =>
    simp only [Except.ok.injEq, Prod.mk.injEq, Option.some.injEq]
    constructor
    · rintro ⟨rfl, rfl⟩; exact ⟨rfl, rfl⟩
    · rintro ⟨rfl, rfl⟩; exact ⟨rfl, rfl⟩

theorem strict_integer {cfg : StreamCfg} (hs : cfg.spaceSensitive = true) :
    Strict (fun v text => text = decimal v ∧ I64 v) (Stream.integer cfg) := by
  refine ((strict_stringRe hs INTEGER_REGEX).check (f := fun x => Stream.parseToken cfg parseInteger x.1 x.2)
    (Q := fun a b => parseInteger a = some b) ?_).congr ?_
  · intro a rest b rest'; exact parseToken_eq_ok
  · intro v text
    constructor
    · rintro ⟨a, ⟨h1, h2, h3⟩, h4⟩
      obtain ⟨w, rfl⟩ := (integerRegex_iff a).1 h3
      rw [parseInteger_decimal] at h4
      split at h4
      · rename_i hw
        simp only [Option.some.injEq] at h4
        subst h4
        exact ⟨(foldOf_eq_iff_nonletter cfg text _ (decimal_nonletter w)).1 h2.symm, hw⟩
      · cases h4
    · rintro ⟨rfl, h⟩
      refine ⟨decimal v, ⟨decimal_strict v, (foldOf_nonletter cfg _ (decimal_nonletter v)).symm, (integerRegex_iff _).2 ⟨v, rfl⟩⟩, ?_⟩
      rw [parseInteger_decimal, if_pos h]

theorem strict_integerBounded {cfg : StreamCfg} (hs : cfg.spaceSensitive = true) (l u : Int) :
    Strict (fun v text => text = decimal v ∧ I64 v ∧ l ≤ v ∧ v < u) (Stream.integerBounded cfg l u) := by
  refine ((strict_integer hs).check (f := fun x => if x.1 < l ∨ x.1 ≥ u then Stream.fail cfg else .ok (x.1, x.2))
    (Q := fun a b => (l ≤ a ∧ a < u) ∧ b = a) ?_).congr ?_
  · intro a rest b rest'
    simp only [ite_fail_eq_ok, Except.ok.injEq, Prod.mk.injEq]
    constructor
    · rintro ⟨h, rfl, rfl⟩; exact ⟨rfl, by omega, rfl⟩
    · rintro ⟨rfl, h, rfl⟩; exact ⟨by omega, rfl, rfl⟩
  · intro v text
    constructor
    · rintro ⟨a, ⟨h1, h2⟩, h3, rfl⟩; exact ⟨h1, h2, h3⟩
    · rintro ⟨h1, h2, h3⟩; exact ⟨v, ⟨h1, h2⟩, h3, rfl⟩

theorem strict_real {R : Type} {cfg : StreamCfg} (ops : RealOps R) (hs : cfg.spaceSensitive = true) :
    Strict (fun x text => StrictToken text ∧ Lang REAL_REGEX (foldOf cfg text) ∧ ops.parse (foldOf cfg text) = some x)
      (Stream.real cfg ops) := by
  refine ((strict_stringRe hs REAL_REGEX).check (f := fun x => Stream.parseToken cfg ops.parse x.1 x.2)
    (Q := fun a b => ops.parse a = some b) ?_).congr ?_
  · intro a rest b rest'; exact parseToken_eq_ok
  · intro v text
    constructor
    · rintro ⟨a, ⟨h1, rfl, h3⟩, h4⟩; exact ⟨h1, h3, h4⟩
    · rintro ⟨h1, h3, h4⟩; exact ⟨_, ⟨h1, rfl, h3⟩, h4⟩

theorem strict_realBounded {R : Type} {cfg : StreamCfg} (ops : RealOps R) (hs : cfg.spaceSensitive = true) (l u : R) :
    Strict (fun x text => StrictToken text ∧ Lang REAL_REGEX (foldOf cfg text) ∧ ops.parse (foldOf cfg text) = some x ∧
      (ops.close x l = true ∨ ops.close x u = true ∨ (ops.isNaN x = false ∧ ops.le l x = true ∧ ops.lt x u = true)))
      (Stream.realBounded cfg ops l u) := by
  refine ((strict_real ops hs).check (f := fun x => if ops.close x.1 l then .ok (x.1, x.2)
      else if ops.close x.1 u then .ok (x.1, x.2)
      else if ops.isNaN x.1 || !ops.le l x.1 || !ops.lt x.1 u then Stream.fail cfg
      else .ok (x.1, x.2))
    (Q := fun a b => (ops.close a l = true ∨ ops.close a u = true ∨ (ops.isNaN a = false ∧ ops.le l a = true ∧ ops.lt a u = true)) ∧ b = a) ?_).congr ?_
  · intro a rest b rest'
    dsimp only
    cases ops.close a l <;> cases ops.close a u <;> cases ops.isNaN a <;> cases ops.le l a <;> cases ops.lt a u <;>
      simp [fail_ne_ok.symm, eq_comm, and_comm]
  · intro v text
    constructor
    · rintro ⟨a, ⟨h1, h2, h3⟩, h4, rfl⟩; exact ⟨h1, h2, h3, h4⟩
    · rintro ⟨h1, h2, h3, h4⟩; exact ⟨_, ⟨h1, h2, h3⟩, h4, rfl⟩

theorem decimals_spec (t : List Char) (n : Nat) : HasDecimals t n ↔ Stream.decimals t = n := by
  have hex : HasDecimals t (Stream.decimals t) := by
    unfold Stream.decimals HasDecimals
    have e := (List.takeWhile_append_dropWhile (p := fun c => c != '.') (l := t))
    cases hd : t.dropWhile (fun c => c != '.') with
    | nil =>
      left
      rw [hd, List.append_nil] at e
      refine ⟨fun hm => ?_, rfl⟩
      rw [← e] at hm
      have := mem_takeWhile_imp hm
      simp at this
    | cons c ds =>
      right
      have hc := dropWhile_head t c ds hd
      simp only [bne_eq_false_iff_eq] at hc
      subst hc
      rw [hd] at e
      refine ⟨_, ds, e.symm, fun hm => ?_, rfl⟩
      have := mem_takeWhile_imp hm
      simp at this
  have huniq : ∀ m n, HasDecimals t m → HasDecimals t n → m = n := by
    rintro m n (⟨h1, rfl⟩ | ⟨a, b, rfl, ha, rfl⟩) (⟨h2, rfl⟩ | ⟨a', b', h2, ha', rfl⟩)
    · rfl
    · rw [h2] at h1; simp at h1
    · simp at h2
    · have hp : ∀ x : List Char, '.' ∉ x → ∀ c ∈ x, (c != '.') = true := by
        intro x hx c hc
        simp only [bne_iff_ne, ne_eq]; rintro rfl; exact hx hc
      have e1 := (takeWhile_all (p := fun c => c != '.') (r := '.' :: b) (hp a ha) (by intro c t h; simp at h; simp [h.1.symm])).2
      have e2 := (takeWhile_all (p := fun c => c != '.') (r := '.' :: b') (hp a' ha') (by intro c t h; simp at h; simp [h.1.symm])).2
      rw [h2, e2] at e1
      simp only [List.cons.injEq, true_and] at e1
      rw [e1]
  constructor
  · intro h; exact huniq _ _ hex h
  · rintro rfl; exact hex

theorem hasDecimals_fold (cfg : StreamCfg) (t : List Char) (n : Nat) : HasDecimals (foldOf cfg t) n ↔ HasDecimals t n := by
  obtain ⟨f, hf, hl⟩ := foldOf_eq_map cfg
  have hdot : ∀ c, f c = '.' ↔ c = '.' := by
    intro c
    constructor
    · intro h
      rcases hl c with h' | h'
      · rw [← h', h]
      · rw [h] at h'; exact absurd h' (by decide)
    · rintro rfl
      have := foldOf_nonletter cfg ['.'] (by decide)
      rw [hf] at this; simpa using this
  have key : ∀ t : List Char, Stream.decimals (t.map f) = Stream.decimals t := by
    intro t
    unfold Stream.decimals
    have : ∀ t : List Char, (t.map f).dropWhile (fun c => c != '.') = (t.dropWhile (fun c => c != '.')).map f := by
      intro t
      induction t with
      | nil => rfl
      | cons c t ih =>
        by_cases hc : c = '.'
        · subst hc; simp [(hdot '.').2 rfl]
        · rw [List.map_cons, List.dropWhile_cons_of_pos (by simp [hdot, hc]), List.dropWhile_cons_of_pos (by simp [hc]), ih]
    rw [this]
    cases t.dropWhile (fun c => c != '.') <;> simp
  rw [decimals_spec, decimals_spec, hf, key]

theorem strict_realStrict {R : Type} {cfg : StreamCfg} (ops : RealOps R) (hs : cfg.spaceSensitive = true) (l u : R) (mi ma : Int) :
    Strict (fun x text => StrictToken text ∧ Lang STRICT_REAL_REGEX (foldOf cfg text) ∧ ops.parse (foldOf cfg text) = some x ∧
      (∃ n : Nat, HasDecimals text n ∧ mi ≤ n ∧ n < ma) ∧ ops.isNaN x = false ∧ ops.le l x = true ∧ ops.lt x u = true)
      (Stream.realStrict cfg ops l u mi ma) := by
  refine ((strict_stringRe hs STRICT_REAL_REGEX).check (f := fun x =>
      if (Stream.decimals x.1 : Int) < mi ∨ (Stream.decimals x.1 : Int) ≥ ma then Stream.fail cfg
      else do
        let (v, rest) ← Stream.parseToken cfg ops.parse x.1 x.2
        if ops.isNaN v || !ops.le l v || !ops.lt v u then Stream.fail cfg
        else .ok (v, rest))
    (Q := fun a b => (mi ≤ Stream.decimals a ∧ (Stream.decimals a : Int) < ma) ∧ ops.parse a = some b ∧
      ops.isNaN b = false ∧ ops.le l b = true ∧ ops.lt b u = true) ?_).congr ?_
  · intro a rest b rest'
    simp only [ite_fail_eq_ok, bind_eq_ok]
    constructor
    · rintro ⟨h, ⟨v, r⟩, h1, h2, h3⟩
      obtain ⟨rfl, hp⟩ := parseToken_eq_ok.1 h1
      simp only [Except.ok.injEq, Prod.mk.injEq] at h3
      obtain ⟨rfl, rfl⟩ := h3
      simp only [Bool.or_eq_true, Bool.not_eq_true', not_or, Bool.not_eq_true, Bool.not_eq_false] at h2
      exact ⟨rfl, by omega, hp, h2.1.1, h2.1.2, h2.2⟩
    · rintro ⟨rfl, h, hp, h1, h2, h3⟩
      refine ⟨by omega, (b, rest'), parseToken_eq_ok.2 ⟨rfl, hp⟩, ?_, rfl⟩
      simp [h1, h2, h3]
  · intro v text
    constructor
    · rintro ⟨a, ⟨h1, rfl, h3⟩, h4, h5, h6⟩
      exact ⟨h1, h3, h5, ⟨_, (hasDecimals_fold cfg text _).1 ((decimals_spec _ _).2 rfl), h4⟩, h6⟩
    · rintro ⟨h1, h3, h5, ⟨n, hn, h4⟩, h6⟩
      refine ⟨_, ⟨h1, rfl, h3⟩, ?_, h5, h6⟩
      rw [(decimals_spec _ n).1 ((hasDecimals_fold cfg text n).2 hn)]
      exact h4

set_option linter.unusedSimpArgs false in
theorem strict_tok {R : Type} {cfg : StreamCfg} (ops : RealOps R) (hs : cfg.spaceSensitive = true) (t : Tok R) :
    Strict (TokText (foldOf cfg) ops t) (t.run cfg ops) := by
  have key : ∀ {α : Type} {P : α → List Char → Prop} {x : List Char → Out (α × List Char)} (f : α → Val R) (Q : Val R → List Char → Prop),
      Strict P x → (∀ v text, Q v text ↔ ∃ a, v = f a ∧ P a text) → Strict Q (fun s => wrap f (x s)) := by
    intro α P x f Q h hq
    refine (h.check (f := fun y => .ok (f y.1, y.2)) (Q := fun a b => b = f a) ?_).congr ?_
    · intro a rest b rest'
      simp only [Except.ok.injEq, Prod.mk.injEq]
      constructor
      · rintro ⟨rfl, rfl⟩; exact ⟨rfl, rfl⟩
      · rintro ⟨rfl, rfl⟩; exact ⟨rfl, rfl⟩
    · intro v text
      rw [hq]
      constructor
      · rintro ⟨a, h1, h2⟩; exact ⟨a, h2, h1⟩
      · rintro ⟨a, h1, h2⟩; exact ⟨a, h2, h1⟩
  cases t with
  | string => exact key .str _ (strict_string hs) fun v text => by cases v <;> simp only [TokText, Val.str.injEq, Val.int.injEq, Val.real.injEq, exists_eq_left', reduceCtorEq, false_and, exists_false]
  | stringBounded l u => exact key .str _ (strict_stringBounded hs l u) fun v text => by cases v <;> simp only [TokText, Val.str.injEq, Val.int.injEq, Val.real.injEq, exists_eq_left', reduceCtorEq, false_and, exists_false]
  | stringRe p => exact key .str _ (strict_stringRe hs p) fun v text => by cases v <;> simp only [TokText, Val.str.injEq, Val.int.injEq, Val.real.injEq, exists_eq_left', reduceCtorEq, false_and, exists_false]
  | stringReBounded p l u => exact key .str _ (strict_stringReBounded hs p l u) fun v text => by cases v <;> simp only [TokText, Val.str.injEq, Val.int.injEq, Val.real.injEq, exists_eq_left', reduceCtorEq, false_and, exists_false]
  | integer => exact key .int _ (strict_integer hs) fun v text => by cases v <;> simp only [TokText, Val.str.injEq, Val.int.injEq, Val.real.injEq, exists_eq_left', reduceCtorEq, false_and, exists_false]
  | integerBounded l u => exact key .int _ (strict_integerBounded hs l u) fun v text => by cases v <;> simp only [TokText, Val.str.injEq, Val.int.injEq, Val.real.injEq, exists_eq_left', reduceCtorEq, false_and, exists_false]
  | real => exact key .real _ (strict_real ops hs) fun v text => by cases v <;> simp only [TokText, Val.str.injEq, Val.int.injEq, Val.real.injEq, exists_eq_left', reduceCtorEq, false_and, exists_false]
  | realBounded l u => exact key .real _ (strict_realBounded ops hs l u) fun v text => by cases v <;> simp only [TokText, Val.str.injEq, Val.int.injEq, Val.real.injEq, exists_eq_left', reduceCtorEq, false_and, exists_false]
  | realStrict l u mi ma => exact key .real _ (strict_realStrict ops hs l u mi ma) fun v text => by cases v <;> simp only [TokText, Val.str.injEq, Val.int.injEq, Val.real.injEq, exists_eq_left', reduceCtorEq, false_and, exists_false]

end ICPC
