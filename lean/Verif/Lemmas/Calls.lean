import Verif.Lemmas.Stream

/-! # The calls of a validator in space sensitive mode -/

namespace ICPC
open Spec

theorem space_strict {cfg : StreamCfg} (hs : cfg.spaceSensitive = true) (s rest : List Char) :
    Stream.space cfg s = .ok rest ↔ s = ' ' :: rest := by
  unfold Stream.space
  rw [if_pos hs, bind_eq_ok]
  simp only [noteof_strict hs]
  constructor
  · rintro ⟨s', ⟨h0, rfl⟩, h⟩
    cases s' with
    | nil => exact absurd rfl h0
    | cons c r =>
      have h' : (if c ≠ ' ' then (Stream.fail cfg : Out (List Char)) else .ok r) = .ok rest := h
      rw [ite_fail_eq_ok] at h'
      simp only [ne_eq, not_not, Except.ok.injEq] at h'
      rw [h'.1, h'.2]
  · rintro rfl
    exact ⟨_, ⟨by simp, rfl⟩, by simp [Stream.getExpect]⟩

theorem newline_strict {cfg : StreamCfg} (hs : cfg.spaceSensitive = true) (s rest : List Char) :
    Stream.newline cfg s = .ok rest ↔ s = '\n' :: rest := by
  unfold Stream.newline
  rw [if_pos hs, bind_eq_ok]
  simp only [noteof_strict hs]
  constructor
  · rintro ⟨s', ⟨h0, rfl⟩, h⟩
    cases s' with
    | nil => exact absurd rfl h0
    | cons c r =>
      have h' : (if c ≠ '\n' then (Stream.fail cfg : Out (List Char)) else .ok r) = .ok rest := h
      rw [ite_fail_eq_ok] at h'
      simp only [ne_eq, not_not, Except.ok.injEq] at h'
      rw [h'.1, h'.2]
  · rintro rfl
    exact ⟨_, ⟨by simp, rfl⟩, by simp [Stream.getExpect]⟩

theorem eof_strict {cfg : StreamCfg} (hs : cfg.spaceSensitive = true) (s rest : List Char) :
    Stream.eof cfg s = .ok rest ↔ s = [] ∧ rest = [] := by
  unfold Stream.eof
  simp only [hs, Bool.not_true, Bool.false_eq_true, if_false, List.isEmpty_iff]
  split
  · rename_i h; subst h; simp [eq_comm]
  · rename_i h; simp [h, fail_ne_ok]

theorem separate_cons (c : Char) (a : List Char) (l : List (List Char)) (h : l ≠ []) :
    separate [c] (a :: l) = a ++ c :: separate [c] l := by
  cases l with
  | nil => exact absurd rfl h
  | cons b l => simp [separate]

theorem manyLoop_strict {α : Type} {P : α → List Char → Prop} {sep : List Char → Out (List Char)} {c : Char} (hc : White c)
    (hsep : ∀ s r, sep s = .ok r ↔ s = c :: r) {one : List Char → Out (α × List Char)} (ho : Strict P one) :
    ∀ (n : Nat) (s : List Char) (vs : List α) (rest : List Char),
      Stream.manyLoop sep one n s = .ok (vs, rest) ↔
        vs.length = n ∧ ∃ texts, List.Forall₂ P vs texts ∧ s = separate [c] texts ++ rest ∧ (0 < n → Delimited rest)
  | 0, s, vs, rest => by
    show (Except.ok ([], s) : Out (List α × List Char)) = .ok (vs, rest) ↔ _
    simp only [Except.ok.injEq, Prod.mk.injEq]
    constructor
    · rintro ⟨rfl, rfl⟩; exact ⟨rfl, [], .nil, rfl, by simp⟩
    · rintro ⟨h1, texts, h2, h3, _⟩
      have := List.length_eq_zero_iff.1 h1
      subst this
      cases h2
      exact ⟨rfl, h3⟩
  | 1, s, vs, rest => by
    show (one s >>= fun x => (Except.ok ([x.1], x.2) : Out (List α × List Char))) = .ok (vs, rest) ↔ _
    rw [bind_eq_ok]
    constructor
    · rintro ⟨⟨a, r⟩, h1, h2⟩
      simp only [Except.ok.injEq, Prod.mk.injEq] at h2
      obtain ⟨rfl, rfl⟩ := h2
      obtain ⟨text, e, hp, hd⟩ := (ho s a r).1 h1
      exact ⟨rfl, [text], .cons hp .nil, e, fun _ => hd⟩
    · rintro ⟨h1, texts, h2, h3, h4⟩
      obtain ⟨a, rfl⟩ := List.length_eq_one_iff.1 h1
      cases h2 with
      | cons hp hr =>
        cases hr
        exact ⟨(a, rest), (ho s a rest).2 ⟨_, h3, hp, h4 (by omega)⟩, rfl⟩
  | n + 2, s, vs, rest => by
    show (one s >>= fun x => sep x.2 >>= fun s => Stream.manyLoop sep one (n + 1) s >>= fun y =>
      (Except.ok (x.1 :: y.1, y.2) : Out (List α × List Char))) = .ok (vs, rest) ↔ _
    rw [bind_eq_ok]
    constructor
    · rintro ⟨⟨a, r⟩, h1, h2⟩
      obtain ⟨r', h5, h6⟩ := bind_eq_ok.1 h2
      obtain ⟨⟨as, r''⟩, h7, h4⟩ := bind_eq_ok.1 h6
      simp only [Except.ok.injEq, Prod.mk.injEq] at h4
      obtain ⟨rfl, rfl⟩ := h4
      obtain ⟨text, e, hp, hd⟩ := (ho s a r).1 h1
      have e2 := (hsep r r').1 h5
      obtain ⟨hl, texts, hf, e3, hd'⟩ := (manyLoop_strict hc hsep ho (n + 1) r' as r'').1 h7
      refine ⟨by simp [hl], text :: texts, .cons hp hf, ?_, fun _ => hd' (by omega)⟩
      have hne : texts ≠ [] := by
        rintro rfl
        have := hf.length_eq
        rw [hl] at this; simp at this
      rw [separate_cons c text texts hne, e, e2, e3]; simp
    · rintro ⟨h1, texts, h2, h3, h4⟩
      cases h2 with
      | nil => simp at h1
      | @cons a text as texts hp hf =>
        have hl : as.length = n + 1 := by simpa using h1
        have hne : texts ≠ [] := by
          rintro rfl
          have := hf.length_eq
          rw [hl] at this; simp at this
        rw [separate_cons c text texts hne] at h3
        refine ⟨(a, c :: (separate [c] texts ++ rest)), (ho s a _).2 ⟨text, by rw [h3]; simp, hp, .inr ⟨c, _, rfl, hc⟩⟩, ?_⟩
        rw [bind_eq_ok]
        refine ⟨separate [c] texts ++ rest, (hsep _ _).2 rfl, ?_⟩
        rw [bind_eq_ok]
        exact ⟨(as, rest), (manyLoop_strict hc hsep ho (n + 1) _ as rest).2 ⟨hl, texts, hf, rfl, fun _ => h4 (by omega)⟩, rfl⟩

theorem toDefaultCaseC_idem (dl : Bool) (c : Char) : toDefaultCaseC dl (toDefaultCaseC dl c) = toDefaultCaseC dl c := by
  unfold toDefaultCaseC
  cases dl
  · simp only [Bool.false_eq_true, if_false]
    by_cases h : ∃ i, c = lowerLetter i
    · obtain ⟨i, rfl⟩ := h
      rw [toUpperC_lower, toUpperC_upper]
    · rw [toUpperC_other c fun i hi => h ⟨i, hi⟩, toUpperC_other c fun i hi => h ⟨i, hi⟩]
  · simp only [if_true]
    by_cases h : ∃ i, c = upperLetter i
    · obtain ⟨i, rfl⟩ := h
      rw [toLowerC_upper, toLowerC_lower]
    · rw [toLowerC_other c fun i hi => h ⟨i, hi⟩, toLowerC_other c fun i hi => h ⟨i, hi⟩]

theorem forall2_same_iff (dl : Bool) : ∀ a b : List Char,
    List.Forall₂ SameLetter (a.map (toDefaultCaseC dl)) b ↔ a.map (toDefaultCaseC dl) = b.map (toDefaultCaseC dl)
  | [], b => by simp [eq_comm]
  | x :: a, [] => by simp
  | x :: a, y :: b => by
    simp only [List.map_cons, List.forall₂_cons, List.cons.injEq, forall2_same_iff dl a b]
    rw [← toDefaultCaseC_eq_iff dl, toDefaultCaseC_idem]

theorem foldOf_insensitive {cfg : StreamCfg} (h : cfg.caseSensitive = false) (t : List Char) :
    foldOf cfg t = t.map (toDefaultCaseC cfg.defaultLower) := by
  unfold foldOf
  simp only [h, Bool.not_false, if_true, toDefaultCaseS]
  cases cfg.defaultLower <;> rfl

theorem foldOf_sensitive {cfg : StreamCfg} (h : cfg.caseSensitive = true) (t : List Char) : foldOf cfg t = t := by
  simp [foldOf, h]

/-- Comparison of a token that was read with the expected one. -/
theorem stringEqual_fold (cfg : StreamCfg) (text e : List Char) :
    (stringEqual cfg.defaultLower (foldOf cfg text) e cfg.caseSensitive).value = true ↔ foldOf cfg text = foldOf cfg e := by
  rw [stringEqual, (stringEqualLoop_value cfg.defaultLower _ e 0 cfg.caseSensitive).1]
  by_cases h : cfg.caseSensitive = true
  · simp [h, foldOf_sensitive h]
  · have h' : cfg.caseSensitive = false := by simpa using h
    simp only [h', Bool.false_eq_true, if_false]
    rw [foldOf_insensitive h', foldOf_insensitive h']
    exact forall2_same_iff _ _ _

theorem isToken_iff (s : List Char) : isToken s = true ↔ Token s := by
  unfold isToken Token
  cases s with
  | nil => simp
  | cons c s =>
    simp only [List.isEmpty_cons, Bool.false_eq_true, if_false, List.all_eq_true, ne_eq, reduceCtorEq, not_false_eq_true, true_and]
    have : ∀ x : Char, (!(x == ' ' || x == '\n' || x == '\r' || x == '\t' || x == Char.ofNat 12 || x == Char.ofNat 11)) = true ↔ ¬ White x := by
      intro x
      unfold White
      simp only [Bool.not_eq_true', Bool.or_eq_false_iff, beq_eq_false_iff_ne, ne_eq]
      constructor
      · rintro ⟨⟨⟨⟨⟨h1, h2⟩, h3⟩, h4⟩, h5⟩, h6⟩ (h | h | h | h | h | h)
        · exact h1 h
        · exact h4 h
        · exact h2 h
        · exact h6 h
        · exact h5 h
        · exact h3 h
      · intro h
        exact ⟨⟨⟨⟨⟨fun e => h (.inl e), fun e => h (.inr (.inr (.inl e)))⟩, fun e => h (.inr (.inr (.inr (.inr (.inr e)))))⟩,
          fun e => h (.inr (.inl e))⟩, fun e => h (.inr (.inr (.inr (.inr (.inl e)))))⟩, fun e => h (.inr (.inr (.inr (.inl e))))⟩
    simp only [this]

theorem noVal_eq_ok {R : Type} {x : Out (List Char)} {vs : List (Val R)} {rest : List Char} :
    noVal x = .ok (vs, rest) ↔ vs = [] ∧ x = .ok rest := by
  unfold noVal
  rw [bind_eq_ok]
  constructor
  · rintro ⟨a, h1, h2⟩
    simp only [Except.ok.injEq, Prod.mk.injEq] at h2
    rw [← h2.2]; exact ⟨h2.1.symm, h1⟩
  · rintro ⟨rfl, h⟩; exact ⟨rest, h, rfl⟩

/-- **All calls in space sensitive mode.** -/
theorem call_strict {R : Type} {cfg : StreamCfg} (ops : RealOps R) (hs : cfg.spaceSensitive = true) (c : Call R)
    (hc : ∀ e, c ≠ .expectReal e) (s : List Char) (vs : List (Val R)) (rest : List Char) :
    c.run cfg ops s = .ok (vs, rest) ↔ ∃ text, s = text ++ rest ∧ CallText (foldOf cfg) ops c vs text ∧ Follow c rest := by
  cases c with
  | tok t =>
    show (t.run cfg ops s >>= fun x => (Except.ok ([x.1], x.2) : Out (List (Val R) × List Char))) = _ ↔ _
    rw [bind_eq_ok]
    constructor
    · rintro ⟨⟨v, r⟩, h1, h2⟩
      simp only [Except.ok.injEq, Prod.mk.injEq] at h2
      obtain ⟨rfl, rfl⟩ := h2
      obtain ⟨text, e, hp, hd⟩ := (strict_tok ops hs t s v r).1 h1
      exact ⟨text, e, ⟨v, rfl, hp⟩, hd⟩
    · rintro ⟨text, e, ⟨v, rfl, hp⟩, hd⟩
      exact ⟨(v, rest), (strict_tok ops hs t s v rest).2 ⟨text, e, hp, hd⟩, rfl⟩
  | many t n sep =>
    have key : ∀ (c : Char) (f : List Char → Out (List Char)), White c → (∀ s r, f s = .ok r ↔ s = c :: r) →
        ((if n < 0 then .error .throw else Stream.manyLoop f (t.run cfg ops) n.toNat s) = .ok (vs, rest) ↔
          ∃ text, s = text ++ rest ∧ ((vs.length : Int) = n ∧
            ∃ texts, List.Forall₂ (TokText (foldOf cfg) ops t) vs texts ∧ text = separate [c] texts) ∧ (0 < n → Delimited rest)) := by
      intro c f hw hf
      by_cases hn : n < 0
      · rw [if_pos hn]
        constructor
        · intro h; cases h
        · rintro ⟨_, _, ⟨h, _⟩, _⟩; omega
      · rw [if_neg hn, manyLoop_strict hw hf (strict_tok ops hs t)]
        constructor
        · rintro ⟨h1, texts, h2, h3, h4⟩
          exact ⟨_, h3, ⟨by omega, texts, h2, rfl⟩, fun h => h4 (by omega)⟩
        · rintro ⟨text, h1, ⟨h2, texts, h3, rfl⟩, h4⟩
          exact ⟨by omega, texts, h3, h1, fun h => h4 (by omega)⟩
    show Stream.many cfg (t.run cfg ops) n sep s = _ ↔ _
    unfold Stream.many Stream.checkSeparator
    simp only [CallText, Follow]
    by_cases h1 : sep = ' '
    · subst h1
      rw [if_pos rfl, ok_bind, key ' ' _ (.inl rfl) (space_strict hs)]
      simp
    · rw [if_neg h1]
      by_cases h2 : sep = '\n'
      · subst h2
        rw [if_pos rfl, ok_bind, key '\n' _ (.inr (.inr (.inl rfl))) (newline_strict hs)]
        simp
      · rw [if_neg h2, error_bind]
        simp [h1, h2]
  | expectString e =>
    show noVal (Stream.expectString cfg e s) = _ ↔ _
    rw [noVal_eq_ok]
    unfold Stream.expectString
    simp only [CallText, Follow]
    cases ht : isToken e with
    | false =>
      rw [judgeAssert_false, error_bind]
      constructor
      · rintro ⟨_, h⟩; cases h
      · rintro ⟨_, _, ⟨_, h, _⟩, _⟩
        rw [← isToken_iff, ht] at h; cases h
    | true =>
      have ht' := (isToken_iff e).1 ht
      rw [judgeAssert_true, ok_bind, bind_eq_ok]
      constructor
      · rintro ⟨rfl, ⟨t, r⟩, h1, h2⟩
        rw [ite_fail_eq_ok] at h2
        obtain ⟨h2, h3⟩ := h2
        simp only [Except.ok.injEq] at h3
        subst h3
        obtain ⟨text, e1, h4, h5, rfl⟩ := (string_strict hs s t r).1 h1
        refine ⟨text, e1, ⟨rfl, ht', h4, ?_⟩, h5⟩
        rw [← stringEqual_fold]; simpa using h2
      · rintro ⟨text, e1, ⟨rfl, _, h4, h6⟩, h5⟩
        refine ⟨rfl, (foldOf cfg text, rest), (string_strict hs s _ rest).2 ⟨text, e1, h4, h5, rfl⟩, ?_⟩
        dsimp only
        rw [(stringEqual_fold cfg text e).2 h6]; rfl
  | expectInt e =>
    show noVal (Stream.expectInt cfg e s) = _ ↔ _
    rw [noVal_eq_ok]
    unfold Stream.expectInt
    simp only [CallText, Follow]
    rw [bind_eq_ok]
    constructor
    · rintro ⟨rfl, ⟨v, r⟩, h1, h2⟩
      rw [ite_fail_eq_ok] at h2
      simp only [ne_eq, not_not, Except.ok.injEq] at h2
      obtain ⟨rfl, rfl⟩ := h2
      obtain ⟨text, e1, ⟨h3, h4⟩, h5⟩ := (strict_integer hs s v r).1 h1
      exact ⟨text, e1, ⟨rfl, h3, h4⟩, h5⟩
    · rintro ⟨text, e1, ⟨rfl, h3, h4⟩, h5⟩
      exact ⟨rfl, (e, rest), (strict_integer hs s e rest).2 ⟨text, e1, ⟨h3, h4⟩, h5⟩, by simp⟩
  | expectReal e => exact absurd rfl (hc e)
  | space =>
    show noVal (Stream.space cfg s) = _ ↔ _
    rw [noVal_eq_ok, space_strict hs]
    simp only [CallText, Follow]
    constructor
    · rintro ⟨rfl, rfl⟩; exact ⟨[' '], rfl, ⟨rfl, rfl⟩, trivial⟩
    · rintro ⟨_, rfl, ⟨rfl, rfl⟩, _⟩; exact ⟨rfl, rfl⟩
  | newline =>
    show noVal (Stream.newline cfg s) = _ ↔ _
    rw [noVal_eq_ok, newline_strict hs]
    simp only [CallText, Follow]
    constructor
    · rintro ⟨rfl, rfl⟩; exact ⟨['\n'], rfl, ⟨rfl, rfl⟩, trivial⟩
    · rintro ⟨_, rfl, ⟨rfl, rfl⟩, _⟩; exact ⟨rfl, rfl⟩
  | eof =>
    show noVal (Stream.eof cfg s) = _ ↔ _
    rw [noVal_eq_ok, eof_strict hs]
    simp only [CallText, Follow]
    constructor
    · rintro ⟨rfl, rfl, rfl⟩; exact ⟨[], rfl, ⟨rfl, rfl⟩, rfl⟩
    · rintro ⟨_, rfl, ⟨rfl, rfl⟩, rfl⟩; exact ⟨rfl, rfl, rfl⟩

/-- **All programs in space sensitive mode.** -/
theorem prog_strict {R : Type} {cfg : StreamCfg} (ops : RealOps R) (hs : cfg.spaceSensitive = true) (p : Prog R)
    (hp : NoExpectReal p) : ∀ (s : List Char) (vs : List (List (Val R))) (rest : List Char),
    p.run cfg ops s = .ok (vs, rest) ↔ Accepts (foldOf cfg) ops p vs s rest := by
  induction p with
  | done r =>
    intro s vs rest
    show (r >>= fun _ => (Except.ok ([], s) : Out (List (List (Val R)) × List Char))) = _ ↔ _
    rw [bind_eq_ok]
    constructor
    · rintro ⟨_, rfl, h⟩
      simp only [Except.ok.injEq, Prod.mk.injEq] at h
      obtain ⟨rfl, rfl⟩ := h
      exact .done
    · intro h; cases h; exact ⟨(), rfl, rfl⟩
  | call c k ih =>
    cases hp with
    | call hc hk =>
      intro s vs rest
      show (c.run cfg ops s >>= fun x => (k x.1).run cfg ops x.2 >>= fun y =>
        (Except.ok (x.1 :: y.1, y.2) : Out (List (List (Val R)) × List Char))) = _ ↔ _
      rw [bind_eq_ok]
      constructor
      · rintro ⟨⟨v, r⟩, h1, h2⟩
        obtain ⟨⟨vs', r'⟩, h7, h3⟩ := bind_eq_ok.1 h2
        simp only [Except.ok.injEq, Prod.mk.injEq] at h3
        obtain ⟨rfl, rfl⟩ := h3
        obtain ⟨text, rfl, h4, h5⟩ := (call_strict ops hs c hc s v r).1 h1
        exact .call h4 h5 ((ih v (hk v) r vs' r').1 h7)
      · intro h
        cases h with
        | @call _ _ v vs text s _ h4 h5 h6 =>
          refine ⟨(v, s), (call_strict ops hs c hc _ v s).2 ⟨text, rfl, h4, h5⟩, ?_⟩
          rw [bind_eq_ok]
          exact ⟨(vs, rest), (ih v (hk v) s vs rest).2 h6, rfl⟩

end ICPC
