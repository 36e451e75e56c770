import Verif.Lemmas.Calls

/-! # The stream in space insensitive mode: only the tokens matter -/

namespace ICPC
open Spec

theorem tokensFrom_append (t : List Char) : ∀ (cur rest : List Char), (∀ c ∈ t, ¬ White c) →
    tokensFrom cur (t ++ rest) = tokensFrom (cur ++ t) rest := by
  induction t with
  | nil => intro cur rest _; simp
  | cons c t ih =>
    intro cur rest h
    rw [List.cons_append, tokensFrom, if_neg (h c (by simp)), ih _ _ fun x hx => h x (List.mem_cons_of_mem _ hx)]
    simp

theorem tokensFrom_delimited {cur rest : List Char} (hc : cur ≠ []) (h : Delimited rest) :
    tokensFrom cur rest = cur :: tokens rest := by
  rcases h with rfl | ⟨c, r, rfl, hw⟩
  · simp [tokensFrom, hc, tokens]
  · rw [tokensFrom, if_pos hw, if_neg hc, tokens, tokensFrom, if_pos hw, if_pos rfl]

theorem tokens_skipWs : ∀ s : List Char, tokens (Stream.skipWs s) = tokens s
  | [] => rfl
  | c :: s => by
    unfold Stream.skipWs
    by_cases h : isSpaceC c = true
    · rw [List.dropWhile_cons_of_pos h]
      have := tokens_skipWs s
      unfold Stream.skipWs at this
      rw [this]
      unfold tokens
      rw [tokensFrom, if_pos ((isSpaceC_iff c).1 h), if_pos rfl]
    · rw [List.dropWhile_cons_of_neg h]

/-- A token followed by a delimiter is the first token. -/
theorem tokens_token {t rest : List Char} (ht : Token t) (h : Delimited rest) : tokens (t ++ rest) = t :: tokens rest := by
  unfold tokens
  rw [tokensFrom_append t [] rest ht.2, List.nil_append, tokensFrom_delimited ht.1 h]
  rfl

theorem skipWs_head (s : List Char) : Stream.skipWs s = [] ∨ ∃ c r, Stream.skipWs s = c :: r ∧ ¬ White c := by
  cases h : Stream.skipWs s with
  | nil => exact .inl rfl
  | cons c r =>
    right
    exact ⟨c, r, rfl, (isSpaceC_false_iff c).1 (dropWhile_head s c r h)⟩

/-- The text after the white space: nothing, or a token and the rest. -/
theorem skipWs_token (s : List Char) : (Stream.skipWs s = [] ∧ tokens s = []) ∨
    ∃ t rest, Stream.skipWs s = t ++ rest ∧ Token t ∧ Delimited rest ∧ tokens s = t :: tokens rest := by
  rcases skipWs_head s with h | ⟨c, r, h, hw⟩
  · left; refine ⟨h, ?_⟩; rw [← tokens_skipWs, h]; rfl
  · right
    obtain ⟨e1, e2, e3⟩ := (split_token_iff (Stream.skipWs s) _ _).1 ⟨rfl, rfl⟩
    have ht : Token ((Stream.skipWs s).takeWhile fun c => !isSpaceC c) := by
      refine ⟨?_, e2⟩
      rw [h, List.takeWhile_cons_of_pos (by simp [(isSpaceC_false_iff c).2 hw])]; simp
    refine ⟨_, _, e1, ht, e3, ?_⟩
    rw [← tokens_skipWs, ← tokens_token ht e3, ← e1]

theorem skipWs_skipWs (s : List Char) : Stream.skipWs (Stream.skipWs s) = Stream.skipWs s := by
  rcases skipWs_head s with h | ⟨c, r, h, hw⟩
  · rw [h]; rfl
  · rw [h]
    unfold Stream.skipWs
    exact List.dropWhile_cons_of_neg (by simp [(isSpaceC_false_iff c).2 hw])

/-- Reading a string in space insensitive mode. -/
theorem string_loose {cfg : StreamCfg} (hs : cfg.spaceSensitive = false) (s : List Char) :
    (tokens s = [] ∧ Stream.string cfg s = Stream.fail cfg) ∨
    ∃ t ts rest, tokens s = t :: ts ∧ tokens rest = ts ∧ Stream.string cfg s = .ok (foldOf cfg t, rest) ∧
      Token t ∧ Stream.skipWs s = t ++ rest := by
  unfold Stream.string Stream.noteof
  simp only [hs, Bool.not_false, if_true, Bool.false_and, Bool.false_eq_true, if_false]
  rcases skipWs_token s with ⟨h1, h2⟩ | ⟨t, rest, h1, h2, h3, h4⟩
  · left
    refine ⟨h2, ?_⟩
    rw [h1]; rfl
  · right
    refine ⟨t, _, rest, h4, rfl, ?_, h2, h1⟩
    have hne : (Stream.skipWs s).isEmpty = false := by
      rw [h1]; cases t with
      | nil => exact absurd rfl h2.1
      | cons c t => rfl
    rw [hne]
    simp only [Bool.false_eq_true, if_false, ok_bind]
    unfold Stream.extract
    simp only [hs, Bool.false_eq_true, if_false, skipWs_skipWs]
    obtain ⟨e1, e2⟩ := (split_token_iff (Stream.skipWs s) t rest).2 ⟨h1, h2.2, h3⟩
    rw [e1, e2]
    have : t.isEmpty = false := by
      cases t with
      | nil => exact absurd rfl h2.1
      | cons c t => rfl
    rw [this]
    rfl

/-- Two results agree: both are values in the relation, or both are the same failure. -/
def OutRel {α β : Type} (R : α → β → Prop) : Out α → Out β → Prop
  | .ok a, .ok b => R a b
  | .error e, .error e' => e = e'
  | _, _ => False

theorem OutRel.bind {α β γ δ : Type} {R : α → β → Prop} {S : γ → δ → Prop} {x : Out α} {y : Out β} {f : α → Out γ} {g : β → Out δ}
    (h : OutRel R x y) (hf : ∀ a b, R a b → OutRel S (f a) (g b)) : OutRel S (x >>= f) (y >>= g) := by
  cases x with
  | error e => cases y with
    | error e' => exact h
    | ok b => exact absurd h id
  | ok a => cases y with
    | error e' => exact absurd h id
    | ok b => exact hf a b h

theorem OutRel.refl {α : Type} {R : α → α → Prop} (hr : ∀ a, R a a) (x : Out α) : OutRel R x x := by
  cases x with
  | error e => rfl
  | ok a => exact hr a

/-- The same value, and the same tokens are left. -/
def SameTokens {α : Type} (a b : α × List Char) : Prop := a.1 = b.1 ∧ tokens a.2 = tokens b.2

/-- A reader that only depends on the tokens. -/
def TokenOnly {α : Type} (f : List Char → Out (α × List Char)) : Prop :=
  ∀ s s', tokens s = tokens s' → OutRel SameTokens (f s) (f s')

theorem tokenOnly_string {cfg : StreamCfg} (hs : cfg.spaceSensitive = false) : TokenOnly (Stream.string cfg) := by
  intro s s' h
  rcases string_loose hs s with ⟨h1, h2⟩ | ⟨t, ts, rest, h1, h2, h3, _⟩ <;>
    rcases string_loose hs s' with ⟨h1', h2'⟩ | ⟨t', ts', rest', h1', h2', h3', _⟩
  · rw [h2, h2']; exact rfl
  · rw [h, h1'] at h1; cases h1
  · rw [h, h1'] at h1; cases h1
  · rw [h, h1'] at h1
    simp only [List.cons.injEq] at h1
    rw [h3, h3']
    refine ⟨?_, ?_⟩
    · show foldOf cfg t = foldOf cfg t'; rw [h1.1]
    · show tokens rest = tokens rest'; rw [h2, h2', h1.2]

theorem TokenOnly.bind {α β : Type} {f : List Char → Out (α × List Char)} {g : α × List Char → Out (β × List Char)}
    (hf : TokenOnly f) (hg : ∀ a, TokenOnly fun s => g (a, s)) : TokenOnly fun s => f s >>= g := by
  intro s s' h
  refine (hf s s' h).bind ?_
  rintro ⟨a, r⟩ ⟨b, r'⟩ ⟨h1, h2⟩
  dsimp only at h1; subst h1
  exact hg a r r' h2

theorem tokenOnly_ok {α : Type} (a : α) : TokenOnly fun s => .ok (a, s) := fun _ _ h => ⟨rfl, h⟩

theorem tokenOnly_error {α : Type} (e : Stop) : TokenOnly fun _ => (.error e : Out (α × List Char)) := fun _ _ _ => rfl

theorem tokenOnly_ite {α : Type} {c : Prop} [Decidable c] {f g : List Char → Out (α × List Char)} (hf : TokenOnly f) (hg : TokenOnly g) :
    TokenOnly fun s => if c then f s else g s := by
  intro s s' h
  by_cases hc : c
  · simp only [hc, if_true]; exact hf s s' h
  · simp only [hc, if_false]; exact hg s s' h

theorem tokenOnly_fail {α : Type} (cfg : StreamCfg) : TokenOnly fun _ => (Stream.fail cfg : Out (α × List Char)) := tokenOnly_error _

theorem tokenOnly_parse {α : Type} (cfg : StreamCfg) (parse : List Char → Option α) (t : List Char) :
    TokenOnly fun s => Stream.parseToken cfg parse t s := by
  intro s s' h
  unfold Stream.parseToken
  cases parse t with
  | none => exact rfl
  | some v => exact ⟨rfl, h⟩

theorem tokenOnly_stringRe {cfg : StreamCfg} (hs : cfg.spaceSensitive = false) (p : Re) : TokenOnly (Stream.stringRe cfg p) :=
  (tokenOnly_string hs).bind fun a => tokenOnly_ite (tokenOnly_fail cfg) (tokenOnly_ok a)

theorem tokenOnly_stringBounded {cfg : StreamCfg} (hs : cfg.spaceSensitive = false) (l u : Int) : TokenOnly (Stream.stringBounded cfg l u) :=
  (tokenOnly_string hs).bind fun a => tokenOnly_ite (tokenOnly_fail cfg) (tokenOnly_ok a)

theorem tokenOnly_integer {cfg : StreamCfg} (hs : cfg.spaceSensitive = false) : TokenOnly (Stream.integer cfg) :=
  (tokenOnly_stringRe hs _).bind fun a => tokenOnly_parse cfg _ a

theorem tokenOnly_real {R : Type} {cfg : StreamCfg} (ops : RealOps R) (hs : cfg.spaceSensitive = false) : TokenOnly (Stream.real cfg ops) :=
  (tokenOnly_stringRe hs _).bind fun a => tokenOnly_parse cfg _ a

theorem tokenOnly_wrap {α R : Type} (f : α → Val R) {x : List Char → Out (α × List Char)} (h : TokenOnly x) :
    TokenOnly fun s => wrap f (x s) :=
  h.bind fun a => tokenOnly_ok (f a)

theorem tokenOnly_tok {R : Type} {cfg : StreamCfg} (ops : RealOps R) (hs : cfg.spaceSensitive = false) (t : Tok R) :
    TokenOnly (t.run cfg ops) := by
  cases t with
  | string => exact tokenOnly_wrap .str (tokenOnly_string hs)
  | stringBounded l u => exact tokenOnly_wrap .str (tokenOnly_stringBounded hs l u)
  | stringRe p => exact tokenOnly_wrap .str (tokenOnly_stringRe hs p)
  | stringReBounded p l u =>
    exact tokenOnly_wrap .str ((tokenOnly_stringBounded hs l u).bind fun a => tokenOnly_ite (tokenOnly_fail cfg) (tokenOnly_ok a))
  | integer => exact tokenOnly_wrap .int (tokenOnly_integer hs)
  | integerBounded l u =>
    exact tokenOnly_wrap .int ((tokenOnly_integer hs).bind fun a => tokenOnly_ite (tokenOnly_fail cfg) (tokenOnly_ok a))
  | real => exact tokenOnly_wrap .real (tokenOnly_real ops hs)
  | realBounded l u =>
    exact tokenOnly_wrap .real ((tokenOnly_real ops hs).bind fun a =>
      tokenOnly_ite (tokenOnly_ok a) (tokenOnly_ite (tokenOnly_ok a) (tokenOnly_ite (tokenOnly_fail cfg) (tokenOnly_ok a))))
  | realStrict l u mi ma =>
    exact tokenOnly_wrap .real ((tokenOnly_stringRe hs _).bind fun a =>
      tokenOnly_ite (tokenOnly_fail cfg) ((tokenOnly_parse cfg _ a).bind fun b => tokenOnly_ite (tokenOnly_fail cfg) (tokenOnly_ok b)))

/-- The same for functions without a value. -/
def TokenOnly' (f : List Char → Out (List Char)) : Prop :=
  ∀ s s', tokens s = tokens s' → OutRel (fun a b => tokens a = tokens b) (f s) (f s')

theorem tokenOnly_manyLoop {α : Type} {sep : List Char → Out (List Char)} {one : List Char → Out (α × List Char)}
    (hs : TokenOnly' sep) (ho : TokenOnly one) : ∀ n, TokenOnly (Stream.manyLoop sep one n)
  | 0 => tokenOnly_ok _
  | 1 => ho.bind fun a => tokenOnly_ok [a]
  | n + 2 => by
    refine ho.bind (g := fun x => sep x.2 >>= fun s => Stream.manyLoop sep one (n + 1) s >>= fun y => .ok (x.1 :: y.1, y.2)) fun a => ?_
    intro s s' h
    refine (hs s s' h).bind fun r r' hr => ?_
    exact ((tokenOnly_manyLoop hs ho (n + 1)).bind (g := fun y => .ok (a :: y.1, y.2)) fun b => tokenOnly_ok (a :: b)) r r' hr

theorem space_loose {cfg : StreamCfg} (hs : cfg.spaceSensitive = false) (s : List Char) : Stream.space cfg s = .ok s := by
  simp [Stream.space, hs]

theorem newline_loose {cfg : StreamCfg} (hs : cfg.spaceSensitive = false) (s : List Char) : Stream.newline cfg s = .ok s := by
  simp [Stream.newline, hs]

theorem eof_loose {cfg : StreamCfg} (hs : cfg.spaceSensitive = false) (s : List Char) :
    Stream.eof cfg s = if tokens s = [] then .ok [] else Stream.fail cfg := by
  unfold Stream.eof
  simp only [hs, Bool.not_false, if_true]
  rcases skipWs_token s with ⟨h1, h2⟩ | ⟨t, rest, h1, h2, h3, h4⟩
  · rw [h1, h2]; rfl
  · have hne : (Stream.skipWs s).isEmpty = false := by
      rw [h1]; cases t with
      | nil => exact absurd rfl h2.1
      | cons c t => rfl
    rw [hne, h4]
    simp

theorem TokenOnly'.noVal {R : Type} {f : List Char → Out (List Char)} (h : TokenOnly' f) :
    TokenOnly fun s => (noVal (f s) : Out (List (Val R) × List Char)) := by
  intro s s' hh
  exact (h s s' hh).bind fun a b hab => ⟨rfl, hab⟩

theorem tokenOnly_call {R : Type} {cfg : StreamCfg} (ops : RealOps R) (hs : cfg.spaceSensitive = false) (c : Call R) :
    TokenOnly (c.run cfg ops) := by
  have hsp : TokenOnly' (Stream.space cfg) := fun s s' h => by rw [space_loose hs, space_loose hs]; exact h
  have hnl : TokenOnly' (Stream.newline cfg) := fun s s' h => by rw [newline_loose hs, newline_loose hs]; exact h
  cases c with
  | tok t => exact (tokenOnly_tok ops hs t).bind fun a => tokenOnly_ok [a]
  | many t n sep =>
    show TokenOnly (Stream.many cfg (t.run cfg ops) n sep)
    intro s s' h
    unfold Stream.many Stream.checkSeparator
    by_cases h1 : sep = ' '
    · simp only [h1, if_true, ok_bind]
      by_cases hn : n < 0
      · simp only [hn, if_true]; exact rfl
      · simp only [hn, if_false]; exact tokenOnly_manyLoop hsp (tokenOnly_tok ops hs t) _ s s' h
    · simp only [h1, if_false]
      by_cases h2 : sep = '\n'
      · simp only [h2, if_true, ok_bind]
        by_cases hn : n < 0
        · simp only [hn, if_true]; exact rfl
        · simp only [hn, if_false]; exact tokenOnly_manyLoop hnl (tokenOnly_tok ops hs t) _ s s' h
      · simp only [h2, if_false]; exact rfl
  | expectString e =>
    refine TokenOnly'.noVal ?_
    intro s s' h
    unfold Stream.expectString
    cases isToken e with
    | false => exact rfl
    | true =>
      rw [judgeAssert_true, ok_bind, ok_bind]
      refine (tokenOnly_string hs s s' h).bind ?_
      rintro ⟨a, r⟩ ⟨b, r'⟩ ⟨h1, h2⟩
      dsimp only at h1; subst h1
      dsimp only
      split
      · exact rfl
      · exact h2
  | expectInt e =>
    refine TokenOnly'.noVal ?_
    intro s s' h
    refine (tokenOnly_integer hs s s' h).bind ?_
    rintro ⟨a, r⟩ ⟨b, r'⟩ ⟨h1, h2⟩
    dsimp only at h1; subst h1
    dsimp only
    by_cases h3 : a = e
    · rw [if_neg (by simp [h3]), if_neg (by simp [h3])]; exact h2
    · rw [if_pos h3, if_pos h3]; exact rfl
  | expectReal e =>
    refine TokenOnly'.noVal ?_
    intro s s' h
    refine (tokenOnly_real ops hs s s' h).bind ?_
    rintro ⟨a, r⟩ ⟨b, r'⟩ ⟨h1, h2⟩
    dsimp only at h1; subst h1
    dsimp only
    split
    · exact rfl
    · exact h2
  | space => exact TokenOnly'.noVal hsp
  | newline => exact TokenOnly'.noVal hnl
  | eof =>
    refine TokenOnly'.noVal ?_
    intro s s' h
    rw [eof_loose hs, eof_loose hs, h]
    split
    · exact rfl
    · exact rfl

theorem tokenOnly_prog {R : Type} {cfg : StreamCfg} (ops : RealOps R) (hs : cfg.spaceSensitive = false) (p : Prog R) :
    TokenOnly (p.run cfg ops) := by
  induction p with
  | done r =>
    intro s s' h
    show OutRel SameTokens (r >>= fun _ => .ok ([], s)) (r >>= fun _ => .ok ([], s'))
    cases r with
    | error e => exact rfl
    | ok a => exact ⟨rfl, h⟩
  | call c k ih =>
    exact (tokenOnly_call ops hs c).bind (g := fun x => (k x.1).run cfg ops x.2 >>= fun y => .ok (x.1 :: y.1, y.2)) fun v =>
      (ih v).bind (g := fun y => .ok (v :: y.1, y.2)) fun w => tokenOnly_ok (v :: w)

end ICPC
