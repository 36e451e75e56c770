import Verif.Model.Examples
import Verif.Spec.Examples
import Verif.Props.GraphIO

/-!
# Lemmas for the example programs
-/

namespace ICPC

open Spec Spec.Examples Props

/-- A verdict other than failure comes from the part after the read. -/
theorem bind_exit_iff {α β : Type} {cfg : StreamCfg} {x : Out α} (hx : OkOrFail cfg x) {f : α → Out β} {n : Nat} (hn : cfg.onFail ≠ n) :
    (x >>= f) = .error (.exit n) ↔ ∃ a, x = .ok a ∧ f a = .error (.exit n) := by
  rcases hx with ⟨a, rfl⟩ | rfl
  · rw [ok_bind]
    constructor
    · intro h; exact ⟨a, rfl, h⟩
    · rintro ⟨b, hb, h⟩; cases hb; exact h
  · constructor
    · intro h
      have : (.error (.exit cfg.onFail) : Out β) = .error (.exit n) := h
      simp only [Except.error.injEq, Stop.exit.injEq] at this
      exact absurd this hn
    · rintro ⟨b, hb, h⟩; cases hb

/-- Ends with a verdict of the list. -/
def ExitsWith (l : List Nat) (x : Out Unit) : Prop := ∃ n ∈ l, x = .error (.exit n)

theorem ExitsWith.bind {α : Type} {cfg : StreamCfg} {x : Out α} (hx : OkOrFail cfg x) {f : α → Out Unit} {l : List Nat} (hl : cfg.onFail ∈ l)
    (hf : ∀ a, x = .ok a → ExitsWith l (f a)) : ExitsWith l (x >>= f) := by
  rcases hx with ⟨a, rfl⟩ | rfl
  · exact hf a rfl
  · exact ⟨_, hl, rfl⟩

/-- The function reads words of the kind `P`. -/
def ReadsWord {α : Type} (cfg : StreamCfg) (P : α → List Char → Prop) (x : List Char → Out (α × List Char)) : Prop :=
  (cfg.spaceSensitive = true → Strict P x) ∧
  (cfg.spaceSensitive = false → (∀ s a rest, x s = .ok (a, rest) → ∃ t, P a t ∧ tokens s = t :: tokens rest) ∧
    ∀ s a t ts, tokens s = t :: ts → P a t → ∃ rest, x s = .ok (a, rest) ∧ tokens rest = ts)

theorem readsWord_integer (cfg : StreamCfg) : ReadsWord cfg (fun v t => t = decimal v ∧ I64 v) (Stream.integer cfg) := by
  refine ⟨strict_integer, fun hs => ⟨?_, ?_⟩⟩
  · intro s v rest h
    unfold Stream.integer Stream.stringRe at h
    rcases string_loose hs s with ⟨_, h2⟩ | ⟨t, ts, r, h1, h2, h3, _⟩
    · rw [h2] at h; cases h
    · rw [h3, ok_bind] at h
      simp only [] at h
      obtain ⟨⟨a, r'⟩, h4, h5⟩ := bind_eq_ok.1 h
      rw [ite_fail_eq_ok] at h4
      obtain ⟨h4, h6⟩ := h4
      simp only [Except.ok.injEq, Prod.mk.injEq] at h6
      obtain ⟨rfl, rfl⟩ := h6
      obtain ⟨w, hw⟩ := (C31_pattern _).1 (by simpa using h4)
      rw [hw, parseToken_eq_ok, parseInteger_decimal] at h5
      obtain ⟨rfl, h6⟩ := h5
      split at h6
      · rename_i hi
        simp only [Option.some.injEq] at h6
        subst h6
        refine ⟨t, ⟨(foldOf_eq_iff_nonletter cfg t _ (decimal_nonletter w)).1 hw, hi⟩, by rw [h1, h2]⟩
      · cases h6
  · rintro s v t ts h1 ⟨rfl, hi⟩
    rcases string_loose hs s with ⟨h2, _⟩ | ⟨t, ts', r, h2, h3, h4, _⟩
    · rw [h1] at h2; cases h2
    · rw [h1] at h2
      simp only [List.cons.injEq] at h2
      obtain ⟨rfl, rfl⟩ := h2
      refine ⟨r, ?_, h3⟩
      unfold Stream.integer Stream.stringRe
      rw [h4, ok_bind, foldOf_nonletter cfg _ (decimal_nonletter v)]
      simp only [(C31_pattern _).2 ⟨v, rfl⟩, Bool.not_true, Bool.false_eq_true, if_false, ok_bind]
      rw [parseToken_eq_ok]
      exact ⟨rfl, by rw [parseInteger_decimal, if_pos hi]⟩

theorem fold_same (cfg : StreamCfg) (text e : List Char) : foldOf cfg text = foldOf cfg e ↔ SameWord cfg.caseSensitive text e := by
  unfold SameWord
  by_cases hc : cfg.caseSensitive = true
  · simp [hc, foldOf_sensitive hc]
  · have hc' : cfg.caseSensitive = false := by simpa using hc
    rw [foldOf_insensitive hc', foldOf_insensitive hc']
    simp only [hc', Bool.false_eq_true, if_false]
    revert e
    induction text with
    | nil => intro b; simp [eq_comm]
    | cons x a ih =>
      intro b
      cases b with
      | nil => simp
      | cons y b => simp [ih, toDefaultCaseC_eq_iff]

/-- `expectString` as a function with a value. -/
def expectUnit (cfg : StreamCfg) (e s : List Char) : Out (Unit × List Char) := do
  let r ← Stream.expectString cfg e s
  .ok ((), r)

theorem expectUnit_ok (cfg : StreamCfg) (e s rest : List Char) : expectUnit cfg e s = .ok ((), rest) ↔ Stream.expectString cfg e s = .ok rest := by
  unfold expectUnit
  rw [bind_eq_ok]
  constructor
  · rintro ⟨a, h, h'⟩
    simp only [Except.ok.injEq, Prod.mk.injEq, true_and] at h'
    rw [h, h']
  · intro h; exact ⟨rest, h, rfl⟩

theorem readsWord_expect (cfg : StreamCfg) (e : List Char) (he : Token e) (hvis : ∀ t, SameWord cfg.caseSensitive t e → StrictToken t) :
    ReadsWord cfg (fun _ t => SameWord cfg.caseSensitive t e) (expectUnit cfg e) := by
  refine ⟨fun hs s u rest => ?_, fun hs => ⟨?_, ?_⟩⟩
  · cases u
    rw [expectUnit_ok, (C35_expectString cfg hs e he s).1 rest]
    constructor
    · rintro ⟨t, h1, _, h2, h3⟩; exact ⟨t, h1, h3, h2⟩
    · rintro ⟨t, h1, h3, h2⟩; exact ⟨t, h1, hvis t h3, h2, h3⟩
  · intro s u rest h
    cases u
    rw [expectUnit_ok] at h
    unfold Stream.expectString at h
    rw [(isToken_iff e).2 he, judgeAssert_true, ok_bind] at h
    rcases string_loose hs s with ⟨_, h2⟩ | ⟨t, ts, r, h1, h2, h3, _⟩
    · rw [h2] at h; cases h
    · rw [h3, ok_bind] at h
      simp only [] at h
      rw [ite_fail_eq_ok] at h
      obtain ⟨h4, h5⟩ := h
      have h5 := Except.ok.inj h5
      subst h5
      refine ⟨t, ?_, by rw [h1, h2]⟩
      show SameWord cfg.caseSensitive t e
      rw [← fold_same, ← stringEqual_fold]
      simpa using h4
  · intro s u t ts h1 h2
    rcases string_loose hs s with ⟨h3, _⟩ | ⟨t', ts', r, h3, h4, h5, _⟩
    · rw [h1] at h3; cases h3
    · rw [h1] at h3
      simp only [List.cons.injEq] at h3
      obtain ⟨rfl, rfl⟩ := h3
      refine ⟨r, ?_, h4⟩
      cases u
      rw [expectUnit_ok]
      unfold Stream.expectString
      rw [(isToken_iff e).2 he, judgeAssert_true, ok_bind, h5, ok_bind]
      simp only [(stringEqual_fold cfg t e).2 ((fold_same cfg t e).2 h2), Bool.not_true, Bool.false_eq_true, if_false]

/-- A word, a line break and the end of the input. -/
theorem readsWord_end {α : Type} {cfg : StreamCfg} {P : α → List Char → Prop} {x : List Char → Out (α × List Char)} (hx : ReadsWord cfg P x)
    (s : List Char) (a : α) :
    (∃ r1 r2 r3, x s = .ok (a, r1) ∧ Stream.newline cfg r1 = .ok r2 ∧ Stream.eof cfg r2 = .ok r3) ↔ OneWord cfg.spaceSensitive (P a) s := by
  unfold OneWord
  cases hs : cfg.spaceSensitive with
  | true =>
    simp only [if_true]
    constructor
    · rintro ⟨r1, r2, r3, h1, h2, h3⟩
      rw [newline_strict hs] at h2
      obtain ⟨rfl, rfl⟩ := (eof_strict hs _ _).1 h3
      obtain ⟨t, h4, h5, _⟩ := (hx.1 hs s a r1).1 h1
      exact ⟨t, h5, by rw [h4, h2]⟩
    · rintro ⟨t, h1, h2⟩
      exact ⟨['\n'], [], [], (hx.1 hs s a _).2 ⟨t, h2, h1, .inr ⟨_, _, rfl, .inr (.inr (.inl rfl))⟩⟩, (newline_strict hs _ _).2 rfl,
        (eof_strict hs _ _).2 ⟨rfl, rfl⟩⟩
  | false =>
    simp only [Bool.false_eq_true, if_false]
    constructor
    · rintro ⟨r1, r2, r3, h1, h2, h3⟩
      rw [newline_loose hs] at h2
      have h2 := Except.ok.inj h2
      subst h2
      rw [eof_loose hs] at h3
      split at h3
      · rename_i h4
        obtain ⟨t, h5, h6⟩ := (hx.2 hs).1 s a r1 h1
        exact ⟨t, h5, by rw [h6, h4]⟩
      · cases h3
    · rintro ⟨t, h1, h2⟩
      obtain ⟨r, h3, h4⟩ := (hx.2 hs).2 s a t [] h2 h1
      exact ⟨r, r, [], h3, newline_loose hs r, by rw [eof_loose hs, if_pos h4]⟩

end ICPC
