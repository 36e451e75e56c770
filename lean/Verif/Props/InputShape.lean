import Verif.Spec.Shape
import Verif.Props.Input

/-!
# C32: files read by programs of all kinds
-/

namespace ICPC.Props
open Spec

theorem tokText_token {R : Type} {ops : RealOps R} {fold : List Char → List Char} {t : Tok R} {v : Val R} {text : List Char}
    (h : TokText fold ops t v text) : Token text := by
  cases t <;> cases v <;> simp only [TokText] at h
  · exact h.1.1
  · exact h.1.1
  · exact h.1.1
  · exact h.1.1
  · rw [h.1]; exact (decimal_strict _).1
  · rw [h.1]; exact (decimal_strict _).1
  · exact h.1.1
  · exact h.1.1
  · exact h.1.1

theorem forall2_token {R : Type} {ops : RealOps R} {fold : List Char → List Char} {t : Tok R} {vs : List (Val R)} {texts : List (List Char)}
    (h : List.Forall₂ (TokText fold ops t) vs texts) : ∀ x ∈ texts, Token x := by
  induction h with
  | nil => simp
  | cons h1 _ ih =>
    intro x hx
    rcases List.mem_cons.1 hx with rfl | hx
    · exact tokText_token h1
    · exact ih x hx

theorem callText_shape {R : Type} {ops : RealOps R} {fold : List Char → List Char} {c : Call R} {vs : List (Val R)} {text : List Char}
    (h : CallText fold ops c vs text) : CallShape c text := by
  cases c with
  | tok t => obtain ⟨v, _, h⟩ := h; exact tokText_token h
  | many t n sep =>
    obtain ⟨_, hn, texts, h, rfl⟩ := h
    exact ⟨texts, by rw [← h.length_eq]; exact hn, forall2_token h, rfl⟩
  | expectString e => exact h.2.2.1.1
  | expectInt e => rw [CallShape, h.2.1]; exact (decimal_strict _).1
  | expectReal e => exact h.2.1.1
  | space => exact h.2
  | newline => exact h.2
  | eof => exact h.2

theorem call_shape {R : Type} {cfg : StreamCfg} (ops : RealOps R) (hs : cfg.spaceSensitive = true) (c : Call R) (s : List Char) (vs : List (Val R))
    (rest : List Char) (h : c.run cfg ops s = .ok (vs, rest)) : ∃ text, s = text ++ rest ∧ CallShape c text ∧ Follow c rest := by
  by_cases hc : ∃ e, c = .expectReal e
  · obtain ⟨e, rfl⟩ := hc
    have h' : noVal (Stream.expectReal cfg ops e s) = .ok (vs, rest) := h
    rw [noVal_eq_ok] at h'
    obtain ⟨_, h'⟩ := h'
    unfold Stream.expectReal at h'
    obtain ⟨⟨x, r⟩, h1, h2⟩ := bind_eq_ok.1 h'
    rw [ite_fail_eq_ok] at h2
    obtain ⟨_, h2⟩ := h2
    simp only [Except.ok.injEq] at h2
    subst h2
    obtain ⟨text, e1, h3, h4⟩ := (strict_real ops hs s x r).1 h1
    exact ⟨text, e1, h3.1.1, h4⟩
  · obtain ⟨text, e1, h1, h2⟩ := (call_strict ops hs c (fun e he => hc ⟨e, he⟩) s vs rest).1 h
    exact ⟨text, e1, callText_shape h1, h2⟩

/-- **C32.** Whatever a program reads from a space sensitive stream, case sensitive or not, real numbers included: if it accepts, the input is the
concatenation of the tokens with exactly the separators that the program asked for, every token is followed by white space or the end of the input
and `eof` by the end of the input. -/
theorem C32_shape {R : Type} (cfg : StreamCfg) (hs : cfg.spaceSensitive = true) (ops : RealOps R) (p : Prog R) (s rest : List Char)
    (vs : List (List (Val R))) (h : p.run cfg ops s = .ok (vs, rest)) : Consists p vs s rest := by
  induction p generalizing s vs with
  | done r =>
    have h' : (r >>= fun _ => (Except.ok ([], s) : Out (List (List (Val R)) × List Char))) = .ok (vs, rest) := h
    obtain ⟨_, _, h⟩ := bind_eq_ok.1 h'
    simp only [Except.ok.injEq, Prod.mk.injEq] at h
    obtain ⟨rfl, rfl⟩ := h
    exact .done
  | call c k ih =>
    have h' : (c.run cfg ops s >>= fun x => (k x.1).run cfg ops x.2 >>= fun y =>
      (Except.ok (x.1 :: y.1, y.2) : Out (List (List (Val R)) × List Char))) = .ok (vs, rest) := h
    obtain ⟨⟨v, s'⟩, h1, h2⟩ := bind_eq_ok.1 h'
    obtain ⟨⟨vs', r⟩, h3, h4⟩ := bind_eq_ok.1 h2
    simp only [Except.ok.injEq, Prod.mk.injEq] at h4
    obtain ⟨rfl, rfl⟩ := h4
    obtain ⟨text, e, h5, h6⟩ := call_shape ops hs c s v s' h1
    rw [e]
    exact .call h5 h6 (ih v s' vs' h3)

theorem call_strict_code {R : Type} {cfg : StreamCfg} (ops : RealOps R) (hs : cfg.spaceSensitive = true) (c : Call R) (s : List Char)
    (vs : List (Val R)) (rest : List Char) :
    c.run cfg ops s = .ok (vs, rest) ↔ ∃ text, s = text ++ rest ∧ CallTextCode (foldOf cfg) ops c vs text ∧ Follow c rest := by
  by_cases hc : ∃ e, c = .expectReal e
  · obtain ⟨e, rfl⟩ := hc
    show noVal (Stream.expectReal cfg ops e s) = _ ↔ _
    rw [noVal_eq_ok]
    unfold Stream.expectReal
    simp only [CallTextCode, Follow]
    rw [bind_eq_ok]
    constructor
    · rintro ⟨rfl, ⟨x, r⟩, h1, h2⟩
      rw [ite_fail_eq_ok] at h2
      obtain ⟨h2, h3⟩ := h2
      simp only [Except.ok.injEq] at h3
      subst h3
      obtain ⟨text, e1, ⟨h4, h5, h6⟩, h7⟩ := (strict_real ops hs s x r).1 h1
      exact ⟨text, e1, ⟨rfl, h4, h5, x, h6, by simpa using h2⟩, h7⟩
    · rintro ⟨text, e1, ⟨rfl, h4, h5, x, h6, h2⟩, h7⟩
      refine ⟨rfl, (x, rest), (strict_real ops hs s x rest).2 ⟨text, e1, ⟨h4, h5, h6⟩, h7⟩, ?_⟩
      dsimp only
      rw [if_neg (by simp [h2])]
  · rw [call_strict ops hs c (fun e he => hc ⟨e, he⟩) s vs rest]
    have : ∀ text, CallTextCode (foldOf cfg) ops c vs text ↔ CallText (foldOf cfg) ops c vs text := by
      intro text
      cases c <;> first | exact Iff.rfl | exact absurd ⟨_, rfl⟩ hc
    simp only [this]

/-- **C32.** Exactly what a program of any kind accepts on a space sensitive stream, case sensitive or not, real numbers and `expectReal` included:
it accepts an input with the values `vs`, leaving `rest`, iff the input is a sequence of texts with these values. Every call gets exactly one text
that it accepts, tokens are followed by white space or the end of the input, and `eof` by the end of the input. Texts are compared, matched and
returned in the default case if the stream is not case sensitive. -/
theorem C32_accepts {R : Type} (cfg : StreamCfg) (hs : cfg.spaceSensitive = true) (ops : RealOps R) (p : Prog R) (s rest : List Char)
    (vs : List (List (Val R))) : p.run cfg ops s = .ok (vs, rest) ↔
      AcceptsCode (fun t => if cfg.caseSensitive then t else t.map (toDefaultCaseC cfg.defaultLower)) ops p vs s rest := by
  have hf : (fun t : List Char => if cfg.caseSensitive then t else t.map (toDefaultCaseC cfg.defaultLower)) = foldOf cfg := by
    funext t
    cases hc : cfg.caseSensitive with
    | true => rw [foldOf_sensitive hc]; rfl
    | false => rw [foldOf_insensitive hc]; rfl
  rw [hf]
  induction p generalizing s vs with
  | done r =>
    show (r >>= fun _ => (Except.ok ([], s) : Out (List (List (Val R)) × List Char))) = _ ↔ _
    rw [bind_eq_ok]
    constructor
    · rintro ⟨_, rfl, h⟩
      simp only [Except.ok.injEq, Prod.mk.injEq] at h
      obtain ⟨rfl, rfl⟩ := h
      exact .done
    · intro h; cases h; exact ⟨(), rfl, rfl⟩
  | call c k ih =>
    show (c.run cfg ops s >>= fun x => (k x.1).run cfg ops x.2 >>= fun y =>
      (Except.ok (x.1 :: y.1, y.2) : Out (List (List (Val R)) × List Char))) = _ ↔ _
    rw [bind_eq_ok]
    constructor
    · rintro ⟨⟨v, r⟩, h1, h2⟩
      obtain ⟨⟨vs', r'⟩, h7, h3⟩ := bind_eq_ok.1 h2
      simp only [Except.ok.injEq, Prod.mk.injEq] at h3
      obtain ⟨rfl, rfl⟩ := h3
      obtain ⟨text, rfl, h4, h5⟩ := (call_strict_code ops hs c s v r).1 h1
      exact .call h4 h5 ((ih v r vs').1 h7)
    · intro h
      cases h with
      | @call _ _ v vs text s _ h4 h5 h6 =>
        refine ⟨(v, s), (call_strict_code ops hs c _ v s).2 ⟨text, rfl, h4, h5⟩, ?_⟩
        rw [bind_eq_ok]
        exact ⟨(vs, rest), (ih v s vs).2 h6, rfl⟩

/-- A validator that expects a real number: `expectReal(3)`, newline, eof. -/
def realProg : Prog Nat := .call (.expectReal 3) fun _ => .call .newline fun _ => .call .eof fun _ => .done (.ok ())

/-- Operations that take the length of the token as the number. -/
def lengthOps : RealOps Nat :=
  { parse := fun t => some t.length, close := fun a b => a == b, isNaN := fun _ => false, le := fun a b => a ≤ b, lt := fun a b => a < b }

example : (realProg.run strictCfg lengthOps "1.25\n".toList).isOk = true := by decide +kernel
example : (realProg.run strictCfg lengthOps "1.5\n".toList).isOk = false := by decide +kernel
example : (realProg.run strictCfg lengthOps "1.25 \n".toList).isOk = false := by decide +kernel

/-- **C32.** What a program accepts on a space sensitive stream that ignores case: as for the other streams, where texts are compared, matched and
returned in the default case. -/
theorem C32_accepts_insensitive {R : Type} (cfg : StreamCfg) (hs : cfg.spaceSensitive = true) (hc : cfg.caseSensitive = false)
    (ops : RealOps R) (p : Prog R) (hp : NoExpectReal p) (s rest : List Char) (vs : List (List (Val R))) :
    p.run cfg ops s = .ok (vs, rest) ↔ Accepts (fun t => t.map (toDefaultCaseC cfg.defaultLower)) ops p vs s rest := by
  rw [show (fun t : List Char => t.map (toDefaultCaseC cfg.defaultLower)) = foldOf cfg from funext fun t => (foldOf_insensitive hc t).symm]
  exact prog_strict ops hs p hp s vs rest

theorem same_refl (s : List Char) : List.Forall₂ SameLetter s s := by
  induction s with
  | nil => exact .nil
  | cons c s ih => exact .cons (.refl c) ih

theorem same_fold (dl : Bool) (s : List Char) : List.Forall₂ SameLetter s (s.map (toDefaultCaseC dl)) := by
  induction s with
  | nil => exact .nil
  | cons c s ih => exact .cons ((toDefaultCaseC_eq_iff dl c _).1 (toDefaultCaseC_idem dl c).symm) ih

theorem same_of_fold (dl : Bool) : ∀ a b : List Char, a.map (toDefaultCaseC dl) = b.map (toDefaultCaseC dl) → List.Forall₂ SameLetter a b
  | [], [], _ => .nil
  | [], _ :: _, h => by simp at h
  | _ :: _, [], h => by simp at h
  | x :: a, y :: b, h => by
    simp only [List.map_cons, List.cons.injEq] at h
    exact .cons ((toDefaultCaseC_eq_iff dl x y).1 h.1) (same_of_fold dl a b h.2)

theorem same_append {a b c d : List Char} (h : List.Forall₂ SameLetter a b) (h' : List.Forall₂ SameLetter c d) :
    List.Forall₂ SameLetter (a ++ c) (b ++ d) := List.rel_append h h'

theorem same_separate (sep : List Char) {xs ys : List (List Char)} (h : List.Forall₂ (List.Forall₂ SameLetter) xs ys) :
    List.Forall₂ SameLetter (separate sep xs) (separate sep ys) := by
  induction h with
  | nil => exact .nil
  | cons h1 h2 ih =>
    cases h2 with
    | nil => exact h1
    | cons h3 h4 => exact same_append (same_append h1 (same_refl sep)) ih

theorem tokText_same {R : Type} {ops : RealOps R} {dl : Bool} {t : Tok R} {v : Val R} {text : List Char} (ht : Spec.Tok.Exact t)
    (h : TokText (fun t => t.map (toDefaultCaseC dl)) ops t v text) : List.Forall₂ SameLetter text (valText v) := by
  cases t <;> cases v <;> simp only [TokText, Spec.Tok.Exact] at h ht
  · rw [h.2]; exact same_fold dl text
  · rw [h.2.1]; exact same_fold dl text
  · rw [h.2.1]; exact same_fold dl text
  · rw [h.2.1]; exact same_fold dl text
  · rw [h.1]; exact same_refl _
  · rw [h.1]; exact same_refl _

theorem callText_same {R : Type} {ops : RealOps R} {dl : Bool} {c : Call R} {vs : List (Val R)} {text : List Char} (hc : Spec.Call.Exact c)
    (h : CallText (fun t => t.map (toDefaultCaseC dl)) ops c vs text) : List.Forall₂ SameLetter text (callText c vs) := by
  cases c with
  | tok t =>
    obtain ⟨v, rfl, h⟩ := h
    simpa [callText] using tokText_same hc h
  | many t n sep =>
    obtain ⟨_, _, texts, h, rfl⟩ := h
    refine same_separate [sep] ?_
    clear * - hc h
    induction h with
    | nil => exact .nil
    | cons h1 _ ih => exact .cons (tokText_same hc h1) ih
  | expectString e => exact same_of_fold dl _ _ h.2.2.2
  | expectInt e => rw [h.2.1]; exact same_refl _
  | expectReal e => exact absurd hc id
  | space => rw [h.2]; exact same_refl _
  | newline => rw [h.2]; exact same_refl _
  | eof => rw [h.2]; exact .nil

/-- **C32.** If a validator that ignores case and reads no real numbers accepts an input, then the input up to `rest` is the sequence of the values
it returned with exactly the separators it asked for, up to the case of letters. -/
theorem C32_bytes_insensitive {R : Type} (cfg : StreamCfg) (hs : cfg.spaceSensitive = true) (hc : cfg.caseSensitive = false)
    (ops : RealOps R) (p : Prog R) (hp : Exact p) (s rest : List Char) (vs : List (List (Val R)))
    (h : p.run cfg ops s = .ok (vs, rest)) : ∃ text, s = text ++ rest ∧ List.Forall₂ SameLetter text (render p vs) := by
  have ha := (C32_accepts_insensitive cfg hs hc ops p (exact_noExpectReal hp) s rest vs).1 h
  clear h
  induction ha with
  | done => exact ⟨[], rfl, .nil⟩
  | call h1 _ _ ih =>
    cases hp with
    | call hc' hk =>
      obtain ⟨text, e, h2⟩ := ih (hk _)
      refine ⟨_ ++ text, by rw [e, List.append_assoc], ?_⟩
      rw [render]
      exact same_append (callText_same hc' h1) h2

/-- A stream that is space sensitive but not case sensitive. -/
def foldCfg : StreamCfg := { strictCfg with caseSensitive := false }

/-- A validator: a word, a space, the word `yes`, a newline, eof. -/
def wordProg : Prog Unit :=
  .call (.tok .string) fun _ => .call .space fun _ => .call (.expectString "yes".toList) fun _ =>
    .call .newline fun _ => .call .eof fun _ => .done (.ok ())

example : (match wordProg.run foldCfg noOps "AbC YeS\n".toList with | .ok (_, rest) => rest == [] | _ => false) = true := by decide +kernel
example : (wordProg.run foldCfg noOps "AbC  YeS\n".toList).isOk = false := by decide +kernel
example : (wordProg.run strictCfg noOps "AbC YeS\n".toList).isOk = false := by decide +kernel
example : Exact wordProg :=
  .call trivial fun _ => .call trivial fun _ => .call trivial fun _ => .call trivial fun _ => .call trivial fun _ => .done
example : render wordProg [[.str "abc".toList], [], [], [], []] = "abc yes\n".toList := by decide +kernel

end ICPC.Props
