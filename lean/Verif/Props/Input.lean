import Verif.Lemmas.Loose
import Verif.Model.Output

/-!
# Property theorems C31-C37 and C41 (reading and writing)
-/

namespace ICPC.Props
open ICPC ICPC.Spec

/-! ## C31 -/

/-- **C31.** On a space sensitive stream `integer(lower, upper)` returns `v` and leaves `rest` iff the input is the
canonical decimal notation of `v` followed by `rest`, which is empty or starts with white space, and `v` is a 64 bit
integer in `[lower, upper)`; in all other cases the program ends with the failure verdict of the stream. -/
theorem C31_integer (cfg : StreamCfg) (hs : cfg.spaceSensitive = true) (lower upper : Int) (s : List Char) :
    (∀ v rest, Stream.integerBounded cfg lower upper s = .ok (v, rest) ↔
      s = decimal v ++ rest ∧ Delimited rest ∧ (-(2 ^ 63) ≤ v ∧ v < 2 ^ 63) ∧ lower ≤ v ∧ v < upper) ∧
    ((¬ ∃ v rest, s = decimal v ++ rest ∧ Delimited rest ∧ (-(2 ^ 63) ≤ v ∧ v < 2 ^ 63) ∧ lower ≤ v ∧ v < upper) →
      Stream.integerBounded cfg lower upper s = .error (.exit cfg.onFail)) := by
  have h1 : ∀ v rest, Stream.integerBounded cfg lower upper s = .ok (v, rest) ↔
      s = decimal v ++ rest ∧ Delimited rest ∧ (-(2 ^ 63) ≤ v ∧ v < 2 ^ 63) ∧ lower ≤ v ∧ v < upper := by
    intro v rest
    rw [strict_integerBounded hs lower upper s v rest]
    constructor
    · rintro ⟨text, h1, ⟨rfl, h2, h3⟩, h4⟩; exact ⟨h1, h4, h2, h3⟩
    · rintro ⟨h1, h4, h2, h3⟩; exact ⟨_, h1, ⟨rfl, h2, h3⟩, h4⟩
  refine ⟨h1, fun hn => ?_⟩
  have hk : OkOrFail cfg (Stream.integerBounded cfg lower upper s) := (integer_okOrFail cfg s).bind fun _ => ite_okOrFail
  rcases hk with ⟨⟨v, rest⟩, h⟩ | h
  · exact absurd ⟨v, rest, (h1 v rest).1 h⟩ hn
  · exact h

/-- The notation determines the number. -/
theorem C31_notation_injective (v w : Int) (h : decimal v = decimal w) : v = w := decimal_inj h

/-- **C31.** The pattern for integers describes exactly the canonical notations. -/
theorem C31_pattern (t : List Char) : INTEGER_REGEX.matches t = true ↔ ∃ v : Int, t = decimal v := by
  rw [matches_iff, integerRegex_iff]

/-- **C31.** `isInteger(s)` holds iff `s` is the canonical notation of a 64 bit integer, which is the reason. -/
theorem C31_isInteger (t : List Char) (v : Int) :
    isInteger t = { value := true, reason := some v } ↔ t = decimal v ∧ (-(2 ^ 63) ≤ v ∧ v < 2 ^ 63) := by
  unfold isInteger
  constructor
  · intro h
    split at h
    · cases h
    · rename_i hm
      have hm' : INTEGER_REGEX.matches t = true := by simpa using hm
      obtain ⟨w, rfl⟩ := (C31_pattern t).1 hm'
      rw [parseInteger_decimal] at h
      split at h
      · cases h
      · rename_i hw
        split at hw
        · rename_i hi
          simp only [Option.some.injEq] at hw
          simp only [Boolean.mk.injEq, Option.some.injEq, true_and] at h
          rw [← h, ← hw]; exact ⟨rfl, hi⟩
        · cases hw
  · rintro ⟨rfl, h⟩
    have hm := (C31_pattern (decimal v)).2 ⟨v, rfl⟩
    have h' : I64 v := h
    rw [hm, parseInteger_decimal, if_pos h']
    rfl

/-- A strict, case sensitive stream as used by input validators (verdict WA). -/
def strictCfg : StreamCfg := { spaceSensitive := true, caseSensitive := true, defaultLower := true, onFail := 43 }

example : Stream.integerBounded strictCfg (-10) 10 "-7 x".toList = .ok (-7, " x".toList) := by decide +kernel
example : Stream.integerBounded strictCfg (-10) 10 "07 x".toList = .error (.exit 43) := by decide +kernel
example : Stream.integerBounded strictCfg (-10) 10 " 7".toList = .error (.exit 43) := by decide +kernel
example : Stream.integerBounded strictCfg (-10) 10 "-0".toList = .error (.exit 43) := by decide +kernel
example : Stream.integer strictCfg "9223372036854775808".toList = .error (.exit 43) := by decide +kernel
example : decimal (-120) = "-120".toList := by decide +kernel

/-! ## C32 -/

theorem strict_fold {cfg : StreamCfg} (hc : cfg.caseSensitive = true) : foldOf cfg = id := by
  funext t; rw [foldOf_sensitive hc]; rfl

/-- **C32.** A validator that reads with a space and case sensitive stream accepts an input with the values `vs`, leaving
`rest`, iff the input is a sequence of texts with these values: every call gets exactly one text it accepts, tokens
are followed by white space or the end of the input, and `eof` by the end of the input. -/
theorem C32_accepts_sensitive {R : Type} (cfg : StreamCfg) (hs : cfg.spaceSensitive = true) (hc : cfg.caseSensitive = true)
    (ops : RealOps R) (p : Prog R) (hp : NoExpectReal p) (s rest : List Char) (vs : List (List (Val R))) :
    p.run cfg ops s = .ok (vs, rest) ↔ Accepts id ops p vs s rest := by
  rw [← strict_fold hc]; exact prog_strict ops hs p hp s vs rest

theorem tokText_exact {R : Type} {ops : RealOps R} {t : Tok R} {v : Val R} {text : List Char} (ht : Spec.Tok.Exact t)
    (h : TokText id ops t v text) : text = valText v := by
  cases t <;> cases v <;> simp only [TokText, Spec.Tok.Exact, id] at h ht
  · exact h.2.symm
  · exact h.2.1.symm
  · exact h.2.1.symm
  · exact h.2.1.symm
  · exact h.1
  · exact h.1

theorem forall2_exact {R : Type} {ops : RealOps R} {t : Tok R} (ht : Spec.Tok.Exact t) {vs : List (Val R)} {texts : List (List Char)}
    (h : List.Forall₂ (TokText id ops t) vs texts) : texts = vs.map valText := by
  induction h with
  | nil => rfl
  | cons h1 _ ih => rw [List.map_cons, ← tokText_exact ht h1, ← ih]

theorem callText_exact {R : Type} {ops : RealOps R} {c : Call R} {vs : List (Val R)} {text : List Char} (hc : Spec.Call.Exact c)
    (h : CallText id ops c vs text) : text = callText c vs := by
  cases c with
  | tok t =>
    obtain ⟨v, rfl, h⟩ := h
    rw [tokText_exact hc h]; simp [callText]
  | many t n sep =>
    obtain ⟨_, _, texts, h, rfl⟩ := h
    rw [forall2_exact hc h]; rfl
  | expectString e => exact h.2.2.2
  | expectInt e => exact h.2.1
  | expectReal e => exact absurd hc id
  | space => exact h.2
  | newline => exact h.2
  | eof => exact h.2

theorem exact_noExpectReal {R : Type} {p : Prog R} (h : Exact p) : NoExpectReal p := by
  induction h with
  | done => exact .done
  | call h1 _ ih => exact .call (by rintro e rfl; exact h1) ih

/-- **C32.** If a validator that reads no real numbers accepts an input, then the input up to `rest` is byte for byte
the sequence of the values it returned, with exactly the separators it asked for. -/
theorem C32_bytes {R : Type} (cfg : StreamCfg) (hs : cfg.spaceSensitive = true) (hc : cfg.caseSensitive = true)
    (ops : RealOps R) (p : Prog R) (hp : Exact p) (s rest : List Char) (vs : List (List (Val R)))
    (h : p.run cfg ops s = .ok (vs, rest)) : s = render p vs ++ rest := by
  have ha := (C32_accepts_sensitive cfg hs hc ops p (exact_noExpectReal hp) s rest vs).1 h
  clear h
  induction ha with
  | done => rfl
  | call h1 _ _ ih =>
    cases hp with
    | call hc' hk =>
      rw [render, List.append_assoc, ← ih (hk _), ← callText_exact hc' h1]

/-- **C32.** If the validator calls `eof` at the end, the whole file is determined by the values. -/
theorem C32_file {R : Type} (cfg : StreamCfg) (hs : cfg.spaceSensitive = true) (hc : cfg.caseSensitive = true)
    (ops : RealOps R) (p : Prog R) (hp : Exact p) (he : Closed p) (s rest : List Char) (vs : List (List (Val R)))
    (h : p.run cfg ops s = .ok (vs, rest)) : s = render p vs := by
  have hb := C32_bytes cfg hs hc ops p hp s rest vs h
  have ha := (C32_accepts_sensitive cfg hs hc ops p (exact_noExpectReal hp) s rest vs).1 h
  have hr : rest = [] := by
    clear h hb hp hs
    induction ha with
    | done => cases he
    | call _ h2 h3 ih =>
      cases he with
      | step hk => exact ih (hk _)
      | eof hk =>
        rw [hk] at h3
        cases h3
        exact h2
  rw [hb, hr, List.append_nil]

/-- **C32.** Two different files accepted by such a validator give it different values. -/
theorem C32_injective {R : Type} (cfg : StreamCfg) (hs : cfg.spaceSensitive = true) (hc : cfg.caseSensitive = true)
    (ops : RealOps R) (p : Prog R) (hp : Exact p) (he : Closed p) (s s' rest rest' : List Char) (vs : List (List (Val R)))
    (h : p.run cfg ops s = .ok (vs, rest)) (h' : p.run cfg ops s' = .ok (vs, rest')) : s = s' := by
  rw [C32_file cfg hs hc ops p hp he s rest vs h, C32_file cfg hs hc ops p hp he s' rest' vs h']

/-- Dummy operations for programs without real numbers. -/
def noOps : RealOps Unit :=
  { parse := fun _ => none, close := fun _ _ => false, isNaN := fun _ => false, le := fun _ _ => true, lt := fun _ _ => true }

/-- A validator: `n`, newline, `n` integers, newline, eof. -/
def sampleProg : Prog Unit :=
  .call (.tok (.integerBounded 1 10)) fun v =>
    .call .newline fun _ =>
      .call (.many (.integerBounded 0 100) (match v with | [.int n] => n | _ => 0) ' ') fun _ =>
        .call .newline fun _ => .call .eof fun _ => .done (.ok ())

example : (sampleProg.run strictCfg noOps "3\n5 7 0\n".toList).isOk = true := by decide +kernel
example : (sampleProg.run strictCfg noOps "3\n5  7 0\n".toList).isOk = false := by decide +kernel
example : (sampleProg.run strictCfg noOps "3\n5 7 0".toList).isOk = false := by decide +kernel
example : (sampleProg.run strictCfg noOps "3\n5 7 0\n ".toList).isOk = false := by decide +kernel
example : Closed sampleProg := .step fun _ => .step fun _ => .step fun _ => .step fun _ => .eof fun _ => rfl
example : Exact sampleProg :=
  .call trivial fun _ => .call trivial fun _ => .call trivial fun _ => .call trivial fun _ => .call trivial fun _ => .done

/-! ## C33 -/

/-- **C33.** In space insensitive mode a program that reads only gets to see the tokens: on inputs with the same tokens
it returns the same values and leaves the same tokens, or fails in the same way. -/
theorem C33_tokens_only {R : Type} (cfg : StreamCfg) (hs : cfg.spaceSensitive = false) (ops : RealOps R) (p : Prog R)
    (s s' : List Char) (h : tokens s = tokens s') :
    (∀ vs rest, p.run cfg ops s = .ok (vs, rest) → ∃ rest', p.run cfg ops s' = .ok (vs, rest') ∧ tokens rest' = tokens rest) ∧
    (∀ e, p.run cfg ops s = .error e → p.run cfg ops s' = .error e) := by
  have key := tokenOnly_prog ops hs p s s' h
  constructor
  · intro vs rest h1
    rw [h1] at key
    cases h2 : p.run cfg ops s' with
    | error e => rw [h2] at key; exact absurd key id
    | ok x => rw [h2] at key; exact ⟨x.2, by rw [show vs = x.1 from key.1], key.2.symm⟩
  · intro e h1
    rw [h1] at key
    cases h2 : p.run cfg ops s' with
    | error e' => rw [h2] at key; rw [show e = e' from key]
    | ok x => rw [h2] at key; exact absurd key id

/-- **C33.** In space insensitive mode `string()` returns the next token (in default case if the stream is not case
sensitive) and fails iff there is none. -/
theorem C33_string (cfg : StreamCfg) (hs : cfg.spaceSensitive = false) (s : List Char) :
    (tokens s = [] → Stream.string cfg s = .error (.exit cfg.onFail)) ∧
    (∀ t ts, tokens s = t :: ts → ∃ rest, Stream.string cfg s = .ok (if cfg.caseSensitive then t else toDefaultCaseS cfg.defaultLower t, rest) ∧
      tokens rest = ts) := by
  have hf : ∀ t, foldOf cfg t = if cfg.caseSensitive then t else toDefaultCaseS cfg.defaultLower t := by
    intro t; unfold foldOf; cases cfg.caseSensitive <;> rfl
  rcases string_loose hs s with ⟨h1, h2⟩ | ⟨t, ts, rest, h1, h2, h3, _⟩
  · exact ⟨fun _ => h2, fun t ts h => (by rw [h1] at h; cases h)⟩
  · refine ⟨fun h => (by rw [h1] at h; cases h), fun t' ts' h => ?_⟩
    rw [h1] at h
    simp only [List.cons.injEq] at h
    exact ⟨rest, by rw [h3, ← h.1, hf], by rw [h2, h.2]⟩

/-- The tokens of a text are what is expected. -/
theorem C33_tokens_spec (s : List Char) : (∀ t ∈ tokens s, Token t) ∧
    (∀ (w : List Char), (∀ c ∈ w, White c) → tokens (w ++ s) = tokens s) ∧
    (∀ t rest, Token t → Delimited rest → tokens (t ++ rest) = t :: tokens rest) ∧ tokens [] = [] := by
  refine ⟨?_, fun w hw => ?_, fun t rest ht hd => tokens_token ht hd, rfl⟩
  · have key : ∀ (s cur : List Char), (∀ c ∈ cur, ¬ White c) → ∀ t ∈ tokensFrom cur s, Token t := by
      intro s
      induction s with
      | nil =>
        intro cur hc t ht
        unfold tokensFrom at ht
        split at ht
        · cases ht
        · rename_i h; rw [List.mem_singleton.1 ht]; exact ⟨h, hc⟩
      | cons c s ih =>
        intro cur hc t ht
        unfold tokensFrom at ht
        split at ht
        · split at ht
          · exact ih [] (by simp) t ht
          · rename_i h
            rcases List.mem_cons.1 ht with rfl | ht
            · exact ⟨h, hc⟩
            · exact ih [] (by simp) t ht
        · rename_i hw
          refine ih (cur ++ [c]) (fun x hx => ?_) t ht
          rcases List.mem_append.1 hx with hx | hx
          · exact hc x hx
          · rw [List.mem_singleton.1 hx]; exact hw
    exact key s [] (by simp)
  · induction w with
    | nil => rfl
    | cons c w ih =>
      unfold tokens at ih ⊢
      rw [List.cons_append, tokensFrom, if_pos (hw c (by simp)), if_pos rfl]
      exact ih fun x hx => hw x (List.mem_cons_of_mem _ hx)

def looseCfg : StreamCfg := { spaceSensitive := false, caseSensitive := true, defaultLower := true, onFail := 43 }

example : tokens "  ab\n c\t".toList = ["ab".toList, "c".toList] := by decide +kernel
example : (sampleProg.run looseCfg noOps "3\n5 7 0\n".toList).isOk = true := by decide +kernel
example : (sampleProg.run looseCfg noOps "\t3  5\n\n7 0".toList).isOk = true := by decide +kernel

/-! ## C35 -/

/-- **C35.** `expectString(e)` on a space sensitive stream succeeds iff the next token is `e`, up to case if the stream
is not case sensitive; otherwise it ends with the failure verdict. -/
theorem C35_expectString (cfg : StreamCfg) (hs : cfg.spaceSensitive = true) (e : List Char) (he : Token e) (s : List Char) :
    (∀ rest, Stream.expectString cfg e s = .ok rest ↔
      ∃ text, s = text ++ rest ∧ StrictToken text ∧ Delimited rest ∧
        if cfg.caseSensitive then text = e else List.Forall₂ SameLetter text e) ∧
    OkOrFail cfg (Stream.expectString cfg e s) := by
  constructor
  · intro rest
    have h := call_strict (R := Unit) (cfg := cfg) noOps hs (.expectString e) (by intro e h; cases h) s [] rest
    have h0 : (Call.expectString e : Call Unit).run cfg noOps s = noVal (Stream.expectString cfg e s) := rfl
    rw [h0, noVal_eq_ok] at h
    simp only [true_and] at h
    rw [h]
    simp only [CallText, Follow, true_and, he]
    have hf : ∀ text, foldOf cfg text = foldOf cfg e ↔ if cfg.caseSensitive then text = e else List.Forall₂ SameLetter text e := by
      intro text
      by_cases hc : cfg.caseSensitive = true
      · simp [hc, foldOf_sensitive hc]
      · have hc' : cfg.caseSensitive = false := by simpa using hc
        rw [foldOf_insensitive hc', foldOf_insensitive hc']
        simp only [hc', Bool.false_eq_true, if_false]
        have : ∀ a b : List Char, a.map (toDefaultCaseC cfg.defaultLower) = b.map (toDefaultCaseC cfg.defaultLower) ↔ List.Forall₂ SameLetter a b := by
          intro a
          induction a with
          | nil => intro b; simp [eq_comm]
          | cons x a ih =>
            intro b
            cases b with
            | nil => simp
            | cons y b => simp [ih, toDefaultCaseC_eq_iff]
        exact this text e
    constructor
    · rintro ⟨text, h1, ⟨h2, h3⟩, h4⟩; exact ⟨text, h1, h2, h4, (hf text).1 h3⟩
    · rintro ⟨text, h1, h2, h4, h3⟩; exact ⟨text, h1, ⟨h2, (hf text).2 h3⟩, h4⟩
  · unfold Stream.expectString
    rw [(isToken_iff e).2 he, judgeAssert_true, ok_bind]
    exact (string_okOrFail cfg s).bind fun _ => ite_okOrFail

/-- **C35.** `expectInt(e)` on a space sensitive stream succeeds iff the next token is the canonical notation of `e`;
otherwise it ends with the failure verdict. -/
theorem C35_expectInt (cfg : StreamCfg) (hs : cfg.spaceSensitive = true) (e : Int) (he : -(2 ^ 63) ≤ e ∧ e < 2 ^ 63) (s : List Char) :
    (∀ rest, Stream.expectInt cfg e s = .ok rest ↔ s = decimal e ++ rest ∧ Delimited rest) ∧
    OkOrFail cfg (Stream.expectInt cfg e s) := by
  constructor
  · intro rest
    have h := call_strict (R := Unit) (cfg := cfg) noOps hs (.expectInt e) (by intro e h; cases h) s [] rest
    have h0 : (Call.expectInt e : Call Unit).run cfg noOps s = noVal (Stream.expectInt cfg e s) := rfl
    rw [h0, noVal_eq_ok] at h
    simp only [true_and] at h
    rw [h]
    simp only [CallText, Follow, true_and]
    constructor
    · rintro ⟨_, h1, ⟨rfl, _⟩, h2⟩; exact ⟨h1, h2⟩
    · rintro ⟨h1, h2⟩; exact ⟨_, h1, ⟨rfl, he⟩, h2⟩
  · exact (integer_okOrFail cfg s).bind fun _ => ite_okOrFail

/-- **C35 (refuted for `expectReal`).** The code is inverted: if the next token is a real number `x`, then
`expectReal(e)` fails iff `x` equals `e` up to the tolerances. -/
theorem C35_expectReal_refuted {R : Type} (cfg : StreamCfg) (ops : RealOps R) (e x : R) (s rest : List Char)
    (h : Stream.real cfg ops s = .ok (x, rest)) :
    (ops.close x e = true → Stream.expectReal cfg ops e s = .error (.exit cfg.onFail)) ∧
    (ops.close x e = false → Stream.expectReal cfg ops e s = .ok rest) := by
  unfold Stream.expectReal
  rw [h, ok_bind]
  constructor
  · intro hc; dsimp only; rw [if_pos hc]; rfl
  · intro hc; dsimp only; rw [if_neg (by simp [hc])]

example : Stream.expectString strictCfg "yes".toList "yes\n".toList = .ok "\n".toList := by decide +kernel
example : Stream.expectString { strictCfg with caseSensitive := false } "Yes".toList "yES\n".toList = .ok "\n".toList := by decide +kernel
example : Stream.expectString strictCfg "yes".toList "yesno\n".toList = .error (.exit 43) := by decide +kernel
example : Stream.expectInt strictCfg 12 "12".toList = .ok [] := by decide +kernel
/-- With exact comparison `expectReal` rejects the very number it expects. -/
example : Stream.expectReal strictCfg
    { parse := fun t => some t.length, close := fun a b => a == b, isNaN := fun _ => false, le := fun a b => a ≤ b, lt := fun a b => a < b : RealOps Nat }
    3 "1.5".toList = .error (.exit 43) := by decide +kernel

/-! ## C36 -/

theorem star_digits {w : List Char} : Lang (.star reDigit) w ↔ ∀ c ∈ w, isDigitC c = true := by
  unfold reDigit Re.range
  exact lang_star_chr

/-- The tokens of `realStrict`. -/
theorem strictReal_iff (w : List Char) : Lang STRICT_REAL_REGEX w ↔
    ∃ sign a dot b, w = sign ++ a ++ dot ++ b ∧ (sign = [] ∨ sign = ['-']) ∧ (dot = [] ∨ dot = ['.']) ∧
      (∃ n, a = natDecimal n) ∧ ∀ c ∈ b, isDigitC c = true := by
  unfold STRICT_REAL_REGEX Re.opt
  simp only [lang_cat_iff, lang_alt_iff, lang_eps_iff, lang_lit_iff, star_digits]
  have hn : ∀ a : List Char, (a = ['0'] ∨ ∃ u v, a = u ++ v ∧ Lang (.range '1' '9') u ∧ ∀ c ∈ v, isDigitC c = true) ↔ ∃ n, a = natDecimal n := by
    intro a
    have := posInt_iff a
    rw [lang_cat_iff] at this
    have hd : ∀ v : List Char, Lang (.star (.range '0' '9')) v ↔ ∀ c ∈ v, isDigitC c = true := fun v => star_digits
    simp only [hd] at this
    rw [this]
    constructor
    · rintro (rfl | ⟨n, _, rfl⟩)
      · exact ⟨0, by decide +kernel⟩
      · exact ⟨n, rfl⟩
    · rintro ⟨n, rfl⟩
      rcases Nat.eq_zero_or_pos n with rfl | h
      · left; decide +kernel
      · right; exact ⟨n, h, rfl⟩
  constructor
  · rintro ⟨sign, r, rfl, hs, a, r', rfl, ha, dot, b, rfl, hd, hb⟩
    exact ⟨sign, a, dot, b, by simp, hs, hd, (hn a).1 ha, hb⟩
  · rintro ⟨sign, a, dot, b, rfl, hs, hd, ha, hb⟩
    exact ⟨sign, a ++ (dot ++ b), by simp, hs, a, dot ++ b, rfl, (hn a).2 ha, dot, b, rfl, hd, hb⟩

/-- **C36 (partial).** A token accepted by `realStrict(lower, upper, minDecimals, maxDecimals)` on a strict stream is
an optional minus sign, the canonical notation of a natural number, an optional point and digits; the number of
characters after the point is in `[minDecimals, maxDecimals)` and the value is a number in `[lower, upper)`.
Missing from the full claim: without a point the digits may continue after the canonical natural number, so `007`
is accepted (see `C36_leading_zeros_refuted`). -/
theorem C36_realStrict_partial {R : Type} (cfg : StreamCfg) (hs : cfg.spaceSensitive = true) (ops : RealOps R) (lower upper : R)
    (minDecimals maxDecimals : Int) (s rest : List Char) (x : R)
    (h : Stream.realStrict cfg ops lower upper minDecimals maxDecimals s = .ok (x, rest)) :
    ∃ text sign a dot b, s = text ++ rest ∧ Delimited rest ∧ text = sign ++ a ++ dot ++ b ∧ (sign = [] ∨ sign = ['-']) ∧
      (dot = [] ∨ dot = ['.']) ∧ (∃ n, a = natDecimal n) ∧ (∀ c ∈ b, isDigitC c = true) ∧
      minDecimals ≤ (if dot = [] then 0 else b.length : Int) ∧ (if dot = [] then 0 else b.length : Int) < maxDecimals ∧
      ops.isNaN x = false ∧ ops.le lower x = true ∧ ops.lt x upper = true := by
  obtain ⟨text, h1, ⟨h2, h3, h4, ⟨n, h5, h6, h7⟩, h8⟩, h9⟩ := (strict_realStrict ops hs lower upper minDecimals maxDecimals s x rest).1 h
  obtain ⟨sign, a, dot, b, e, hsg, hd, ha, hb⟩ := (strictReal_iff _).1 h3
  have hdig : ∀ c, isDigitC c = true → isLetterC c = false ∧ c ≠ '.' := by
    intro c hc
    have := (isDigitC_iff c).1 hc
    have h1 : isLowerC c = false := by
      rw [Bool.eq_false_iff]; intro h; have := (isLowerC_iff c).1 h; omega
    have h2 : isUpperC c = false := by
      rw [Bool.eq_false_iff]; intro h; have := (isUpperC_iff c).1 h; omega
    exact ⟨by simp [isLetterC, h1, h2], by rintro rfl; exact absurd hc (by decide)⟩
  have had : ∀ c ∈ a, isDigitC c = true := by
    obtain ⟨n, rfl⟩ := ha; exact natDecimal_digits n
  have hl : ∀ c ∈ sign ++ a ++ dot ++ b, isLetterC c = false := by
    intro c hc
    simp only [List.mem_append] at hc
    rcases hc with ((hc | hc) | hc) | hc
    · rcases hsg with rfl | rfl
      · cases hc
      · rw [List.mem_singleton.1 hc]; decide
    · exact (hdig c (had c hc)).1
    · rcases hd with rfl | rfl
      · cases hc
      · rw [List.mem_singleton.1 hc]; decide
    · exact (hdig c (hb c hc)).1
  have et : text = sign ++ a ++ dot ++ b := (foldOf_eq_iff_nonletter cfg text _ hl).1 e
  have hnd : '.' ∉ sign ++ a := by
    intro hc
    rcases List.mem_append.1 hc with hc | hc
    · rcases hsg with rfl | rfl
      · cases hc
      · exact absurd hc (by decide)
    · exact (hdig _ (had _ hc)).2 rfl
  have hn : (n : Int) = (if dot = [] then 0 else b.length : Int) := by
    have hD : HasDecimals text (if dot = [] then 0 else b.length) := by
      rcases hd with rfl | rfl
      · left
        refine ⟨?_, by simp⟩
        rw [et]
        intro hc
        rw [List.append_nil] at hc
        rcases List.mem_append.1 hc with hc | hc
        · exact hnd hc
        · exact (hdig _ (hb _ hc)).2 rfl
      · right
        exact ⟨sign ++ a, b, by rw [et]; simp, hnd, by simp⟩
    rw [decimals_spec] at h5 hD
    rw [← h5, hD]; split <;> rfl
  refine ⟨text, sign, a, dot, b, h1, h9, et, hsg, hd, ha, hb, ?_, ?_, h8⟩
  · rw [← hn]; exact h6
  · rw [← hn]; exact h7

/-- **C36.** Conversely every token of this form is accepted if its value can be parsed. -/
theorem C36_realStrict_complete {R : Type} (cfg : StreamCfg) (hs : cfg.spaceSensitive = true) (hc : cfg.caseSensitive = true)
    (ops : RealOps R) (lower upper : R) (minDecimals maxDecimals : Int) (text rest : List Char) (x : R)
    (hl : STRICT_REAL_REGEX.matches text = true) (ht : StrictToken text) (hr : Delimited rest) (hx : ops.parse text = some x)
    (n : Nat) (hn : HasDecimals text n) (h1 : minDecimals ≤ n) (h2 : n < maxDecimals) (h3 : ops.isNaN x = false)
    (h4 : ops.le lower x = true) (h5 : ops.lt x upper = true) :
    Stream.realStrict cfg ops lower upper minDecimals maxDecimals (text ++ rest) = .ok (x, rest) := by
  refine (strict_realStrict ops hs lower upper minDecimals maxDecimals _ x rest).2 ⟨text, rfl, ⟨ht, ?_, ?_, ⟨n, hn, h1, h2⟩, h3, h4, h5⟩, hr⟩
  · rw [foldOf_sensitive hc, ← matches_iff]; exact hl
  · rw [foldOf_sensitive hc]; exact hx

/-- **C36 (refuted).** Superfluous leading zeros are accepted when there is no decimal point, and a point may be the
last character. -/
theorem C36_leading_zeros_refuted {R : Type} (ops : RealOps R) (lower upper x : R) (h3 : ops.isNaN x = false)
    (h4 : ops.le lower x = true) (h5 : ops.lt x upper = true) :
    (ops.parse "007".toList = some x → Stream.realStrict strictCfg ops lower upper 0 1 "007".toList = .ok (x, [])) ∧
    (ops.parse "7.".toList = some x → Stream.realStrict strictCfg ops lower upper 0 1 "7.".toList = .ok (x, [])) := by
  constructor
  · intro hx
    exact C36_realStrict_complete strictCfg rfl rfl ops lower upper 0 1 "007".toList [] x (by decide +kernel)
      ⟨⟨by decide, by decide +kernel⟩, '0', ['0', '7'], rfl, by unfold Visible; decide⟩ (.inl rfl) hx 0 (.inl ⟨by decide +kernel, rfl⟩)
      (by decide) (by decide) h3 h4 h5
  · intro hx
    exact C36_realStrict_complete strictCfg rfl rfl ops lower upper 0 1 "7.".toList [] x (by decide +kernel)
      ⟨⟨by decide, by decide +kernel⟩, '7', ['.'], rfl, by unfold Visible; decide⟩ (.inl rfl) hx 0 (.inr ⟨['7'], [], rfl, by decide +kernel, rfl⟩)
      (by decide) (by decide) h3 h4 h5

example : STRICT_REAL_REGEX.matches "-3.25".toList = true ∧ STRICT_REAL_REGEX.matches "+3.25".toList = false ∧
    STRICT_REAL_REGEX.matches "1e5".toList = false ∧ STRICT_REAL_REGEX.matches "00.5".toList = false := by decide +kernel

/-! ## C37 -/

/-- **C37.** `eof()` accepts iff nothing is left (space sensitive) or only white space is left (insensitive);
otherwise it ends with the failure verdict. -/
theorem C37_eof (cfg : StreamCfg) (s : List Char) :
    ((∃ rest, Stream.eof cfg s = .ok rest) ↔ if cfg.spaceSensitive then s = [] else ∀ c ∈ s, White c) ∧
    OkOrFail cfg (Stream.eof cfg s) := by
  refine ⟨?_, eof_okOrFail cfg s⟩
  by_cases hs : cfg.spaceSensitive = true
  · simp only [hs, if_true]
    simp only [eof_strict hs]
    constructor
    · rintro ⟨_, h, _⟩; exact h
    · intro h; exact ⟨[], h, rfl⟩
  · have hs' : cfg.spaceSensitive = false := by simpa using hs
    simp only [hs', Bool.false_eq_true, if_false]
    rw [eof_loose hs']
    have key : tokens s = [] ↔ ∀ c ∈ s, White c := by
      rcases skipWs_token s with ⟨h1, h2⟩ | ⟨t, rest, h1, h2, h3, h4⟩
      · refine ⟨fun _ c hc => ?_, fun _ => h2⟩
        have e := (List.takeWhile_append_dropWhile (p := isSpaceC) (l := s))
        rw [show s.dropWhile isSpaceC = [] from h1, List.append_nil] at e
        rw [← e] at hc
        exact (isSpaceC_iff c).1 (mem_takeWhile_imp hc)
      · constructor
        · intro h; rw [h4] at h; cases h
        · intro h
          have : tokens s = [] := by
            have := (C33_tokens_spec []).2.1 s h
            rw [List.append_nil] at this; exact this
          exact this
    rw [← key]
    constructor
    · rintro ⟨rest, h⟩
      by_contra hne
      rw [if_neg hne] at h; cases h
    · intro h; exact ⟨[], by rw [if_pos h]⟩

theorem string_consumes (cfg : StreamCfg) (s : List Char) (t rest : List Char) (h : Stream.string cfg s = .ok (t, rest)) :
    ∃ w text, s = w ++ text ++ rest ∧ text ≠ [] ∧ (∀ c ∈ w, White c) ∧ (cfg.spaceSensitive = true → w = []) := by
  by_cases hs : cfg.spaceSensitive = true
  · obtain ⟨text, h1, h2, _, _⟩ := (string_strict hs s t rest).1 h
    exact ⟨[], text, h1, h2.1.1, by simp, fun _ => rfl⟩
  · have hs' : cfg.spaceSensitive = false := by simpa using hs
    rcases string_loose hs' s with ⟨_, h2⟩ | ⟨t', ts, rest', h1, h2, h3, h4, h5⟩
    · rw [h2] at h; cases h
    · rw [h3] at h
      simp only [Except.ok.injEq, Prod.mk.injEq] at h
      refine ⟨s.takeWhile isSpaceC, t', ?_, h4.1, fun c hc => (isSpaceC_iff c).1 (mem_takeWhile_imp hc), fun h => absurd h hs⟩
      have e := (List.takeWhile_append_dropWhile (p := isSpaceC) (l := s))
      rw [← h.2, List.append_assoc, ← h5]
      exact e.symm

/-- A successful read of a token starts with a successful `string()` that leaves the same rest. -/
theorem tok_string {R : Type} (cfg : StreamCfg) (ops : RealOps R) (t : Tok R) (s : List Char) (v : Val R) (rest : List Char)
    (h : t.run cfg ops s = .ok (v, rest)) : ∃ w, Stream.string cfg s = .ok (w, rest) := by
  have hw : ∀ {α : Type} (f : α → Val R) (x : Out (α × List Char)), wrap f x = .ok (v, rest) → ∃ a, x = .ok (a, rest) := by
    intro α f x hx
    obtain ⟨⟨a, r⟩, h1, h2⟩ := bind_eq_ok.1 hx
    simp only [Except.ok.injEq, Prod.mk.injEq] at h2
    rw [← h2.2]; exact ⟨a, h1⟩
  have hre : ∀ p w, Stream.stringRe cfg p s = .ok (w, rest) → ∃ w, Stream.string cfg s = .ok (w, rest) := by
    intro p w hx
    obtain ⟨⟨a, r⟩, h1, h2⟩ := bind_eq_ok.1 hx
    rw [ite_fail_eq_ok] at h2
    simp only [Except.ok.injEq, Prod.mk.injEq] at h2
    rw [← h2.2.2]; exact ⟨a, h1⟩
  have hbd : ∀ l u w, Stream.stringBounded cfg l u s = .ok (w, rest) → ∃ w, Stream.string cfg s = .ok (w, rest) := by
    intro l u w hx
    obtain ⟨⟨a, r⟩, h1, h2⟩ := bind_eq_ok.1 hx
    rw [ite_fail_eq_ok] at h2
    simp only [Except.ok.injEq, Prod.mk.injEq] at h2
    rw [← h2.2.2]; exact ⟨a, h1⟩
  have hint : ∀ w, Stream.integer cfg s = .ok (w, rest) → ∃ w, Stream.string cfg s = .ok (w, rest) := by
    intro w hx
    obtain ⟨⟨a, r⟩, h1, h2⟩ := bind_eq_ok.1 hx
    obtain ⟨rfl, _⟩ := parseToken_eq_ok.1 h2
    exact hre _ a h1
  have hreal : ∀ w, Stream.real cfg ops s = .ok (w, rest) → ∃ w, Stream.string cfg s = .ok (w, rest) := by
    intro w hx
    obtain ⟨⟨a, r⟩, h1, h2⟩ := bind_eq_ok.1 hx
    obtain ⟨rfl, _⟩ := parseToken_eq_ok.1 h2
    exact hre _ a h1
  cases t with
  | string => exact hw _ _ h
  | stringBounded l u => obtain ⟨a, h⟩ := hw _ _ h; exact hbd l u a h
  | stringRe p => obtain ⟨a, h⟩ := hw _ _ h; exact hre p a h
  | stringReBounded p l u =>
    obtain ⟨a, h⟩ := hw _ _ h
    obtain ⟨⟨b, r⟩, h1, h2⟩ := bind_eq_ok.1 h
    rw [ite_fail_eq_ok] at h2
    simp only [Except.ok.injEq, Prod.mk.injEq] at h2
    rw [← h2.2.2] at hbd ⊢; exact hbd l u b h1
  | integer => obtain ⟨a, h⟩ := hw _ _ h; exact hint a h
  | integerBounded l u =>
    obtain ⟨a, h⟩ := hw _ _ h
    obtain ⟨⟨b, r⟩, h1, h2⟩ := bind_eq_ok.1 h
    rw [ite_fail_eq_ok] at h2
    simp only [Except.ok.injEq, Prod.mk.injEq] at h2
    rw [← h2.2.2] at hint ⊢; exact hint b h1
  | real => obtain ⟨a, h⟩ := hw _ _ h; exact hreal a h
  | realBounded l u =>
    obtain ⟨a, h⟩ := hw _ _ h
    obtain ⟨⟨b, r⟩, h1, h2⟩ := bind_eq_ok.1 h
    have e : r = rest := by
      dsimp only at h2
      split at h2
      · simp only [Except.ok.injEq, Prod.mk.injEq] at h2; exact h2.2
      · split at h2
        · simp only [Except.ok.injEq, Prod.mk.injEq] at h2; exact h2.2
        · rw [ite_fail_eq_ok] at h2
          simp only [Except.ok.injEq, Prod.mk.injEq] at h2; exact h2.2.2
    rw [e] at h1; exact hreal b h1
  | realStrict l u mi ma =>
    obtain ⟨a, h⟩ := hw _ _ h
    obtain ⟨⟨b, r⟩, h1, h2⟩ := bind_eq_ok.1 h
    rw [ite_fail_eq_ok] at h2
    obtain ⟨_, h2⟩ := h2
    obtain ⟨⟨c, r'⟩, h3, h4⟩ := bind_eq_ok.1 h2
    rw [ite_fail_eq_ok] at h4
    simp only [Except.ok.injEq, Prod.mk.injEq] at h4
    obtain ⟨h5, _⟩ := parseToken_eq_ok.1 h3
    rw [← h4.2.2, h5]
    rw [← h4.2.2, h5] at hre
    exact hre _ b h1

/-- **C37.** Every successful read of a token consumes at least one character: the input is white space (none on a
space sensitive stream), a non-empty text and the rest. -/
theorem C37_consumes {R : Type} (cfg : StreamCfg) (ops : RealOps R) (t : Tok R) (s : List Char) (v : Val R) (rest : List Char)
    (h : t.run cfg ops s = .ok (v, rest)) :
    (∃ w text, s = w ++ text ++ rest ∧ text ≠ [] ∧ (∀ c ∈ w, White c) ∧ (cfg.spaceSensitive = true → w = [])) ∧
    rest.length < s.length := by
  obtain ⟨w, hw⟩ := tok_string cfg ops t s v rest h
  obtain ⟨w, text, h1, h2, h3⟩ := string_consumes cfg s _ rest hw
  refine ⟨⟨w, text, h1, h2, h3⟩, ?_⟩
  have : text.length ≠ 0 := by simpa using h2
  rw [h1]; simp only [List.length_append]; omega

/-- **C37.** Reading a token when nothing is left (or only white space on an insensitive stream) ends with the failure
verdict. -/
theorem C37_end {R : Type} (cfg : StreamCfg) (ops : RealOps R) (t : Tok R) (s : List Char)
    (h : if cfg.spaceSensitive then s = [] else ∀ c ∈ s, White c) : t.run cfg ops s = .error (.exit cfg.onFail) := by
  rcases tok_okOrFail cfg ops t s with ⟨⟨v, rest⟩, h1⟩ | h1
  · obtain ⟨w, hw⟩ := tok_string cfg ops t s v rest h1
    by_cases hs : cfg.spaceSensitive = true
    · simp only [hs, if_true] at h
      have := (C37_consumes cfg ops t s v rest h1).2
      rw [h] at this; simp at this
    · have hs' : cfg.spaceSensitive = false := by simpa using hs
      simp only [hs', Bool.false_eq_true, if_false] at h
      have ht : tokens s = [] := by
        have := (C33_tokens_spec []).2.1 s h
        rw [List.append_nil] at this; exact this
      rw [(C33_string cfg hs' s).1 ht] at hw; cases hw
  · exact h1

example : Stream.eof looseCfg " \n\n".toList = .ok [] ∧ Stream.eof strictCfg "\n".toList = .error (.exit 43) := by decide +kernel
example : Stream.integer looseCfg " \n".toList = .error (.exit 43) := by decide +kernel

/-! ## C41 and C34 -/

theorem joinLoop_false (sep : Char) (h : sep ≠ NOSEP) (l : List (List Char)) (hl : l ≠ []) :
    joinLoop sep false l = sep :: separate [sep] l := by
  induction l with
  | nil => exact absurd rfl hl
  | cons x l ih =>
    rw [joinLoop]
    cases l with
    | nil => simp [h, joinLoop, separate]
    | cons y l => rw [ih (by simp)]; simp [h, separate]

/-- **C41.** `join(first, last, separator)` prints the elements in order with one separator between neighbours and
nothing else; with `NOSEP` only the elements. -/
theorem C41_join (separator : Char) (l : List (List Char)) :
    joinRange separator l = if separator = NOSEP then l.flatten else separate [separator] l := by
  unfold joinRange
  by_cases h : separator = NOSEP
  · rw [if_pos h]
    have : ∀ (b : Bool) (l : List (List Char)), joinLoop separator b l = l.flatten := by
      intro b l
      induction l generalizing b with
      | nil => rfl
      | cons x l ih => rw [joinLoop, ih]; simp [h]
    exact this true l
  · rw [if_neg h]
    cases l with
    | nil => rfl
    | cons x l =>
      rw [joinLoop]
      cases l with
      | nil => simp [joinLoop, separate]
      | cons y l => rw [joinLoop_false separator h _ (by simp)]; simp [separate]

/-- **C41.** The same for tuples. -/
theorem C41_join_tuple (separator : Char) (l : List (List Char)) :
    joinTuple separator l = if separator = NOSEP then l.flatten else separate [separator] l := by
  have key : ∀ (l : List (List Char)) (i : Nat), l ≠ [] → joinTupleLoop separator (i + 1) l = separator :: separate [separator] l := by
    intro l
    induction l with
    | nil => intro i h; exact absurd rfl h
    | cons x l ih =>
      intro i _
      rw [joinTupleLoop]
      cases l with
      | nil => simp [joinTupleLoop, separate]
      | cons y l => rw [ih (i + 1) (by simp)]; simp [separate]
  unfold joinTuple
  by_cases h : separator = NOSEP
  · simp [h]
  · rw [if_pos h, if_neg h]
    cases l with
    | nil => rfl
    | cons x l =>
      rw [joinTupleLoop]
      cases l with
      | nil => simp [joinTupleLoop, separate]
      | cons y l => rw [key _ 0 (by simp)]; simp [separate]

theorem printInt_eq (v : Int) : printInt v = decimal v := by
  have key : ∀ n : Nat, Nat.toDigits 10 n = natDecimal n := by
    intro n
    induction n using Nat.strongRecOn with
    | _ n ih =>
      have hd : ∀ d < 10, Nat.digitChar d = Char.ofNat (48 + d) := by decide
      rw [natDecimal, Nat.toDigits_eq_if (by omega)]
      split
      · rename_i h; rw [hd n h]
      · rename_i h; rw [ih (n / 10) (by omega), hd _ (by omega)]
  unfold printInt decimal
  rw [key]
  split <;> rfl

/-- **C41.** What `<<` prints: integers in canonical decimal notation, the parts of pairs, tuples and containers in
order with one space between neighbours, recursively. -/
theorem C41_write :
    (∀ v, write (.int v) = decimal v) ∧ (∀ t, write (.text t) = t) ∧
    (∀ a b, write (.pair a b) = separate [' '] [write a, write b]) ∧
    (∀ l, write (.tuple l) = separate [' '] (l.map write)) ∧
    (∀ l, write (.container l) = separate [' '] (l.map write)) := by
  have hall : ∀ l, writeAll l = l.map write := by
    intro l
    induction l with
    | nil => rw [writeAll]; rfl
    | cons x l ih => rw [writeAll, ih]; rfl
  have hsep : DEFAULT_SEPARATOR ≠ NOSEP := by decide
  refine ⟨fun v => ?_, fun t => by rw [write], fun a b => ?_, fun l => ?_, fun l => ?_⟩
  · rw [write, printInt_eq]
  · rw [write]; simp [separate, DEFAULT_SEPARATOR]
  · rw [write, C41_join_tuple, if_neg hsep, hall]; rfl
  · rw [write, C41_join, if_neg hsep, hall]; rfl

example : write (.container [.pair (.int 1) (.int (-2)), .int 30]) = "1 -2 30".toList := by decide +kernel
example : joinRange ',' ["a".toList, "".toList, "b".toList] = "a,,b".toList := by decide +kernel

/-- **C34.** A list of 64 bit integers printed with default separators is read back by `integers(count)` on a space
sensitive stream, whatever comes after it (white space or the end of the file). -/
theorem C34_integers (cfg : StreamCfg) (hs : cfg.spaceSensitive = true) (vs : List Int) (hv : ∀ v ∈ vs, -(2 ^ 63) ≤ v ∧ v < 2 ^ 63)
    (rest : List Char) (hr : Delimited rest) :
    Stream.many cfg (Stream.integer cfg) vs.length ' ' (write (.container (vs.map .int)) ++ rest) = .ok (vs, rest) := by
  have hw : write (.container (vs.map .int)) = separate [' '] (vs.map decimal) := by
    rw [C41_write.2.2.2.2, List.map_map]
    congr 1
    apply List.map_congr_left
    intro v _
    exact C41_write.1 v
  rw [hw]
  unfold Stream.many Stream.checkSeparator
  rw [if_pos rfl, ok_bind, if_neg (by omega)]
  refine (manyLoop_strict (c := ' ') (.inl rfl) (space_strict hs) (strict_integer hs) _ _ vs rest).2 ⟨by simp, vs.map decimal, ?_, rfl, fun _ => hr⟩
  clear hw
  induction vs with
  | nil => exact .nil
  | cons v vs ih => exact .cons ⟨rfl, hv v (by simp)⟩ (ih fun x hx => hv x (List.mem_cons_of_mem _ hx))

/-- **C34.** The same with one number per line. -/
theorem C34_lines (cfg : StreamCfg) (hs : cfg.spaceSensitive = true) (vs : List Int) (hv : ∀ v ∈ vs, -(2 ^ 63) ≤ v ∧ v < 2 ^ 63)
    (rest : List Char) (hr : Delimited rest) :
    Stream.many cfg (Stream.integer cfg) vs.length '\n' (joinRange '\n' (vs.map fun v => write (.int v)) ++ rest) = .ok (vs, rest) := by
  have hw : joinRange '\n' (vs.map fun v => write (.int v)) = separate ['\n'] (vs.map decimal) := by
    rw [C41_join, if_neg (by decide)]
    congr 1
    apply List.map_congr_left
    intro v _
    exact C41_write.1 v
  rw [hw]
  unfold Stream.many Stream.checkSeparator
  rw [if_neg (by decide), if_pos rfl, ok_bind, if_neg (by omega)]
  refine (manyLoop_strict (c := '\n') (.inr (.inr (.inl rfl))) (newline_strict hs) (strict_integer hs) _ _ vs rest).2 ⟨by simp, vs.map decimal, ?_, rfl, fun _ => hr⟩
  clear hw
  induction vs with
  | nil => exact .nil
  | cons v vs ih => exact .cons ⟨rfl, hv v (by simp)⟩ (ih fun x hx => hv x (List.mem_cons_of_mem _ hx))

example : Stream.many strictCfg (Stream.integer strictCfg) 3 ' ' (write (.container [.int 5, .int (-77), .int 0]) ++ "\n".toList)
    = .ok ([5, -77, 0], "\n".toList) := by decide +kernel

/-! ## Concrete cases at the edges of the properties above -/

example : Stream.integerBounded strictCfg (-10) 10 "+7".toList = .error (.exit 43) := by decide +kernel
example : Stream.integerBounded strictCfg (-10) 10 "9".toList = .ok (9, []) ∧
    Stream.integerBounded strictCfg (-10) 10 "10".toList = .error (.exit 43) ∧
    Stream.integerBounded strictCfg (-10) 10 "-10".toList = .ok (-10, []) ∧
    Stream.integerBounded strictCfg (-10) 10 "-11".toList = .error (.exit 43) := by decide +kernel
example : Stream.string strictCfg "\nab".toList = .error (.exit 43) ∧ Stream.string strictCfg "\tab".toList = .error (.exit 43) ∧
    Stream.string strictCfg " ab".toList = .error (.exit 43) ∧ Stream.string strictCfg "".toList = .error (.exit 43) := by
  decide +kernel
example : Stream.string strictCfg (Char.ofNat 1 :: "ab".toList) = .error (.exit 43) ∧
    Stream.string looseCfg (Char.ofNat 1 :: "ab".toList) = .ok (Char.ofNat 1 :: "ab".toList, []) := by decide +kernel
example : Stream.stringBounded strictCfg 1 3 "ab c".toList = .ok ("ab".toList, " c".toList) ∧
    Stream.stringBounded strictCfg 1 3 "abc".toList = .error (.exit 43) := by decide +kernel
example : Stream.many strictCfg (Stream.integer strictCfg) 2 '\n' "1\n2\n".toList = .ok ([1, 2], "\n".toList) ∧
    Stream.many strictCfg (Stream.integer strictCfg) 2 '\n' "1 2".toList = .error (.exit 43) ∧
    Stream.many strictCfg (Stream.integer strictCfg) 2 ' ' "1 2".toList = .ok ([1, 2], []) := by decide +kernel
example : Stream.expectString strictCfg "ab".toList "ab".toList = .ok [] ∧
    Stream.expectString strictCfg "ab".toList "aB".toList = .error (.exit 43) := by decide +kernel
example : Stream.expectInt strictCfg 5 "5".toList = .ok [] ∧ Stream.expectInt strictCfg 5 "6".toList = .error (.exit 43) ∧
    Stream.expectInt strictCfg 5 "4".toList = .error (.exit 43) := by decide +kernel
example : Stream.decimals "1.25".toList = 2 ∧ Stream.decimals "1".toList = 0 ∧ Stream.decimals "1.".toList = 0 := by decide +kernel
example : Stream.space looseCfg "x".toList = .ok "x".toList ∧ Stream.space strictCfg "x".toList = .error (.exit 43) ∧
    Stream.newline strictCfg " ".toList = .error (.exit 43) := by decide +kernel
example : Stream.noteof looseCfg " \n".toList = .error (.exit 43) := by decide +kernel

/-- Operations under which every text is a number in range. -/
def anyOps : RealOps Unit :=
  { parse := fun _ => some (), close := fun _ _ => true, isNaN := fun _ => false, le := fun _ _ => true, lt := fun _ _ => true }

example : Stream.realStrict strictCfg anyOps () () 1 3 "1.25".toList = .ok ((), []) ∧
    Stream.realStrict strictCfg anyOps () () 1 3 "1.125".toList = .error (.exit 43) ∧
    Stream.realStrict strictCfg anyOps () () 1 3 "1".toList = .error (.exit 43) := by decide +kernel

end ICPC.Props
