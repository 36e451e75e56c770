import Verif.Lemmas.Examples
import Verif.Props.Distinct

/-!
# C87: the example programs
-/

namespace ICPC.Props

open ICPC ICPC.Spec ICPC.Spec.Examples ICPC.Examples

private theorem forall2_mem {α β : Type} {R : α → β → Prop} {a : List α} {b : List β} (h : List.Forall₂ R a b) {x : α} (hx : x ∈ a) :
    ∃ y, R x y := by
  induction h with
  | nil => cases hx
  | cons h _ ih =>
    rcases List.mem_cons.1 hx with rfl | hx
    · exact ⟨_, h⟩
    · exact ih hx

/-! ## Input validators -/

private theorem decimal_digit (v : Int) : v = 5 ∨ v = 6 → decimal v = [if v = 5 then '5' else '6'] := by
  rintro (rfl | rfl) <;> decide +kernel

private theorem intB_ok (cfg : StreamCfg) (l u : Int) (s : List Char) : OkOrFail cfg (Stream.integerBounded cfg l u s) :=
  (integer_okOrFail cfg s).bind fun _ => ite_okOrFail

/-- **C87.** example/inputValidator.cpp accepts exactly the files with two words (the second with 5 or 6 characters) on the first and the
number 5 or 6 on the second line; all others get the verdict for wrong inputs. -/
theorem C87_input (cfg : StreamCfg) (hs : cfg.spaceSensitive = true) (hf : cfg.onFail = 43) (s : List Char) :
    (inputValidator cfg s = .error (.exit 42) ↔ WordsFile s) ∧ (¬ WordsFile s → inputValidator cfg s = .error (.exit 43)) := by
  have hn : cfg.onFail ≠ 42 := by omega
  have hiff : inputValidator cfg s = .error (.exit 42) ↔ WordsFile s := by
    unfold inputValidator
    rw [bind_exit_iff (string_okOrFail cfg s) hn]
    constructor
    · rintro ⟨⟨_, s1⟩, h1, h⟩
      rw [bind_exit_iff (space_okOrFail cfg _) hn] at h
      obtain ⟨s2, h2, h⟩ := h
      rw [bind_exit_iff (stringBounded_okOrFail cfg _ _ _) hn] at h
      obtain ⟨⟨_, s3⟩, h3, h⟩ := h
      rw [bind_exit_iff (newline_okOrFail cfg _) hn] at h
      obtain ⟨s4, h4, h⟩ := h
      rw [bind_exit_iff (intB_ok cfg 5 7 _) hn] at h
      obtain ⟨⟨v, s5⟩, h5, h⟩ := h
      rw [bind_exit_iff (newline_okOrFail cfg _) hn] at h
      obtain ⟨s6, h6, h⟩ := h
      rw [bind_exit_iff (eof_okOrFail cfg _) hn] at h
      obtain ⟨s7, h7, _⟩ := h
      obtain ⟨a, e1, ⟨ha, _⟩, _⟩ := (strict_string hs _ _ _).1 h1
      have e2 := (space_strict hs _ _).1 h2
      obtain ⟨b, e3, ⟨hb, _, hb1, hb2⟩, _⟩ := (strict_stringBounded hs 5 7 _ _ _).1 h3
      have e4 := (newline_strict hs _ _).1 h4
      obtain ⟨c, e5, ⟨rfl, _, hv1, hv2⟩, _⟩ := (strict_integerBounded hs 5 7 _ _ _).1 h5
      have e6 := (newline_strict hs _ _).1 h6
      obtain ⟨rfl, _⟩ := (eof_strict hs _ _).1 h7
      refine ⟨a, b, ha, hb, by omega, by omega, if v = 5 then '5' else '6', by split <;> simp, ?_⟩
      rw [e1, e2, e3, e4, e5, e6, decimal_digit v (by omega)]
      simp
    · rintro ⟨a, b, ha, hb, hb1, hb2, d, hd, rfl⟩
      have hw : ∀ (c : Char) (r : List Char), White c → Delimited (c :: r) := fun c r h => .inr ⟨c, r, rfl, h⟩
      have hblank : White ' ' := .inl rfl
      have hline : White '\n' := .inr (.inr (.inl rfl))
      refine ⟨_, (strict_string hs _ (foldOf cfg a) _).2 ⟨a, rfl, ⟨ha, rfl⟩, hw _ _ hblank⟩, ?_⟩
      simp only []
      rw [(space_strict hs _ _).2 rfl, ok_bind,
        (strict_stringBounded hs 5 7 _ (foldOf cfg b) _).2 ⟨b, rfl, ⟨hb, rfl, by omega, by omega⟩, hw _ _ hline⟩, ok_bind]
      simp only []
      rw [(newline_strict hs _ _).2 rfl, ok_bind]
      have hint : ∃ v, Stream.integerBounded cfg 5 7 [d, '\n'] = .ok (v, ['\n']) := by
        rcases hd with rfl | rfl
        · exact ⟨5, (strict_integerBounded hs 5 7 _ _ _).2 ⟨['5'], rfl, ⟨by decide +kernel, by decide, by decide, by decide⟩, hw _ _ hline⟩⟩
        · exact ⟨6, (strict_integerBounded hs 5 7 _ _ _).2 ⟨['6'], rfl, ⟨by decide +kernel, by decide, by decide, by decide⟩, hw _ _ hline⟩⟩
      obtain ⟨v, hv⟩ := hint
      rw [hv, ok_bind]
      simp only []
      rw [(newline_strict hs _ _).2 rfl, ok_bind, (eof_strict hs _ _).2 ⟨rfl, rfl⟩, ok_bind]
      rfl
  refine ⟨hiff, fun h => ?_⟩
  have hex : ExitsWith [42, cfg.onFail] (inputValidator cfg s) := by
    have hl : cfg.onFail ∈ [42, cfg.onFail] := by simp
    unfold inputValidator
    refine .bind (string_okOrFail cfg s) hl fun _ _ => .bind (space_okOrFail cfg _) hl fun _ _ => .bind (stringBounded_okOrFail cfg _ _ _) hl
      fun _ _ => .bind (newline_okOrFail cfg _) hl fun _ _ => .bind (intB_ok cfg 5 7 _) hl fun _ _ =>
      .bind (newline_okOrFail cfg _) hl fun _ _ => .bind (eof_okOrFail cfg _) hl fun _ _ => ⟨42, by simp, rfl⟩
  obtain ⟨n, hn', he⟩ := hex
  rcases List.mem_cons.1 hn' with rfl | hn'
  · exact absurd (hiff.1 he) h
  · rw [he, List.mem_singleton.1 hn', hf]

example : WordsFile "ab cdefg\n5\n".toList :=
  ⟨"ab".toList, "cdefg".toList, ⟨⟨by decide, by decide⟩, 'a', ['b'], rfl, by unfold Visible; decide⟩,
    ⟨⟨by decide, by decide⟩, 'c', "defg".toList, rfl, by unfold Visible; decide⟩, by decide, by decide, '5', .inl rfl, rfl⟩

example : inputValidator strictCfg "ab cdefg\n5\n".toList = .error (.exit 42) := by decide +kernel
example : inputValidator strictCfg "ab cdefg\n7\n".toList = .error (.exit 43) := by decide +kernel
example : inputValidator strictCfg "ab cd\n5\n".toList = .error (.exit 43) := by decide +kernel

/-- **C87 (refuted for example/inputValidator.constraints.cpp).** It is meant to read a number `n` and then `n` numbers.  It never reads
anything between them, so it rejects every file whatsoever. -/
theorem C87_constraints_refuted (cfg : StreamCfg) (hs : cfg.spaceSensitive = true) (s : List Char) :
    constraints cfg s = .error (.exit cfg.onFail) := by
  unfold constraints
  rcases intB_ok cfg 1 100000 s with ⟨⟨n, r⟩, h⟩ | h
  · rw [h, ok_bind]
    simp only []
    obtain ⟨_, _, ⟨_, _, h1, _⟩, hd⟩ := (strict_integerBounded hs 1 100000 _ _ _).1 h
    obtain ⟨k, hk⟩ : ∃ k, n.toNat = k + 1 := ⟨n.toNat - 1, by omega⟩
    rw [hk, constraintsLoop]
    rcases intB_ok cfg 1 1000000 r with ⟨⟨a, r'⟩, h'⟩ | h'
    · exfalso
      obtain ⟨t, e, ⟨rfl, _⟩, _⟩ := (strict_integerBounded hs 1 1000000 _ _ _).1 h'
      obtain ⟨⟨hne, hnw⟩, _⟩ := decimal_strict a
      rcases hd with rfl | ⟨c, r2, rfl, hw⟩
      · exact hne (List.append_eq_nil_iff.1 e.symm).1
      · cases hda : decimal a with
        | nil => exact hne hda
        | cons x y =>
          rw [hda, List.cons_append, List.cons.injEq] at e
          rw [hda] at hnw
          exact hnw x (by simp) (e.1 ▸ hw)
    · rw [h']; rfl
  · rw [h]; rfl

example : constraints strictCfg "2 5 7\n".toList = .error (.exit 43) := by decide +kernel
example : constraints strictCfg "2\n5\n7\n".toList = .error (.exit 43) := by decide +kernel
example : constraints strictCfg "257".toList = .error (.exit 43) := by decide +kernel

/-! ## Answer validator -/

/-- **C87.** If the first word of the test is a number `t`, then example/answerValidator.cpp accepts exactly the answers with `t` lines with one
number in [0, 100) each (one empty line if `t = 0`) and rejects the others; a negative `t` is an exception.  If the first word is not a number,
the jury has failed. -/
theorem C87_answer (testCfg ansCfg : StreamCfg) (ht : testCfg.spaceSensitive = false) (htf : testCfg.onFail = 1) (hs : ansCfg.spaceSensitive = true)
    (hf : ansCfg.onFail = 43) (test ans : List Char) :
    (∀ t ts, I64 t → 0 ≤ t → tokens test = decimal t :: ts →
      (answerValidator testCfg ansCfg test ans = .error (.exit 42) ↔ Lines t ans) ∧
      (¬ Lines t ans → answerValidator testCfg ansCfg test ans = .error (.exit 43))) ∧
    (∀ t ts, I64 t → t < 0 → tokens test = decimal t :: ts → answerValidator testCfg ansCfg test ans = .error .throw) ∧
    ((¬ ∃ t ts, I64 t ∧ tokens test = decimal t :: ts) → answerValidator testCfg ansCfg test ans = .error (.exit 1)) := by
  have hword := (readsWord_integer testCfg).2 ht
  have hn : ansCfg.onFail ≠ 42 := by omega
  refine ⟨?_, ?_, ?_⟩
  · intro t ts hi h0 htok
    obtain ⟨r, hr, _⟩ := hword.2 test t _ ts htok ⟨rfl, hi⟩
    have hrun : answerValidator testCfg ansCfg test ans = (do
        let (_, s) ← Stream.manyLoop (Stream.newline ansCfg) (Stream.integerBounded ansCfg 0 100) t.toNat ans
        let s ← Stream.newline ansCfg s
        let _ ← Stream.eof ansCfg s
        GraphIO.verdict GraphIO.AC) := by
      unfold answerValidator
      rw [hr, ok_bind]
      simp only [Stream.many, Stream.checkSeparator]
      rw [if_neg (by decide), if_pos trivial, ok_bind, if_neg (by omega)]
    rw [hrun]
    have hmk : OkOrFail ansCfg (Stream.manyLoop (Stream.newline ansCfg) (Stream.integerBounded ansCfg 0 100) t.toNat ans) :=
      manyLoop_okOrFail ansCfg (newline_okOrFail ansCfg) (fun s => (integer_okOrFail ansCfg s).bind fun _ => ite_okOrFail) _ _
    have hiff : (do
        let (_, s) ← Stream.manyLoop (Stream.newline ansCfg) (Stream.integerBounded ansCfg 0 100) t.toNat ans
        let s ← Stream.newline ansCfg s
        let _ ← Stream.eof ansCfg s
        GraphIO.verdict GraphIO.AC : Out Unit) = .error (.exit 42) ↔ Lines t ans := by
      rw [bind_exit_iff hmk hn]
      have hstrict := manyLoop_strict (c := '\n') (.inr (.inr (.inl rfl))) (newline_strict hs) (strict_integerBounded hs 0 100)
      constructor
      · rintro ⟨⟨vs, s1⟩, h1, h⟩
        simp only [] at h
        rw [bind_exit_iff (newline_okOrFail ansCfg _) hn] at h
        obtain ⟨s2, h2, h⟩ := h
        rw [bind_exit_iff (eof_okOrFail ansCfg _) hn] at h
        obtain ⟨s3, h3, _⟩ := h
        have e2 := (newline_strict hs _ _).1 h2
        obtain ⟨rfl, _⟩ := (eof_strict hs _ _).1 h3
        rw [hstrict] at h1
        obtain ⟨hlen, texts, h4, h5, _⟩ := h1
        refine ⟨vs, by omega, ?_, ?_⟩
        · intro v hv
          obtain ⟨x, hx⟩ := forall2_mem h4 hv
          exact hx.2.2
        · have : texts = vs.map decimal := by
            clear hlen h5 hr hrun hmk
            induction h4 with
            | nil => rfl
            | cons h _ ih => rw [List.map_cons, h.1, ih]
          rw [h5, e2, this]
      · rintro ⟨vs, hlen, hv, rfl⟩
        refine ⟨(vs, ['\n']), ?_, ?_⟩
        · rw [hstrict]
          refine ⟨by omega, vs.map decimal, ?_, rfl, fun _ => .inr ⟨_, _, rfl, .inr (.inr (.inl rfl))⟩⟩
          clear hlen hmk hrun
          induction vs with
          | nil => exact .nil
          | cons v vs ih =>
            refine .cons ⟨rfl, ?_, hv v (by simp)⟩ (ih fun w hw => hv w (by simp [hw]))
            have := hv v (by simp)
            constructor <;> omega
        · simp only []
          rw [(newline_strict hs _ _).2 rfl, ok_bind, (eof_strict hs _ _).2 ⟨rfl, rfl⟩, ok_bind]
          rfl
    refine ⟨hiff, fun h => ?_⟩
    have hl : ansCfg.onFail ∈ [42, ansCfg.onFail] := by simp
    have hex : ExitsWith [42, ansCfg.onFail] (do
        let (_, s) ← Stream.manyLoop (Stream.newline ansCfg) (Stream.integerBounded ansCfg 0 100) t.toNat ans
        let s ← Stream.newline ansCfg s
        let _ ← Stream.eof ansCfg s
        GraphIO.verdict GraphIO.AC) :=
      .bind hmk hl fun _ _ => .bind (newline_okOrFail ansCfg _) hl fun _ _ => .bind (eof_okOrFail ansCfg _) hl fun _ _ => ⟨42, by simp, rfl⟩
    obtain ⟨n, hn', he⟩ := hex
    rcases List.mem_cons.1 hn' with rfl | hn'
    · exact absurd (hiff.1 he) h
    · rw [he, List.mem_singleton.1 hn', hf]
  · intro t ts hi h0 htok
    obtain ⟨r, hr, _⟩ := hword.2 test t _ ts htok ⟨rfl, hi⟩
    unfold answerValidator
    rw [hr, ok_bind]
    simp only [Stream.many, Stream.checkSeparator]
    rw [if_neg (by decide), if_pos trivial, ok_bind, if_pos h0]
    rfl
  · intro h
    unfold answerValidator
    rcases integer_okOrFail testCfg test with ⟨⟨t, r⟩, hr⟩ | hr
    · obtain ⟨_, ⟨rfl, hi⟩, htok⟩ := hword.1 test t r hr
      exact absurd ⟨t, _, hi, htok⟩ h
    · rw [hr, ← htf]; rfl

/-- A stream of the jury. -/
def juryCfg : StreamCfg := { spaceSensitive := false, caseSensitive := true, defaultLower := true, onFail := 1 }

example : answerValidator juryCfg strictCfg "2 x".toList "5\n17\n".toList = .error (.exit 42) := by decide +kernel
example : answerValidator juryCfg strictCfg "2 x".toList "5\n".toList = .error (.exit 43) := by decide +kernel
example : answerValidator juryCfg strictCfg "0".toList "\n".toList = .error (.exit 42) := by decide +kernel

/-! ## Output validator and interactor -/

private theorem impossible_token : Token impossible := ⟨by decide, by decide⟩

private theorem impossible_visible (cs : Bool) (t : List Char) (h : SameWord cs t impossible) : StrictToken t := by
  have hv : ∀ x y : Char, SameLetter x y → 97 ≤ y.toNat ∧ y.toNat ≤ 122 → Visible x := by
    intro x y h
    cases h with
    | refl => intro h; exact ⟨by omega, by omega⟩
    | lu i => intro _; revert i; unfold Visible; decide
    | ul i => intro _; revert i; unfold Visible; decide
  have hall : List.Forall₂ (fun x _ => Visible x) t impossible := by
    have himp : ∀ y ∈ impossible, 97 ≤ y.toNat ∧ y.toNat ≤ 122 := by decide
    have h' : List.Forall₂ SameLetter t impossible := by
      unfold SameWord at h
      cases cs with
      | true =>
        rw [if_pos rfl] at h
        rw [h]
        exact List.forall₂_same.2 fun c _ => .refl c
      | false => simpa using h
    generalize impossible = e at h' himp
    clear h
    induction h' with
    | nil => exact .nil
    | cons h _ ih => exact .cons (hv _ _ h (himp _ (by simp))) (ih fun y hy => himp y (by simp [hy]))
  have hvis : ∀ c ∈ t, Visible c := by
    intro c hc
    obtain ⟨_, h⟩ := forall2_mem hall hc
    exact h
  have hlen := hall.length_eq
  cases t with
  | nil => exact absurd hlen (by decide)
  | cons c t => exact ⟨⟨by simp, fun x hx => visible_not_white (hvis x hx)⟩, c, t, rfl, hvis c (by simp)⟩

private theorem noAnswer_spec (cfg : StreamCfg) (hf : cfg.onFail = 43) (team : List Char) :
    (noAnswer cfg team = .error (.exit 42) ↔ OneWord cfg.spaceSensitive (fun t => SameWord cfg.caseSensitive t impossible) team) ∧
    ExitsWith [42, 43] (noAnswer cfg team) := by
  have hn : cfg.onFail ≠ 42 := by omega
  have hex : OkOrFail cfg (Stream.expectString cfg impossible team) := by
    unfold Stream.expectString
    rw [(isToken_iff _).2 impossible_token, judgeAssert_true, ok_bind]
    exact (string_okOrFail cfg _).bind fun _ => ite_okOrFail
  have hl : cfg.onFail ∈ [42, 43] := by rw [hf]; simp
  constructor
  · rw [← readsWord_end (readsWord_expect cfg impossible impossible_token (impossible_visible _)) team ()]
    unfold noAnswer
    rw [bind_exit_iff hex hn]
    constructor
    · rintro ⟨r1, h1, h⟩
      rw [bind_exit_iff (newline_okOrFail cfg _) hn] at h
      obtain ⟨r2, h2, h⟩ := h
      rw [bind_exit_iff (eof_okOrFail cfg _) hn] at h
      obtain ⟨r3, h3, _⟩ := h
      exact ⟨r1, r2, r3, (expectUnit_ok ..).2 h1, h2, h3⟩
    · rintro ⟨r1, r2, r3, h1, h2, h3⟩
      refine ⟨r1, (expectUnit_ok ..).1 h1, ?_⟩
      rw [h2, ok_bind, h3, ok_bind]; rfl
  · unfold noAnswer
    exact .bind hex hl fun _ _ => .bind (newline_okOrFail cfg _) hl fun _ _ => .bind (eof_okOrFail cfg _) hl fun _ _ => ⟨42, by simp, rfl⟩

/-- The first word is a number of which the double cannot be represented. -/
def HugeAnswer (space : Bool) (s : List Char) : Prop :=
  ∃ (a : Int) (rest : List Char), I64 a ∧ ¬ I64 (2 * a) ∧ if space then s = decimal a ++ '\n' :: rest else tokens s = decimal a :: tokens rest

private theorem someAnswer_spec (cfg : StreamCfg) (hf : cfg.onFail = 43) (n : Int) (hni : I64 n) (team : List Char) :
    (someAnswer cfg n team = .error (.exit 42) ↔ ∃ a, 2 * a = n ∧ OneWord cfg.spaceSensitive (fun t => t = decimal a) team) ∧
    (¬ HugeAnswer cfg.spaceSensitive team → ExitsWith [42, 43] (someAnswer cfg n team)) ∧
    (HugeAnswer cfg.spaceSensitive team → someAnswer cfg n team = .error .ub) := by
  have hn : cfg.onFail ≠ 42 := by omega
  have hl : cfg.onFail ∈ [42, 43] := by rw [hf]; simp
  have hword := readsWord_integer cfg
  refine ⟨?_, ?_, ?_⟩
  · unfold someAnswer
    rw [bind_exit_iff (integer_okOrFail cfg team) hn]
    constructor
    · rintro ⟨⟨a, r1⟩, h1, h⟩
      simp only [] at h
      rw [bind_exit_iff (newline_okOrFail cfg _) hn] at h
      obtain ⟨r2, h2, h⟩ := h
      by_cases ha : I64 (2 * a)
      · rw [chk_ok ha, ok_bind] at h
        by_cases hd : 2 * a = n
        · rw [if_neg (by simpa using hd), bind_exit_iff (eof_okOrFail cfg _) hn] at h
          obtain ⟨r3, h3, _⟩ := h
          obtain ⟨t, ht, h'⟩ := (readsWord_end hword team a).1 ⟨r1, r2, r3, h1, h2, h3⟩
          exact ⟨a, hd, t, ht.1, h'⟩
        · rw [if_pos hd] at h
          exact absurd h (by simp [GraphIO.verdict, GraphIO.WA])
      · unfold chk at h
        rw [if_neg ha] at h
        exact absurd h (by simp [error_bind])
    · rintro ⟨a, hd, t, rfl, h'⟩
      have hi : I64 a := by unfold I64 at *; constructor <;> omega
      obtain ⟨r1, r2, r3, h1, h2, h3⟩ := (readsWord_end hword team a).2 ⟨_, ⟨rfl, hi⟩, h'⟩
      refine ⟨(a, r1), h1, ?_⟩
      simp only []
      rw [h2, ok_bind, chk_ok (by rw [hd]; exact hni), ok_bind, if_neg (by simpa using hd), h3, ok_bind]
      rfl
  · intro hh
    unfold someAnswer
    refine .bind (integer_okOrFail cfg team) hl fun ⟨a, r1⟩ h1 => .bind (newline_okOrFail cfg _) hl fun r2 h2 => ?_
    by_cases ha : I64 (2 * a)
    · rw [chk_ok ha, ok_bind]
      split
      · exact ⟨43, by simp, rfl⟩
      · exact .bind (eof_okOrFail cfg _) hl fun _ _ => ⟨42, by simp, rfl⟩
    · exfalso
      apply hh
      unfold HugeAnswer
      cases hs : cfg.spaceSensitive with
      | true =>
        obtain ⟨t, e, ⟨rfl, hi⟩, _⟩ := (hword.1 hs _ _ _).1 h1
        have e2 := (newline_strict hs _ _).1 h2
        exact ⟨a, r2, hi, ha, by simp only [if_true]; rw [e, e2]⟩
      | false =>
        obtain ⟨t, ⟨rfl, hi⟩, e⟩ := (hword.2 hs).1 _ _ _ h1
        exact ⟨a, r1, hi, ha, by simpa using e⟩
  · rintro ⟨a, rest, hi, ha, h⟩
    have hread : ∃ r1 r2, Stream.integer cfg team = .ok (a, r1) ∧ Stream.newline cfg r1 = .ok r2 := by
      cases hs : cfg.spaceSensitive with
      | true =>
        rw [hs, if_pos rfl] at h
        exact ⟨_, rest, (hword.1 hs _ _ _).2 ⟨_, h, ⟨rfl, hi⟩, .inr ⟨_, _, rfl, .inr (.inr (.inl rfl))⟩⟩, (newline_strict hs _ _).2 rfl⟩
      | false =>
        rw [hs] at h
        obtain ⟨r, h1, _⟩ := (hword.2 hs).2 team a _ _ (by simpa using h) ⟨rfl, hi⟩
        exact ⟨r, r, h1, newline_loose hs r⟩
    obtain ⟨r1, r2, h1, h2⟩ := hread
    unfold someAnswer
    rw [h1, ok_bind]
    simp only []
    rw [h2, ok_bind]
    unfold chk
    rw [if_neg ha]
    rfl

/-- **C87.** example/outputValidator.cpp accepts iff the answer of the jury starts with `impossible` and the team writes just this word, or the
answer of the jury starts with another word, the test starts with a number and the team writes just one half of it.  Everything else gets the
verdict for wrong answers, unless the files of the jury are broken, or the team writes a number so large that doubling it overflows. -/
theorem C87_output_partial (testCfg juryCfg teamCfg : StreamCfg) (ht : testCfg.spaceSensitive = false) (htf : testCfg.onFail = 1)
    (hj : juryCfg.spaceSensitive = false) (hjf : juryCfg.onFail = 1) (hf : teamCfg.onFail = 43) (hcs : juryCfg.caseSensitive = teamCfg.caseSensitive)
    (test jury team : List Char) :
    (outputValidator testCfg juryCfg teamCfg test jury team = .error (.exit 42) ↔
      ∃ j js, tokens jury = j :: js ∧
        ((SameWord teamCfg.caseSensitive j impossible ∧ OneWord teamCfg.spaceSensitive (fun t => SameWord teamCfg.caseSensitive t impossible) team) ∨
        (¬ SameWord teamCfg.caseSensitive j impossible ∧ ∃ n ns a, I64 n ∧ tokens test = decimal n :: ns ∧ 2 * a = n ∧
          OneWord teamCfg.spaceSensitive (fun t => t = decimal a) team))) ∧
    ((∃ j js, tokens jury = j :: js) → (∃ n ns, I64 n ∧ tokens test = decimal n :: ns) → ¬ HugeAnswer teamCfg.spaceSensitive team →
      ExitsWith [42, 43] (outputValidator testCfg juryCfg teamCfg test jury team)) := by
  have hstr := string_loose hj jury
  have hword := (readsWord_integer testCfg).2 ht
  have hcond : ∀ j, (stringEqual juryCfg.defaultLower (foldOf juryCfg j) impossible juryCfg.caseSensitive).value = true ↔
      SameWord teamCfg.caseSensitive j impossible := by
    intro j
    rw [stringEqual_fold, fold_same, hcs]
  constructor
  · rcases hstr with ⟨h1, h2⟩ | ⟨j, js, r, h1, _, h3, _⟩
    · constructor
      · intro h
        unfold outputValidator at h
        rw [h2] at h
        have : (Except.error (.exit juryCfg.onFail) : Out Unit) = .error (.exit 42) := h
        rw [hjf] at this
        exact absurd this (by simp)
      · rintro ⟨j, js, h, _⟩; rw [h1] at h; cases h
    · have hrun : outputValidator testCfg juryCfg teamCfg test jury team =
          if (stringEqual juryCfg.defaultLower (foldOf juryCfg j) impossible juryCfg.caseSensitive).value then noAnswer teamCfg team else (do
            let (n, _) ← Stream.integer testCfg test
            someAnswer teamCfg n team) := by
        unfold outputValidator
        rw [h3, ok_bind]
      rw [hrun]
      by_cases hc : SameWord teamCfg.caseSensitive j impossible
      · rw [if_pos ((hcond j).2 hc), (noAnswer_spec teamCfg hf team).1]
        constructor
        · intro h; exact ⟨j, js, h1, .inl ⟨hc, h⟩⟩
        · rintro ⟨j', js', h', h | h⟩
          · exact h.2
          · rw [h1] at h'
            simp only [List.cons.injEq] at h'
            exact absurd hc (h'.1 ▸ h.1)
      · rw [if_neg (fun h => hc ((hcond j).1 h)), bind_exit_iff (integer_okOrFail testCfg test) (by omega)]
        constructor
        · rintro ⟨⟨n, r'⟩, h4, h⟩
          simp only [] at h
          obtain ⟨t, ⟨rfl, hi⟩, htok⟩ := hword.1 test n r' h4
          obtain ⟨a, ha, h⟩ := (someAnswer_spec teamCfg hf n hi team).1.1 h
          exact ⟨j, js, h1, .inr ⟨hc, n, _, a, hi, htok, ha, h⟩⟩
        · rintro ⟨j', js', h', h | ⟨_, n, ns, a, hi, htok, ha, h⟩⟩
          · rw [h1] at h'
            simp only [List.cons.injEq] at h'
            exact absurd (h'.1 ▸ h.1) hc
          · obtain ⟨r', h4, _⟩ := hword.2 test n _ ns htok ⟨rfl, hi⟩
            exact ⟨(n, r'), h4, (someAnswer_spec teamCfg hf n hi team).1.2 ⟨a, ha, h⟩⟩
  · rintro ⟨j, js, h1⟩ ⟨n, ns, hi, htok⟩ hh
    rcases hstr with ⟨h1', _⟩ | ⟨j', js', r, _, _, h3, _⟩
    · rw [h1] at h1'; cases h1'
    unfold outputValidator
    rw [h3, ok_bind]
    simp only []
    split
    · exact (noAnswer_spec teamCfg hf team).2
    · obtain ⟨r', h4, _⟩ := hword.2 test n _ ns htok ⟨rfl, hi⟩
      rw [h4, ok_bind]
      exact (someAnswer_spec teamCfg hf n hi team).2.1 hh

/-- A stream of the team. -/
def teamCfg : StreamCfg := { spaceSensitive := false, caseSensitive := true, defaultLower := true, onFail := 43 }

/-- **C87 (refuted).** A team that writes 4611686018427387904 makes example/outputValidator.cpp overflow. -/
theorem C87_output_overflow_refuted : outputValidator juryCfg juryCfg teamCfg "6".toList "3".toList "4611686018427387904".toList = .error .ub := by
  decide +kernel

example : outputValidator juryCfg juryCfg teamCfg "6".toList "3".toList " 3 ".toList = .error (.exit 42) := by decide +kernel
example : outputValidator juryCfg juryCfg teamCfg "6".toList "3".toList "4".toList = .error (.exit 43) := by decide +kernel
example : outputValidator juryCfg juryCfg teamCfg "7".toList "impossible".toList "impossible".toList = .error (.exit 42) := by decide +kernel

/-- **C87.** example/interactor.cpp sends the number of the test in its own line.  If the number is even it accepts exactly the word
`impossible`.  If it is odd it accepts nothing (refuted, see `C87_interactor_refuted`). -/
theorem C87_interactor_partial (testCfg teamCfg : StreamCfg) (ht : testCfg.spaceSensitive = false) (hf : teamCfg.onFail = 43)
    (test team : List Char) (n : Int) (ns : List (List Char)) (hi : I64 n) (htok : tokens test = decimal n :: ns) :
    (interactor testCfg teamCfg test team).1 = decimal n ++ ['\n'] ∧
    (n % 2 = 0 → ((interactor testCfg teamCfg test team).2 = .error (.exit 42) ↔
      OneWord teamCfg.spaceSensitive (fun t => SameWord teamCfg.caseSensitive t impossible) team) ∧
      ExitsWith [42, 43] (interactor testCfg teamCfg test team).2) := by
  obtain ⟨r, hr, _⟩ := ((readsWord_integer testCfg).2 ht).2 test n _ ns htok ⟨rfl, hi⟩
  unfold interactor
  rw [hr]
  refine ⟨by simp [write, printInt_eq], fun h0 => ?_⟩
  simp only []
  rw [if_pos (by rw [Int.tmod_eq_emod]; split <;> omega)]
  exact noAnswer_spec teamCfg hf team

/-- **C87 (refuted).** If the number is odd, nothing that a team can write is accepted by example/interactor.cpp. -/
theorem C87_interactor_refuted (testCfg teamCfg : StreamCfg) (ht : testCfg.spaceSensitive = false) (hf : teamCfg.onFail = 43)
    (test team : List Char) (n : Int) (ns : List (List Char)) (hi : I64 n) (htok : tokens test = decimal n :: ns) (hodd : n % 2 = 1) :
    (interactor testCfg teamCfg test team).2 ≠ .error (.exit 42) := by
  obtain ⟨r, hr, _⟩ := ((readsWord_integer testCfg).2 ht).2 test n _ ns htok ⟨rfl, hi⟩
  unfold interactor
  rw [hr]
  simp only []
  rw [if_neg (by rw [Int.tmod_eq_emod]; split <;> omega)]
  intro h
  obtain ⟨a, ha, _⟩ := (someAnswer_spec teamCfg hf n hi team).1.1 h
  omega

example : interactor juryCfg teamCfg "4".toList "impossible\n".toList = ("4\n".toList, .error (.exit 42)) := by decide +kernel
example : interactor juryCfg teamCfg "5".toList "impossible\n".toList = ("5\n".toList, .error (.exit 43)) := by decide +kernel

/-- **C87.** Two passes of example/multipassInteractor.cpp: if the test starts with the number `n`, both passes send it to the team, and if the
answers of the team start with the numbers `a` and `b`, the verdict is `AC` if they are equal and `WA` if not.  If one of them is not a number, the
answer is wrong. -/
theorem C87_multipass (testCfg teamCfg stateCfg : StreamCfg) (ht : testCfg.spaceSensitive = false) (hf : teamCfg.onFail = 43)
    (hst : stateCfg.spaceSensitive = false) (hteam : teamCfg.spaceSensitive = false) (test team₁ team₂ : List Char) (n : Int)
    (ns : List (List Char)) (hi : I64 n) (htok : tokens test = decimal n :: ns) :
    (firstPass testCfg teamCfg test team₁).1 = decimal n ++ ['\n'] ∧
    ((¬ ∃ a as, I64 a ∧ tokens team₁ = decimal a :: as) → (firstPass testCfg teamCfg test team₁).2 = .error (.exit 43)) ∧
    (∀ a as, I64 a → tokens team₁ = decimal a :: as → ∃ state next, (firstPass testCfg teamCfg test team₁).2 = .ok (state, next) ∧
      (laterPass testCfg teamCfg stateCfg next team₂ state).1 = decimal n ++ ['\n'] ∧
      ((¬ ∃ b bs, I64 b ∧ tokens team₂ = decimal b :: bs) → (laterPass testCfg teamCfg stateCfg next team₂ state).2 = .error (.exit 43)) ∧
      (∀ b bs, I64 b → tokens team₂ = decimal b :: bs →
        (laterPass testCfg teamCfg stateCfg next team₂ state).2 = .error (.exit (if a = b then 42 else 43)))) := by
  have hwt := (readsWord_integer testCfg).2 ht
  have hwm := (readsWord_integer teamCfg).2 hteam
  have hws := (readsWord_integer stateCfg).2 hst
  have hline : ∀ v, tokens (decimal v ++ ['\n']) = [decimal v] := by
    intro v
    rw [(C33_tokens_spec []).2.2.1 (decimal v) ['\n'] (decimal_strict v).1 (.inr ⟨_, _, rfl, .inr (.inr (.inl rfl))⟩)]
    congr 1
  have hno : ∀ team : List Char, (¬ ∃ a as, I64 a ∧ tokens team = decimal a :: as) → Stream.integer teamCfg team = .error (.exit 43) := by
    intro team h
    rcases integer_okOrFail teamCfg team with ⟨⟨a, r⟩, e⟩ | e
    · obtain ⟨_, ⟨rfl, ha⟩, he⟩ := hwm.1 team a r e
      exact absurd ⟨a, _, ha, he⟩ h
    · rw [e, ← hf]; rfl
  obtain ⟨r, hr, _⟩ := hwt.2 test n _ ns htok ⟨rfl, hi⟩
  have hfirst : firstPass testCfg teamCfg test team₁ = (decimal n ++ ['\n'], do
      let (ans, _) ← Stream.integer teamCfg team₁
      .ok (decimal ans ++ ['\n'], decimal n ++ ['\n'])) := by
    unfold firstPass
    rw [hr]
    simp only [write, printInt_eq]
  refine ⟨by rw [hfirst], fun h => by rw [hfirst]; simp only []; rw [hno _ h]; rfl, fun a as ha hta => ?_⟩
  obtain ⟨r1, hr1, _⟩ := hwm.2 team₁ a _ as hta ⟨rfl, ha⟩
  refine ⟨decimal a ++ ['\n'], decimal n ++ ['\n'], by rw [hfirst]; simp only []; rw [hr1, ok_bind], ?_⟩
  obtain ⟨r2, hr2, _⟩ := hwt.2 _ n _ [] (hline n) ⟨rfl, hi⟩
  obtain ⟨r3, hr3, _⟩ := hws.2 _ a _ [] (hline a) ⟨rfl, ha⟩
  have hlater : laterPass testCfg teamCfg stateCfg (decimal n ++ ['\n']) team₂ (decimal a ++ ['\n']) = (decimal n ++ ['\n'], do
      let (cur, _) ← Stream.integer teamCfg team₂
      if cur = a then GraphIO.verdict GraphIO.AC else GraphIO.verdict GraphIO.WA) := by
    unfold laterPass
    rw [hr2]
    simp only [write, printInt_eq, hr3, ok_bind]
  rw [hlater]
  refine ⟨rfl, fun h => by simp only []; rw [hno _ h]; rfl, fun b bs hb htb => ?_⟩
  obtain ⟨r4, hr4, _⟩ := hwm.2 team₂ b _ bs htb ⟨rfl, hb⟩
  simp only []
  rw [hr4, ok_bind]
  simp only []
  by_cases hab : b = a
  · rw [if_pos hab, if_pos hab.symm]; rfl
  · rw [if_neg hab, if_neg (fun h => hab h.symm)]; rfl

example : firstPass juryCfg teamCfg "4".toList "8 9".toList = ("4\n".toList, .ok ("8\n".toList, "4\n".toList)) := by decide +kernel
example : (laterPass juryCfg teamCfg juryCfg "4\n".toList "8".toList "8\n".toList).2 = .error (.exit 42) := by decide +kernel
example : (laterPass juryCfg teamCfg juryCfg "4\n".toList "9".toList "8\n".toList).2 = .error (.exit 43) := by decide +kernel

/-! ## Generator -/

/-- **C87.** example/generator.cpp writes its argument `n` in one line and `n` different numbers of [0, 10) in the next one.  An argument that is not in [0, 10] is an exception. -/
theorem C87_generator (arg : Option (List Char)) (n : Int) (harg : asInteger arg = .ok n) :
    (0 ≤ n → n ≤ 10 → SatOk (generator arg) fun text => ∃ data : List Int, (data.length : Int) = n ∧ AllDifferent data ∧
      (∀ y ∈ data, 0 ≤ y ∧ y < 10) ∧ text = decimal n ++ '\n' :: (separate [' '] (data.map decimal) ++ ['\n'])) ∧
    (I64 n → n < 0 ∨ 10 < n → generator arg = .done (.error .throw)) := by
  have hrun : generator arg = (distinct n 0 10 >>= fun data =>
      pure (write (.int n) ++ ['\n'] ++ joinRange DEFAULT_SEPARATOR (data.map fun v => write (.int v)) ++ ['\n'])) := by
    unfold generator
    rw [harg]; rfl
  constructor
  · intro h0 h10
    rw [hrun]
    refine (C04_distinct n 0 10 (by decide) (by decide) h0 (by omega)).bind ?_
    rintro data ⟨h1, h2, h3⟩
    refine satOk_done ⟨data, by omega, h2, h3, ?_⟩
    rw [C41_join, if_neg (by decide)]
    simp [write, printInt_eq, DEFAULT_SEPARATOR]
  · intro hi hbad
    rw [hrun, C04_distinct_throws_partial n 0 10 (by simpa using hi) (by omega)]
    rfl

/-- **C87.** Without a number there is an exception. -/
theorem C87_generator_throws (arg : Option (List Char)) (e : Stop) (harg : asInteger arg = .error e) : generator arg = .done (.error e) := by
  unfold generator
  rw [harg]; rfl

example : (generator (some ['3'])).run true [1, 2, 3] = some (.ok "3\n0 9 8\n".toList, []) := by decide +kernel

end ICPC.Props
