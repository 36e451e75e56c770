import Verif.Spec.Sources
import Verif.Lemmas.Calls
import Verif.Props.Init
import Verif.Props.Input

/-!
# C111: the end of a validator always has a culprit
-/

namespace ICPC

open Spec Init

variable {ι R : Type}

theorem judgeToken {e : List Char} (h : ¬ Token e) : judgeAssert (isToken e) = .error .throw := by
  have : isToken e = false := by
    rw [Bool.eq_false_iff]; intro hh; exact h ((isToken_iff e).1 hh)
  rw [this]; rfl

theorem call_misuse (cfg : StreamCfg) (ops : RealOps R) {c : Call R} (h : Misuse c) (s : List Char) : c.run cfg ops s = .error .throw := by
  cases h with
  | separator t n sep h1 h2 =>
    show Stream.many cfg _ n sep s = _
    rw [Stream.many, Stream.checkSeparator, if_neg h1, if_neg h2]; rfl
  | negative t n sep h1 =>
    show Stream.many cfg _ n sep s = _
    rw [Stream.many]
    unfold Stream.checkSeparator
    by_cases h2 : sep = ' '
    · rw [if_pos h2, ok_bind, if_pos h1]
    · by_cases h3 : sep = '\n'
      · rw [if_neg h2, if_pos h3, ok_bind, if_pos h1]
      · rw [if_neg h2, if_neg h3]; rfl
  | expected e h1 =>
    show noVal (Stream.expectString cfg e s) = _
    rw [Stream.expectString, judgeToken h1]; rfl

theorem noVal_okOrFail {cfg : StreamCfg} {x : Out (List Char)} (h : OkOrFail cfg x) : OkOrFail cfg (noVal x : Out (List (Val R) × List Char)) :=
  h.bind fun _ => .ok cfg _

theorem call_okOrFail (cfg : StreamCfg) (ops : RealOps R) {c : Call R} (h : ¬ Misuse c) (s : List Char) : OkOrFail cfg (c.run cfg ops s) := by
  cases c with
  | tok t => exact (tok_okOrFail cfg ops t s).bind fun _ => .ok cfg _
  | many t n sep =>
    show OkOrFail cfg (Stream.many cfg (t.run cfg ops) n sep s)
    have hn : ¬ n < 0 := fun hn => h (.negative t n sep hn)
    rw [Stream.many]
    unfold Stream.checkSeparator
    by_cases h2 : sep = ' '
    · rw [if_pos h2, ok_bind, if_neg hn]
      exact manyLoop_okOrFail cfg (space_okOrFail cfg) (tok_okOrFail cfg ops t) _ _
    · by_cases h3 : sep = '\n'
      · rw [if_neg h2, if_pos h3, ok_bind, if_neg hn]
        exact manyLoop_okOrFail cfg (newline_okOrFail cfg) (tok_okOrFail cfg ops t) _ _
      · exact absurd (.separator t n sep h2 h3) h
  | expectString e =>
    have he : Token e := by
      by_contra he; exact h (.expected e he)
    refine noVal_okOrFail ?_
    rw [Stream.expectString, (isToken_iff e).2 he, judgeAssert_true, ok_bind]
    exact (string_okOrFail cfg s).bind fun _ => ite_okOrFail
  | expectInt e => exact noVal_okOrFail ((integer_okOrFail cfg s).bind fun _ => ite_okOrFail)
  | expectReal e => exact noVal_okOrFail ((real_okOrFail cfg ops s).bind fun _ => ite_okOrFail)
  | space => exact noVal_okOrFail (space_okOrFail cfg s)
  | newline => exact noVal_okOrFail (newline_okOrFail cfg s)
  | eof => exact noVal_okOrFail (eof_okOrFail cfg s)

end ICPC

namespace ICPC.Props

open Spec Init

variable {ι R : Type} [DecidableEq ι]

/-- **C111**, calls: a misused function throws whatever the text is; every other call returns or ends with the verdict of its
stream. -/
theorem C111_call (cfg : StreamCfg) (ops : RealOps R) (c : Call R) :
    (Misuse c → ∀ s, c.run cfg ops s = .error .throw) ∧
    (¬ Misuse c → ∀ s, (∃ v rest, c.run cfg ops s = .ok (v, rest)) ∨ c.run cfg ops s = .error (.exit cfg.onFail)) := by
  refine ⟨fun h s => call_misuse cfg ops h s, fun h s => ?_⟩
  rcases call_okOrFail cfg ops h s with ⟨⟨v, r⟩, h⟩ | h
  · exact .inl ⟨v, r, h⟩
  · exact .inr h

/-- The rest of the run after a point that was reached. -/
theorem Reaches.run_eq {cfg : ι → StreamCfg} {ops : ι → RealOps R} {p q : MProg ι R} {s s' : ι → List Char} (h : Reaches cfg ops p s q s') :
    p.run cfg ops s = q.run cfg ops s' := by
  induction h with
  | here => rfl
  | step i c k s s1 s2 v q h1 h2 _ ih =>
    rw [← ih, MProg.run, h1, ok_bind]
    dsimp only
    congr 1
    funext j
    by_cases hj : j = i
    · rw [if_pos hj, hj]
    · rw [if_neg hj, h2 j hj]

/-- **C111**, accepting: a program ends normally iff it comes to its own end. -/
theorem C111_ok (cfg : ι → StreamCfg) (ops : ι → RealOps R) (p : MProg ι R) (s s' : ι → List Char) :
    p.run cfg ops s = .ok s' ↔ Reaches cfg ops p s (.done (.ok ())) s' := by
  constructor
  · intro h
    induction p generalizing s with
    | done r =>
      cases r with
      | error e => cases h
      | ok u => cases h; exact .here _ _
    | call i c k ih =>
      rw [MProg.run] at h
      obtain ⟨⟨v, rest⟩, h1, h2⟩ := bind_eq_ok.1 h
      exact .step i c k s _ _ v _ (by rw [h1, if_pos rfl]) (fun j hj => if_neg hj) (ih v _ h2)
  · intro h
    rw [Reaches.run_eq h]; rfl

/-- **C111**: a program does not end normally iff it comes to a point where it ends itself with this error, where it misuses a
function (an exception), or where a stream does not contain what the program asks for (the verdict of this stream).  There is
no other end: no undefined behaviour and no endless loop of the library, and no exception that depends on the texts. -/
theorem C111_error (cfg : ι → StreamCfg) (ops : ι → RealOps R) (p : MProg ι R) (s : ι → List Char) (e : Stop) :
    p.run cfg ops s = .error e ↔ ∃ q s', Reaches cfg ops p s q s' ∧
      (q = .done (.error e) ∨ (e = .throw ∧ Misused q) ∨ ∃ i, e = .exit (cfg i).onFail ∧ Rejected cfg ops q s' i) := by
  constructor
  · intro h
    induction p generalizing s with
    | done r =>
      refine ⟨_, s, .here _ _, .inl ?_⟩
      cases r with
      | error e' => cases h; rfl
      | ok u => cases h
    | call i c k ih =>
      by_cases hm : Misuse c
      · refine ⟨_, s, .here _ _, .inr (.inl ⟨?_, i, c, k, rfl, hm⟩)⟩
        rw [MProg.run, call_misuse _ _ hm] at h
        cases h; rfl
      · rcases (C111_call (cfg i) (ops i) c).2 hm (s i) with ⟨v, rest, h1⟩ | h1
        · rw [MProg.run, h1, ok_bind] at h
          obtain ⟨q, s', h2, h3⟩ := ih v _ h
          exact ⟨q, s', .step i c k s _ _ v _ (by rw [h1, if_pos rfl]) (fun j hj => if_neg hj) h2, h3⟩
        · refine ⟨_, s, .here _ _, .inr (.inr ⟨i, ?_, c, k, rfl, hm, ?_⟩)⟩
          · rw [MProg.run, h1] at h
            cases h; rfl
          · intro v rest h2; rw [h1] at h2; cases h2
  · rintro ⟨q, s', h1, h2⟩
    rw [Reaches.run_eq h1]
    rcases h2 with rfl | ⟨rfl, i, c, k, rfl, hm⟩ | ⟨i, rfl, c, k, rfl, hm, hr⟩
    · rfl
    · rw [MProg.run, call_misuse _ _ hm]; rfl
    · rcases (C111_call (cfg i) (ops i) c).2 hm (s' i) with ⟨v, rest, h1⟩ | h1
      · exact absurd h1 (hr v rest)
      · rw [MProg.run, h1]; rfl

omit [DecidableEq ι] in
theorem call_suffix (cfg : StreamCfg) (ops : RealOps R) (c : Call R) (s : List Char) (v : List (Val R)) (rest : List Char)
    (h : c.run cfg ops s = .ok (v, rest)) : rest <:+ s := by
  have hn : ∀ s s', Stream.noteof cfg s = .ok s' → s' <:+ s := by
    intro s s' h
    unfold Stream.noteof at h
    dsimp only at h
    by_cases hs : (!cfg.spaceSensitive) = true
    · rw [if_pos hs] at h
      split at h
      · cases h
      · cases h; exact List.dropWhile_suffix _
    · rw [if_neg hs] at h
      split at h
      · cases h
      · cases h; exact List.suffix_refl _
  have hg : ∀ c s s', Stream.getExpect cfg c s = .ok s' → s' <:+ s := by
    intro c s s' h
    cases s with
    | nil => cases h
    | cons x s =>
      rw [Stream.getExpect] at h
      split at h
      · cases h
      · cases h; exact List.suffix_cons _ _
  have hsp : ∀ s s', Stream.space cfg s = .ok s' → s' <:+ s := by
    intro s s' h
    unfold Stream.space at h
    split at h
    · obtain ⟨a, h1, h2⟩ := bind_eq_ok.1 h
      exact (hg _ _ _ h2).trans (hn _ _ h1)
    · cases h; exact List.suffix_refl _
  have hnl : ∀ s s', Stream.newline cfg s = .ok s' → s' <:+ s := by
    intro s s' h
    unfold Stream.newline at h
    split at h
    · obtain ⟨a, h1, h2⟩ := bind_eq_ok.1 h
      exact (hg _ _ _ h2).trans (hn _ _ h1)
    · cases h; exact List.suffix_refl _
  have ht : ∀ (t : Tok R) s v s', t.run cfg ops s = .ok (v, s') → s' <:+ s := by
    intro t s v s' h
    obtain ⟨⟨w, text, h1, _⟩, _⟩ := C37_consumes cfg ops t s v s' h
    exact ⟨w ++ text, h1.symm⟩
  have hl : ∀ (sep : List Char → Out (List Char)) (t : Tok R), (∀ s s', sep s = .ok s' → s' <:+ s) →
      ∀ n s v s', Stream.manyLoop sep (t.run cfg ops) n s = .ok (v, s') → s' <:+ s := by
    intro sep t hsep n
    induction n with
    | zero => intro s v s' h; cases h; exact List.suffix_refl _
    | succ n ih =>
      cases n with
      | zero =>
        intro s v s' h
        obtain ⟨⟨a, b⟩, h1, h2⟩ := bind_eq_ok.1 h
        cases h2; exact ht t _ _ _ h1
      | succ n =>
        intro s v s' h
        obtain ⟨⟨a, b⟩, h1, h2⟩ := bind_eq_ok.1 h
        obtain ⟨b', h3, h4⟩ := bind_eq_ok.1 h2
        obtain ⟨⟨as, b''⟩, h5, h6⟩ := bind_eq_ok.1 h4
        cases h6
        exact ((ih _ _ _ h5).trans (hsep _ _ h3)).trans (ht t _ _ _ h1)
  have hv : ∀ x : Out (List Char), (noVal x : Out (List (Val R) × List Char)) = .ok (v, rest) → x = .ok rest := by
    intro x h
    obtain ⟨b, h1, h2⟩ := bind_eq_ok.1 h
    cases h2; exact h1
  have hif : ∀ (p : Prop) [Decidable p] (r r' : List Char), (if p then Stream.fail cfg else .ok r : Out (List Char)) = .ok r' → r = r' := by
    intro p _ r r' h
    split at h
    · cases h
    · cases h; rfl
  cases c with
  | tok t =>
    obtain ⟨⟨a, b⟩, h1, h2⟩ := bind_eq_ok.1 h
    cases h2; exact ht t _ _ _ h1
  | many t n sep =>
    have h : Stream.many cfg (t.run cfg ops) n sep s = .ok (v, rest) := h
    rw [Stream.many] at h
    obtain ⟨f, h1, h2⟩ := bind_eq_ok.1 h
    split at h2
    · cases h2
    · refine hl f t ?_ _ _ _ _ h2
      unfold Stream.checkSeparator at h1
      split at h1
      · cases h1; exact hsp
      · split at h1
        · cases h1; exact hnl
        · cases h1
  | expectString e =>
    obtain ⟨_, _, h2⟩ := bind_eq_ok.1 (hv _ h)
    obtain ⟨⟨a, b⟩, h3, h4⟩ := bind_eq_ok.1 h2
    have := hif _ _ _ h4
    subst this
    obtain ⟨w, text, h5, _⟩ := string_consumes cfg s _ _ h3
    exact ⟨w ++ text, h5.symm⟩
  | expectInt e =>
    obtain ⟨⟨a, b⟩, h3, h4⟩ := bind_eq_ok.1 (hv _ h)
    have := hif _ _ _ h4
    subst this
    refine ht .integer s (.int a) _ ?_
    show wrap _ (Stream.integer cfg s) = _
    rw [h3]; rfl
  | expectReal e =>
    obtain ⟨⟨a, b⟩, h3, h4⟩ := bind_eq_ok.1 (hv _ h)
    have := hif _ _ _ h4
    subst this
    refine ht .real s (.real a) _ ?_
    show wrap _ (Stream.real cfg ops s) = _
    rw [h3]; rfl
  | space => exact hsp _ _ (hv _ h)
  | newline => exact hnl _ _ (hv _ h)
  | eof =>
    have h := hv _ h
    unfold Stream.eof at h
    dsimp only at h
    by_cases hs : (!cfg.spaceSensitive) = true
    · rw [if_pos hs] at h
      split at h
      · cases h; exact List.dropWhile_suffix _
      · cases h
    · rw [if_neg hs] at h
      split at h
      · cases h; exact List.suffix_refl _
      · cases h

omit [DecidableEq ι] in
/-- **C111**, streams are independent: what is in front of a stream at any point of the run is the end of its own text, and a
stream that was not called is untouched. -/
theorem C111_suffix (cfg : ι → StreamCfg) (ops : ι → RealOps R) (p q : MProg ι R) (s s' : ι → List Char) (h : Reaches cfg ops p s q s') (i : ι) :
    s' i <:+ s i := by
  induction h with
  | here => exact List.suffix_refl _
  | step j c k s s1 s2 v q h1 h2 _ ih =>
    refine ih.trans ?_
    by_cases hj : i = j
    · subst hj; exact call_suffix _ _ _ _ _ _ h1
    · rw [h2 i hj]; exact List.suffix_refl _

/-- The streams of an output validator. -/
inductive OutputStreamName where
  | testIn
  | juryAns
  | teamAns
  deriving DecidableEq

/-- **C111**, output validators: a program whose own ends are normal or verdicts 42 and 43, that misuses no function, run with
files of the jury that contain whatever the program asks of them, accepts or gives the verdict 42 or 43, for all answers of the
team; and each verdict 43 was given by the program itself or by a function that did not find in the team's answer what it asks for. -/
theorem C111_output (parse : List Char → Option R) (eps : R) (argv : List (List Char)) (g g' : Globals R) (testIn juryAns teamAns : StreamArgs R)
    (f : Option (List Char)) (h : outputInit parse eps argv g = .ok (g', testIn, juryAns, teamAns, f)) (lower : Bool)
    (ops : OutputStreamName → RealOps R) (p : MProg OutputStreamName R) (s : OutputStreamName → List Char)
    (cfg : OutputStreamName → StreamCfg) (hcfg : cfg = fun | .testIn => testIn.cfg lower | .juryAns => juryAns.cfg lower | .teamAns => teamAns.cfg lower)
    (howns : ∀ s' e, Reaches cfg ops p s (.done (.error e)) s' → e = .exit 42 ∨ e = .exit 43)
    (huse : ∀ q s', Reaches cfg ops p s q s' → ¬ Misused q)
    (hjury : ∀ q s', Reaches cfg ops p s q s' → ¬ Rejected cfg ops q s' .testIn ∧ ¬ Rejected cfg ops q s' .juryAns) :
    ((∃ s', p.run cfg ops s = .ok s') ∨ p.run cfg ops s = .error (.exit 42) ∨ p.run cfg ops s = .error (.exit 43)) ∧
    (p.run cfg ops s = .error (.exit 43) ↔ ∃ q s', Reaches cfg ops p s q s' ∧ (q = .done (.error (.exit 43)) ∨ Rejected cfg ops q s' .teamAns)) := by
  have h43 : (cfg .teamAns).onFail = 43 := by
    rw [hcfg]; exact (C70_output_partial parse eps argv g g' testIn juryAns teamAns f h).2.2.2.2.2.2.2.1
  refine ⟨?_, ?_⟩
  · cases hr : p.run cfg ops s with
    | ok s' => exact .inl ⟨s', rfl⟩
    | error e =>
      obtain ⟨q, s', h1, h2⟩ := (C111_error cfg ops p s e).1 hr
      rcases h2 with rfl | ⟨_, h2⟩ | ⟨i, rfl, h2⟩
      · rcases howns s' e h1 with rfl | rfl
        · exact .inr (.inl rfl)
        · exact .inr (.inr rfl)
      · exact absurd h2 (huse q s' h1)
      · cases i with
        | testIn => exact absurd h2 (hjury q s' h1).1
        | juryAns => exact absurd h2 (hjury q s' h1).2
        | teamAns => rw [h43]; exact .inr (.inr rfl)
  · rw [C111_error]
    constructor
    · rintro ⟨q, s', h1, h2 | ⟨h2, _⟩ | ⟨i, _, h2⟩⟩
      · exact ⟨q, s', h1, .inl h2⟩
      · cases h2
      · refine ⟨q, s', h1, .inr ?_⟩
        cases i with
        | testIn => exact absurd h2 (hjury q s' h1).1
        | juryAns => exact absurd h2 (hjury q s' h1).2
        | teamAns => exact h2
    · rintro ⟨q, s', h1, h2 | h2⟩
      · exact ⟨q, s', h1, .inl h2⟩
      · exact ⟨q, s', h1, .inr (.inr ⟨.teamAns, by rw [h43], h2⟩)⟩

/-- The number of the jury is compared with the number of the team. -/
def compareNumbers : MProg OutputStreamName Unit :=
  .call .juryAns (.tok .integer) fun v => .call .teamAns (.tok (.integerBounded 0 100)) fun w => .call .teamAns .eof fun _ =>
    match v, w with
    | [.int a], [.int b] => if a = b then .done (.error (.exit 42)) else .done (.error (.exit 43))
    | _, _ => .done (.error .ub)

/-- The settings of the streams of an output validator without arguments for it. -/
def outputCfg : OutputStreamName → StreamCfg
  | .teamAns => { spaceSensitive := false, caseSensitive := false, defaultLower := true, onFail := 43 }
  | _ => { spaceSensitive := false, caseSensitive := false, defaultLower := true, onFail := 1 }

/-- The texts of the streams. -/
def texts (jury team : String) : OutputStreamName → List Char
  | .testIn => []
  | .juryAns => jury.toList
  | .teamAns => team.toList

/-- The end of the run. -/
def endOf (jury team : String) : Option Stop :=
  match compareNumbers.run outputCfg (fun _ => noOps) (texts jury team) with
  | .ok _ => none
  | .error e => some e

example : endOf "7" " 7\n" = some (.exit 42) := by decide +kernel
example : endOf "7" "8" = some (.exit 43) := by decide +kernel
example : endOf "7" "7 7" = some (.exit 43) := by decide +kernel
example : endOf "7" "700" = some (.exit 43) := by decide +kernel
example : endOf "seven" "7" = some (.exit 1) := by decide +kernel
/-- The assumptions of `C111_output` hold for `compareNumbers`, an answer 7 of the jury, and all answers of the team. -/
example (team : List Char) (s : OutputStreamName → List Char) (hs : s = fun | .testIn => [] | .juryAns => ['7'] | .teamAns => team) :
    (∀ s' e, Reaches outputCfg (fun _ => noOps) compareNumbers s (.done (.error e)) s' → e = .exit 42 ∨ e = .exit 43) ∧
    (∀ q s', Reaches outputCfg (fun _ => noOps) compareNumbers s q s' → ¬ Misused q) ∧
    (∀ q s', Reaches outputCfg (fun _ => noOps) compareNumbers s q s' →
      ¬ Rejected outputCfg (fun _ => noOps) q s' .testIn ∧ ¬ Rejected outputCfg (fun _ => noOps) q s' .juryAns) := by
  have h7 : (Call.tok .integer : Call Unit).run (outputCfg .juryAns) noOps (s .juryAns) = .ok ([.int 7], []) := by
    rw [hs]
    have : Stream.integer (outputCfg .juryAns) ['7'] = .ok (7, []) := by decide +kernel
    show (wrap Val.int (Stream.integer (outputCfg .juryAns) ['7']) >>= _) = _
    rw [this]; rfl
  have hreach : ∀ q s', Reaches outputCfg (fun _ => noOps) compareNumbers s q s' →
      (q = compareNumbers ∧ s' = s) ∨ (∃ c k, q = .call .teamAns c k ∧ ¬ Misuse c) ∨ q = .done (.error (.exit 42)) ∨ q = .done (.error (.exit 43)) := by
    intro q s' h
    cases h with
    | here => exact .inl ⟨rfl, rfl⟩
    | step _ _ _ _ s1 _ v _ h1 h2 h3 =>
      have hv : v = [.int 7] := by
        rw [h7] at h1
        exact (congrArg Prod.fst (Except.ok.inj h1)).symm
      subst hv
      cases h3 with
      | here => exact .inr (.inl ⟨_, _, rfl, fun h => nomatch h⟩)
      | step _ _ _ _ s2 _ w _ h4 h5 h6 =>
        obtain ⟨⟨w', rest⟩, h8, h9⟩ := bind_eq_ok.1 h4
        obtain ⟨⟨b, rest'⟩, h10, h11⟩ := bind_eq_ok.1 h8
        have hw' : w' = .int b := (congrArg Prod.fst (Except.ok.inj h11)).symm
        have hw : w = [w'] := (congrArg Prod.fst (Except.ok.inj h9)).symm
        subst hw' hw
        cases h6 with
        | here => exact .inr (.inl ⟨_, _, rfl, fun h => nomatch h⟩)
        | step _ _ _ _ s3 _ u _ h12 h13 h14 =>
          dsimp only at h14
          split at h14
          · cases h14; exact .inr (.inr (.inl rfl))
          · cases h14; exact .inr (.inr (.inr rfl))
  refine ⟨fun s' e h => ?_, fun q s' h => ?_, fun q s' h => ?_⟩
  · rcases hreach _ _ h with ⟨h, _⟩ | ⟨c, k, h, _⟩ | h | h
    · cases h
    · cases h
    · cases h; exact .inl rfl
    · cases h; exact .inr rfl
  · rintro ⟨i, c, k, rfl, hm⟩
    rcases hreach _ _ h with ⟨h, _⟩ | ⟨c', k', h, hm'⟩ | h | h
    · cases h; cases hm
    · cases h; exact hm' hm
    · cases h
    · cases h
  · rcases hreach _ _ h with ⟨rfl, rfl⟩ | ⟨c', k', rfl, hm'⟩ | rfl | rfl
    · refine ⟨(fun ⟨c, k, h, _⟩ => by cases h), fun ⟨c, k, h, _, hr⟩ => ?_⟩
      cases h; exact hr _ _ h7
    · exact ⟨(fun ⟨c, k, h, _⟩ => by cases h), (fun ⟨c, k, h, _⟩ => by cases h)⟩
    · exact ⟨(fun ⟨c, k, h, _⟩ => by cases h), (fun ⟨c, k, h, _⟩ => by cases h)⟩
    · exact ⟨(fun ⟨c, k, h, _⟩ => by cases h), (fun ⟨c, k, h, _⟩ => by cases h)⟩

example : Misuse (.many .integer 3 ',' : Call Unit) := .separator _ _ _ (by decide) (by decide)
example : ¬ Misuse (.many .integer 0 '\n' : Call Unit) := by
  intro h
  cases h with
  | separator _ _ _ _ h => exact h rfl
  | negative _ _ _ h => exact absurd h (by decide)

end ICPC.Props
