import Verif.Model.Init
import Verif.Spec.Init
import Verif.Props.Command

/-!
# The functions `init` as functions of the command line
-/

namespace ICPC.Init

open ICPC ICPC.Props Spec

/-- The argument after the first occurrence. -/
def flagValue (argv : List (List Char)) (n : List Char) : Option (List Char) := if n ∈ argv then argv[argv.idxOf n + 1]? else none

theorem valueOf_iff (argv : List (List Char)) (n v : List Char) : ValueOf argv n v ↔ flagValue argv n = some v := by
  constructor
  · rintro ⟨pre, rest, rfl, h⟩
    rw [flagValue, if_pos (by simp), List.idxOf_append_of_notMem h, List.idxOf_cons_self, List.getElem?_append_right (by omega)]
    rw [show pre.length + 0 + 1 - pre.length = 1 by omega]
    rfl
  · intro h
    rw [flagValue] at h
    split at h
    · next hm =>
      have hi : argv.idxOf n < argv.length := List.idxOf_lt_length_iff.2 hm
      obtain ⟨hj, hv⟩ := List.getElem?_eq_some_iff.1 h
      refine ⟨argv.take (argv.idxOf n), argv.drop (argv.idxOf n + 2), ?_, ?_⟩
      · have e : argv[argv.idxOf n] = n := List.getElem_idxOf hi
        conv_lhs => rw [← List.take_append_drop (argv.idxOf n) argv]
        rw [List.drop_eq_getElem_cons hi, e, List.drop_eq_getElem_cons hj, hv]
      · intro hc
        obtain ⟨k, hk, e⟩ := List.getElem_of_mem hc
        rw [List.length_take] at hk
        rw [List.getElem_take] at e
        have := List.not_of_lt_findIdx (p := (· == n)) (xs := argv) (i := k) (by simpa [List.idxOf] using (show k < argv.idxOf n by omega))
        simp [e] at this
    · simp at h

theorem split_first (argv : List (List Char)) (n : List Char) (h : n ∈ argv) :
    ∃ pre rest, argv = pre ++ n :: rest ∧ n ∉ pre ∧ flagValue argv n = rest.head? := by
  obtain ⟨pre, rest, e, hn⟩ := List.eq_append_cons_of_mem h
  refine ⟨pre, rest, e, hn, ?_⟩
  subst e
  rw [flagValue, if_pos h, List.idxOf_append_of_notMem hn, List.idxOf_cons_self, List.getElem?_append_right (by omega)]
  rw [show pre.length + 0 + 1 - pre.length = 1 by omega]
  cases rest <;> rfl

theorem getRaw_spec (argv : List (List Char)) (n : List Char) (p : CommandParser) (ht : isToken n = true) (hp : parseArgs argv = .ok p) :
    ∃ c, p.getRaw n = .ok c ∧ c.found = decide (n ∈ argv) ∧ c.token = flagValue argv n := by
  rw [parseArgs_spec] at hp
  by_cases hnd : (argv.filter isCommand).Nodup
  · rw [if_pos hnd] at hp
    obtain rfl := Except.ok.inj hp
    have hl := (tokenMap_lookup n argv 0 []).2 rfl
    by_cases hm : n ∈ argv
    · obtain ⟨pre, rest, e, hn, hv⟩ := split_first argv n hm
      rw [if_pos hm] at hl
      have hi : argv.idxOf n = pre.length := by rw [e, List.idxOf_append_of_notMem hn, List.idxOf_cons_self]; omega
      have hd : argv.drop (pre.length + 1) = rest ++ [] := by
        rw [e, ← List.drop_drop, List.drop_left]; simp
      obtain ⟨c, hc, h1, h2, h4, h3, _⟩ := make_spec _ _ _ _ hd
      refine ⟨c, ?_, by simp [hm, h1], by rw [h4, hv]⟩
      simp only [CommandParser.getRaw, ht, judgeAssert_true, ok_bind, hl]
      rw [← hc]
      congr 1
      · omega
      · rw [hi, e]; simp; omega
    · rw [if_neg hm] at hl
      refine ⟨Command.missing argv, ?_, by simp [hm, Command.missing], by simp [flagValue, hm, Command.missing]⟩
      simp only [CommandParser.getRaw, ht, judgeAssert_true, ok_bind, hl]
  · rw [if_neg hnd] at hp; cases hp

/-- `arguments[command]` of a command that is not given, and the argument after it otherwise. -/
theorem get_spec (argv : List (List Char)) (n : List Char) (p : CommandParser) (hne : n ≠ []) (hw : ∀ c ∈ n, ¬ White c) (hc : IsCmd n)
    (hp : parseArgs argv = .ok p) :
    ∃ c, p.get n = .ok c ∧ c.found = decide (n ∈ argv) ∧
      c.token = (flagValue argv n).bind fun v => if isCommand v then none else some v := by
  by_cases hm : n ∈ argv
  · obtain ⟨pre, rest, e, hn, hv⟩ := split_first argv n hm
    have hsplit : rest = rest.takeWhile (fun s => !isCommand s) ++ rest.dropWhile (fun s => !isCommand s) := List.takeWhile_append_dropWhile.symm
    have ha : ArgumentsOf (rest.takeWhile fun s => !isCommand s) (rest.dropWhile fun s => !isCommand s) := by
      constructor
      · intro a ha hcmd
        have := List.all_takeWhile (p := fun s => !isCommand s) (l := rest)
        have := List.all_eq_true.1 this a ha
        rw [(isCommand_iff a).2 hcmd] at this
        cases this
      · cases hd : rest.dropWhile (fun s => !isCommand s) with
        | nil => exact .inl rfl
        | cons m r =>
          refine .inr ⟨m, r, rfl, (isCommand_iff m).1 ?_⟩
          have := List.head_dropWhile_not (fun s => !isCommand s) (l := rest) (by rw [hd]; simp)
          simpa [hd] using this
    rw [e, hsplit] at hp
    obtain ⟨c, h1, h2, _, h4, _⟩ := C39_arguments pre _ _ n p hc hw ha hp
    refine ⟨c, h1, by simp [h2, hm], ?_⟩
    rw [h4, hv]
    cases rest with
    | nil => rfl
    | cons a r =>
      rw [List.takeWhile_cons]
      cases hcm : isCommand a <;> simp [hcm]
  · obtain ⟨c, h1, h2, h3, _, _, h6, _⟩ := C39_missing argv n p hne hw (fun h => hm h.2) hp
    refine ⟨c, h1, by simp [h2, hm], ?_⟩
    rw [show flagValue argv n = none by simp [flagValue, hm]]
    have := h6 ['x']
    have := h6 ['y']
    cases ht : c.token with
    | none => rfl
    | some t => simp_all [asStringOr]

variable {R : Type}

/-- The seed of the command line. -/
def seedOf (argv : List (List Char)) (old : Option (BitVec 64)) : Out (Option (BitVec 64)) :=
  if seedCommand ∈ argv then
    match ((flagValue argv seedCommand).bind fun v => if isCommand v then none else some v).bind parseInteger with
    | some x => .ok (some (BitVec.ofInt 64 x))
    | none => .error .throw
  else .ok old

theorem parse_raw (argv : List (List Char)) (p : CommandParser) (hp : parseArgs argv = .ok p) : p.raw = argv := by
  rw [parseArgs_spec] at hp
  split at hp
  · obtain rfl := Except.ok.inj hp; rfl
  · cases hp

theorem seedFrom_eq (argv : List (List Char)) (g : Globals R) (hp : parseArgs argv = .ok g.arguments) :
    seedFrom g = (seedOf argv g.seed).bind fun s => .ok { g with seed := s } := by
  obtain ⟨c, h1, h2, h3⟩ := get_spec argv seedCommand g.arguments (by decide) (by decide +kernel) ⟨_, _, rfl⟩ hp
  rw [seedFrom, h1, ok_bind, seedOf, h2, h3]
  by_cases hm : seedCommand ∈ argv
  · rw [if_pos (by simpa using hm), if_pos hm]
    generalize ((flagValue argv seedCommand).bind fun v => if isCommand v then none else some v) = o
    cases o with
    | none => rfl
    | some t =>
      simp only [asInteger, Option.bind_some]
      cases parseInteger t <;> rfl
  · rw [if_neg (by simpa using hm), if_neg hm]
    rfl

theorem absFrom_eq (parse : List Char → Option R) (argv : List (List Char)) (n : List Char) (hn : isToken n = true) (g : Globals R)
    (hp : parseArgs argv = .ok g.arguments) (hi : g.inited = false) :
    absFrom parse n g = (asRealOr parse (flagValue argv n) g.settings.absTol).bind fun v => .ok { g with settings := { g.settings with absTol := v } } := by
  obtain ⟨c, h1, _, h3⟩ := getRaw_spec argv n g.arguments hn hp
  rw [absFrom, h1, ok_bind, h3]
  cases asRealOr parse (flagValue argv n) g.settings.absTol with
  | error e => rfl
  | ok v => simp only [ok_bind, Globals.assign, hi]; rfl

theorem relFrom_eq (parse : List Char → Option R) (argv : List (List Char)) (n : List Char) (hn : isToken n = true) (g : Globals R)
    (hp : parseArgs argv = .ok g.arguments) (hi : g.inited = false) :
    relFrom parse n g = (asRealOr parse (flagValue argv n) g.settings.relTol).bind fun v => .ok { g with settings := { g.settings with relTol := v } } := by
  obtain ⟨c, h1, _, h3⟩ := getRaw_spec argv n g.arguments hn hp
  rw [relFrom, h1, ok_bind, h3]
  cases asRealOr parse (flagValue argv n) g.settings.relTol with
  | error e => rfl
  | ok v => simp only [ok_bind, Globals.assign, hi]; rfl

theorem spaceFrom_eq (argv : List (List Char)) (g : Globals R) (hp : parseArgs argv = .ok g.arguments) (hi : g.inited = false) :
    spaceFrom g = .ok { g with settings := { g.settings with space := g.settings.space || decide (spaceChangeSensitive ∈ argv) } } := by
  obtain ⟨c, h1, h2, _⟩ := getRaw_spec argv spaceChangeSensitive g.arguments (by decide +kernel) hp
  rw [spaceFrom, h1, ok_bind, h2]
  by_cases hm : spaceChangeSensitive ∈ argv
  · rw [if_pos (by simpa using hm)]
    simp only [Globals.assign, hi, hm]
    simp
    rfl
  · rw [if_neg (by simpa using hm)]
    simp [hm]
    rfl

theorem caseFrom_eq (argv : List (List Char)) (g : Globals R) (hp : parseArgs argv = .ok g.arguments) (hi : g.inited = false) :
    caseFrom g = .ok { g with settings := { g.settings with caseS := g.settings.caseS || decide (caseSensitiveFlag ∈ argv) } } := by
  obtain ⟨c, h1, h2, _⟩ := getRaw_spec argv caseSensitiveFlag g.arguments (by decide +kernel) hp
  rw [caseFrom, h1, ok_bind, h2]
  by_cases hm : caseSensitiveFlag ∈ argv
  · rw [if_pos (by simpa using hm)]
    simp only [Globals.assign, hi, hm]
    simp
    rfl
  · rw [if_neg (by simpa using hm)]
    simp [hm]
    rfl

/-- What `init` computes. -/
theorem baseInit_eq (parse : List Char → Option R) (argv : List (List Char)) (g : Globals R) (p : CommandParser) (hp : parseArgs argv = .ok p)
    (hi : g.inited = false) :
    baseInit parse argv g =
      (seedOf argv g.seed).bind fun sd =>
      (asRealOr parse (flagValue argv floatTolerance) g.settings.absTol).bind fun a =>
      (asRealOr parse (flagValue argv floatTolerance) g.settings.relTol).bind fun r =>
      (asRealOr parse (flagValue argv floatAbsoluteTolerance) a).bind fun a' =>
      (asRealOr parse (flagValue argv floatRelativeTolerance) r).bind fun r' =>
      .ok { settings := ⟨a', r', g.settings.space || decide (spaceChangeSensitive ∈ argv), g.settings.caseS || decide (caseSensitiveFlag ∈ argv)⟩,
            inited := true, arguments := p, seed := sd } := by
  obtain ⟨st, i, ar, sd0⟩ := g
  change i = false at hi
  subst hi
  rw [baseInit, hp]
  simp only [Bool.not_false, judgeAssert_true, ok_bind]
  rw [seedFrom_eq argv { settings := st, arguments := p, seed := sd0 } hp]
  cases seedOf argv sd0 with
  | error e => rfl
  | ok sd =>
    show (absFrom parse floatTolerance { inited := false, arguments := p, seed := sd, settings := st } >>= _) = _
    rw [absFrom_eq parse argv _ (by decide +kernel) _ hp rfl]
    show _ = Except.bind _ _
    cases asRealOr parse (flagValue argv floatTolerance) st.absTol with
    | error e => rfl
    | ok a =>
      show (relFrom parse floatTolerance { inited := false, arguments := p, seed := sd, settings := { st with absTol := a } } >>= _) = _
      rw [relFrom_eq parse argv _ (by decide +kernel) _ hp rfl]
      show _ = Except.bind _ _
      cases asRealOr parse (flagValue argv floatTolerance) st.relTol with
      | error e => rfl
      | ok r =>
        show (absFrom parse floatAbsoluteTolerance
          { inited := false, arguments := p, seed := sd, settings := { st with absTol := a, relTol := r } } >>= _) = _
        rw [absFrom_eq parse argv _ (by decide +kernel) _ hp rfl]
        show _ = Except.bind _ _
        show Except.bind (Except.bind (asRealOr parse (flagValue argv floatAbsoluteTolerance) a) _) _ = Except.bind (asRealOr parse (flagValue argv floatAbsoluteTolerance) a) _
        cases asRealOr parse (flagValue argv floatAbsoluteTolerance) a with
        | error e => rfl
        | ok a' =>
          show (relFrom parse floatRelativeTolerance
            { inited := false, arguments := p, seed := sd, settings := { st with absTol := a', relTol := r } } >>= _) = _
          rw [relFrom_eq parse argv _ (by decide +kernel) _ hp rfl]
          show _ = Except.bind _ _
          show Except.bind (Except.bind (asRealOr parse (flagValue argv floatRelativeTolerance) r) _) _ = Except.bind (asRealOr parse (flagValue argv floatRelativeTolerance) r) _
          cases asRealOr parse (flagValue argv floatRelativeTolerance) r with
          | error e => rfl
          | ok r' =>
            show (spaceFrom { inited := false, arguments := p, seed := sd, settings := { st with absTol := a', relTol := r' } } >>= _) = _
            rw [spaceFrom_eq argv _ hp rfl, ok_bind, caseFrom_eq argv _ hp rfl, ok_bind]
            rfl

end ICPC.Init
