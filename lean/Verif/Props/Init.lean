import Verif.Lemmas.Init

/-!
# C69 and C70: settings and streams of the validators
-/

namespace ICPC.Props

open ICPC ICPC.Init Spec

variable {R : Type}

/-! ## C69 -/

theorem asRealOr_ok (parse : List Char → Option R) (argv : List (List Char)) (n : List Char) (d v : R)
    (h : asRealOr parse (flagValue argv n) d = .ok v) :
    (∃ t, ValueOf argv n t ∧ parse t = some v) ∨ ((¬ ∃ t, ValueOf argv n t) ∧ v = d) := by
  simp only [valueOf_iff]
  cases hf : flagValue argv n with
  | none =>
    rw [hf] at h
    exact .inr ⟨by simp, (Except.ok.inj h).symm⟩
  | some t =>
    rw [hf] at h
    simp only [asRealOr] at h
    cases hp : parse t with
    | none => rw [hp] at h; cases h
    | some w =>
      rw [hp] at h
      exact .inl ⟨t, rfl, by rw [hp, Except.ok.inj h]⟩

theorem bind_ok {α β : Type} {x : Out α} {f : α → Out β} {y : β} (h : Except.bind x f = .ok y) : ∃ a, x = .ok a ∧ f a = .ok y := by
  cases x with
  | error e => cases h
  | ok a => exact ⟨a, rfl, h⟩

theorem baseInit_ok (parse : List Char → Option R) (argv : List (List Char)) (g g' : Globals R) (h : baseInit parse argv g = .ok g') :
    g.inited = false ∧ ∃ p, parseArgs argv = .ok p := by
  rw [baseInit] at h
  cases hi : g.inited with
  | true => rw [hi] at h; cases h
  | false =>
    refine ⟨rfl, ?_⟩
    cases hp : parseArgs argv with
    | error e => rw [hi, hp] at h; cases h
    | ok p => exact ⟨p, rfl⟩

/-- **C69.** When `init` returns, a tolerance is the value of its own flag, else the value of `float_tolerance`, else what the program assigned before
(or the default); the switches are on if the program or the command line turned them on; the seed is the one of the command line. -/
theorem C69_settings (parse : List Char → Option R) (argv : List (List Char)) (g g' : Globals R) (h : baseInit parse argv g = .ok g') :
    FirstValue parse argv ["float_absolute_tolerance".toList, "float_tolerance".toList] g.settings.absTol g'.settings.absTol ∧
    FirstValue parse argv ["float_relative_tolerance".toList, "float_tolerance".toList] g.settings.relTol g'.settings.relTol ∧
    (g'.settings.space = true ↔ g.settings.space = true ∨ "space_change_sensitive".toList ∈ argv) ∧
    (g'.settings.caseS = true ↔ g.settings.caseS = true ∨ "case_sensitive".toList ∈ argv) ∧
    g'.arguments.raw = argv ∧
    ((∃ x, SeedIs argv parseInteger x ∧ g'.seed = some (BitVec.ofInt 64 x)) ∨ ("--seed".toList ∉ argv ∧ g'.seed = g.seed)) := by
  obtain ⟨hi, p, hp⟩ := baseInit_ok parse argv g g' h
  rw [baseInit_eq parse argv g p hp hi] at h
  obtain ⟨sd, h1, h⟩ := bind_ok h
  obtain ⟨a, h2, h⟩ := bind_ok h
  obtain ⟨r, h3, h⟩ := bind_ok h
  obtain ⟨a', h4, h⟩ := bind_ok h
  obtain ⟨r', h5, h⟩ := bind_ok h
  obtain rfl := Except.ok.inj h
  refine ⟨?_, ?_, ?_, ?_, parse_raw argv p hp, ?_⟩
  · rcases asRealOr_ok _ _ _ _ _ h4 with hv | ⟨hv, rfl⟩
    · exact .inl hv
    · exact .inr ⟨hv, asRealOr_ok _ _ _ _ _ h2⟩
  · rcases asRealOr_ok _ _ _ _ _ h5 with hv | ⟨hv, rfl⟩
    · exact .inl hv
    · exact .inr ⟨hv, asRealOr_ok _ _ _ _ _ h3⟩
  · simp only [Bool.or_eq_true, decide_eq_true_eq]
    rfl
  · simp only [Bool.or_eq_true, decide_eq_true_eq]
    rfl
  · rw [seedOf] at h1
    split at h1
    · next hm =>
      left
      cases hf : flagValue argv seedCommand with
      | none => rw [hf] at h1; cases h1
      | some v =>
        rw [hf] at h1
        simp only [Option.bind_some] at h1
        cases hc : isCommand v with
        | true => simp [hc] at h1
        | false =>
          simp only [hc, Bool.false_eq_true, if_false, Option.bind_some] at h1
          cases hv : parseInteger v with
          | none => rw [hv] at h1; cases h1
          | some x =>
            rw [hv] at h1
            refine ⟨x, ⟨v, (valueOf_iff _ _ _).2 hf, ?_, hv⟩, (Except.ok.inj h1).symm⟩
            intro hx
            rw [(isCommand_iff v).2 hx] at hc
            cases hc
    · next hm => exact .inr ⟨hm, (Except.ok.inj h1).symm⟩

theorem asRealOr_total (parse : List Char → Option R) (argv : List (List Char)) (n : List Char) (d : R) :
    ((∀ v, ValueOf argv n v → (parse v).isSome) → ∃ x, asRealOr parse (flagValue argv n) d = .ok x) ∧
    (¬ (∀ v, ValueOf argv n v → (parse v).isSome) → asRealOr parse (flagValue argv n) d = .error .throw) := by
  simp only [valueOf_iff]
  cases hf : flagValue argv n with
  | none => exact ⟨fun _ => ⟨d, rfl⟩, fun h => absurd (fun v hv => by cases hv) h⟩
  | some t =>
    simp only [asRealOr]
    cases hp : parse t with
    | none =>
      refine ⟨fun h => ?_, fun _ => rfl⟩
      have := h t rfl
      rw [hp] at this
      cases this
    | some x =>
      refine ⟨fun _ => ⟨x, rfl⟩, fun h => absurd ?_ h⟩
      intro v hv
      obtain rfl := Option.some.inj hv
      rw [hp]
      rfl

theorem seedOf_total (argv : List (List Char)) (old : Option (BitVec 64)) :
    (("--seed".toList ∈ argv → ∃ x, SeedIs argv parseInteger x) → ∃ s, seedOf argv old = .ok s) ∧
    (¬ ("--seed".toList ∈ argv → ∃ x, SeedIs argv parseInteger x) → seedOf argv old = .error .throw) := by
  constructor
  · intro h
    rw [seedOf]
    split
    · next hm =>
      obtain ⟨x, v, hv, hc, hx⟩ := h hm
      rw [show flagValue argv seedCommand = some v from (valueOf_iff _ _ _).1 hv]
      have : isCommand v = false := by
        rw [← Bool.not_eq_true]
        exact fun h => hc ((isCommand_iff v).1 h)
      simp [this, hx]
    · exact ⟨_, rfl⟩
  · intro h
    obtain ⟨hm, hn⟩ := Classical.not_imp.1 h
    rw [seedOf, if_pos (show seedCommand ∈ argv from hm)]
    cases hf : flagValue argv seedCommand with
    | none => rfl
    | some v =>
      simp only [Option.bind_some]
      cases hc : isCommand v with
      | true => rfl
      | false =>
        simp only [Bool.false_eq_true, if_false, Option.bind_some]
        cases hv : parseInteger v with
        | none => rfl
        | some x =>
          exact absurd ⟨x, v, (valueOf_iff _ _ _).2 hf, (fun hx => by rw [(isCommand_iff v).2 hx] at hc; cases hc), hv⟩ hn

/-- **C69.** `init` returns if it is called for the first time, no command is repeated, `--seed` is followed by an integer, and the tolerances that are
given are numbers; in every other case it throws. -/
theorem C69_accepts (parse : List Char → Option R) (argv : List (List Char)) (g : Globals R) :
    let good := g.inited = false ∧ NoRepeatedCommand argv ∧ ("--seed".toList ∈ argv → ∃ x, SeedIs argv parseInteger x) ∧
      ∀ flag ∈ ["float_tolerance".toList, "float_absolute_tolerance".toList, "float_relative_tolerance".toList], ∀ v, ValueOf argv flag v → (parse v).isSome
    (good → ∃ g', baseInit parse argv g = .ok g' ∧ g'.inited = true) ∧ (¬ good → baseInit parse argv g = .error .throw) := by
  intro good
  by_cases hi : g.inited = false
  · by_cases hr : NoRepeatedCommand argv
    · obtain ⟨p, hp⟩ := (C39_repeated argv).1 hr
      rw [baseInit_eq parse argv g p hp hi]
      constructor
      · rintro ⟨-, -, hs, hf⟩
        obtain ⟨sd, h1⟩ := (seedOf_total argv g.seed).1 hs
        obtain ⟨a, h2⟩ := (asRealOr_total parse argv floatTolerance g.settings.absTol).1 (hf floatTolerance (List.Mem.head _))
        obtain ⟨r, h3⟩ := (asRealOr_total parse argv floatTolerance g.settings.relTol).1 (hf floatTolerance (List.Mem.head _))
        obtain ⟨a', h4⟩ := (asRealOr_total parse argv floatAbsoluteTolerance a).1 (hf floatAbsoluteTolerance (List.Mem.tail _ (List.Mem.head _)))
        obtain ⟨r', h5⟩ := (asRealOr_total parse argv floatRelativeTolerance r).1 (hf floatRelativeTolerance (List.Mem.tail _ (List.Mem.tail _ (List.Mem.head _))))
        rw [h1, h2, h3]
        simp only [Except.bind]
        rw [h4, h5]
        exact ⟨_, rfl, rfl⟩
      · intro hg
        by_cases hs : "--seed".toList ∈ argv → ∃ x, SeedIs argv parseInteger x
        · obtain ⟨sd, h1⟩ := (seedOf_total argv g.seed).1 hs
          rw [h1]
          by_cases hT : ∀ v, ValueOf argv floatTolerance v → (parse v).isSome
          · obtain ⟨a, h2⟩ := (asRealOr_total parse argv floatTolerance g.settings.absTol).1 hT
            obtain ⟨r, h3⟩ := (asRealOr_total parse argv floatTolerance g.settings.relTol).1 hT
            rw [h2, h3]
            by_cases hA : ∀ v, ValueOf argv floatAbsoluteTolerance v → (parse v).isSome
            · obtain ⟨a', h4⟩ := (asRealOr_total parse argv floatAbsoluteTolerance a).1 hA
              simp only [Except.bind]
              rw [h4]
              by_cases hR : ∀ v, ValueOf argv floatRelativeTolerance v → (parse v).isSome
              · refine absurd ⟨hi, hr, hs, ?_⟩ hg
                intro flag hf
                rcases List.mem_cons.1 hf with rfl | hf
                · exact hT
                rcases List.mem_cons.1 hf with rfl | hf
                · exact hA
                rcases List.mem_cons.1 hf with rfl | hf
                · exact hR
                · cases hf
              · rw [(asRealOr_total parse argv floatRelativeTolerance r).2 hR]
            · simp only [Except.bind]
              rw [(asRealOr_total parse argv floatAbsoluteTolerance a).2 hA]
          · rw [(asRealOr_total parse argv floatTolerance g.settings.absTol).2 hT]
            rfl
        · rw [(seedOf_total argv g.seed).2 hs]
          rfl
    · refine ⟨fun h => absurd h.2.1 hr, fun _ => ?_⟩
      rw [baseInit, hi, (C39_repeated argv).2 hr]
      rfl
  · refine ⟨fun h => absurd h.1 hi, fun _ => ?_⟩
    rw [baseInit, Bool.not_eq_false _ |>.mp hi]
    rfl

/-- What a program can do with the settings. -/
inductive SettingsCall (R : Type) where
  | absTol (x : R)
  | relTol (x : R)
  | space (b : Bool)
  | caseS (b : Bool)
  | init (argv : List (List Char))

/-- The effect of a call. -/
def SettingsCall.run (parse : List Char → Option R) (g : Globals R) : SettingsCall R → Out (Globals R)
  | .absTol x => g.assign fun s => { s with absTol := x }
  | .relTol x => g.assign fun s => { s with relTol := x }
  | .space b => g.assign fun s => { s with space := b }
  | .caseS b => g.assign fun s => { s with caseS := b }
  | .init argv => baseInit parse argv g

/-- **C69.** After `init` every assignment to a setting and every further `init` throws, without an effect; before that assignments succeed. -/
theorem C69_frozen (parse : List Char → Option R) (argv : List (List Char)) (g g' : Globals R) (h : baseInit parse argv g = .ok g') :
    (∀ call : SettingsCall R, call.run parse g' = .error .throw) ∧ atExit g' = .ok () ∧
    (∀ x, (SettingsCall.absTol x).run parse g = .ok { g with settings := { g.settings with absTol := x } }) ∧
    (∀ b, (SettingsCall.space b).run parse g = .ok { g with settings := { g.settings with space := b } }) := by
  obtain ⟨hi, p, hp⟩ := baseInit_ok parse argv g g' h
  have hg : g'.inited = true := by
    obtain ⟨g'', h', hi'⟩ := (C69_accepts parse argv g).1 (by
      by_contra hc
      rw [(C69_accepts parse argv g).2 hc] at h
      cases h)
    rw [h] at h'
    obtain rfl := Except.ok.inj h'
    exact hi'
  refine ⟨?_, by rw [atExit, hg]; rfl, ?_, ?_⟩
  · intro call
    cases call with
    | init argv' => exact (C69_accepts parse argv' g').2 (fun hc => by rw [hg] at hc; cases hc.1)
    | _ => simp only [SettingsCall.run, Globals.assign, hg]; rfl
  · intro x
    simp only [SettingsCall.run, Globals.assign, hi]; rfl
  · intro x
    simp only [SettingsCall.run, Globals.assign, hi]; rfl

/-- Numbers of the examples: one digit. -/
def demoReal (s : List Char) : Option Nat := match s with | [c] => if '0' ≤ c ∧ c ≤ '9' then some (c.toNat - 48) else none | _ => none

/-- `validator case_sensitive float_tolerance 3 float_relative_tolerance 5 --seed 17`. -/
example : (baseInit demoReal (["validator", "case_sensitive", "float_tolerance", "3", "float_relative_tolerance", "5", "--seed", "17"].map String.toList)
    (Globals.initial 9)).toOption.map (fun g => (g.settings, g.seed)) = some (⟨3, 5, false, true⟩, some 17) := by decide +kernel

/-- A flag that is the last argument has no value and does not count. -/
example : (baseInit demoReal (["validator", "float_tolerance"].map String.toList) (Globals.initial 9)).toOption.map Globals.settings =
    some ⟨9, 9, false, false⟩ := by decide +kernel

/-- A file with the name of a flag counts as the flag. -/
example : (outputInit demoReal 9 (["validator", "case_sensitive", "a", "b"].map String.toList) (Globals.initial 9)).toOption.map (·.1.settings.caseS) =
    some true := by decide +kernel

/-! ## C70 -/

/-- **C70** for input validators: `testIn` reads standard input, white space and case matter, and the tolerances are those of the command line or those
that the program set. -/
theorem C70_input (parse : List Char → Option R) (argv : List (List Char)) (g g' : Globals R) (testIn : StreamArgs R) (f : Option (List Char))
    (h : inputInit parse argv g = .ok (g', testIn, f)) :
    testIn.source = .stdin ∧ testIn.space = true ∧ testIn.caseS = true ∧ testIn.onFail = 43 ∧
    FirstValue parse argv ["float_absolute_tolerance".toList, "float_tolerance".toList] g.settings.absTol testIn.absTol ∧
    FirstValue parse argv ["float_relative_tolerance".toList, "float_tolerance".toList] g.settings.relTol testIn.relTol := by
  rw [inputInit, strictSettings] at h
  obtain ⟨g1, h1, h⟩ := bind_ok h
  obtain ⟨g2, h2, h⟩ := bind_ok h
  obtain ⟨ff, h3, h⟩ := bind_ok h
  obtain ⟨g0, h0, h1⟩ := bind_ok h1
  obtain ⟨rfl, rfl, rfl⟩ : g2 = g' ∧ _ = testIn ∧ ff = f := by
    have := Except.ok.inj h
    simpa using this
  have e0 : g0.settings = { g.settings with space := true } := by
    simp only [Globals.assign] at h0
    obtain ⟨_, _, h0⟩ := bind_ok h0
    rw [← Except.ok.inj h0]
  have e1 : g1.settings = { g.settings with space := true, caseS := true } := by
    simp only [Globals.assign] at h1
    obtain ⟨_, _, h1⟩ := bind_ok h1
    rw [← Except.ok.inj h1, e0]
  have := C69_settings parse argv g1 g2 h2
  rw [e1] at this
  exact ⟨rfl, this.2.2.1.2 (.inl rfl), this.2.2.2.1.2 (.inl rfl), rfl, this.1, this.2.1⟩

theorem fileStream_ok (eps : R) (g : Globals R) (t : Nat) (s : StreamArgs R) (h : fileStream eps g t = .ok s) :
    ∃ path, g.arguments.raw[t]? = some path ∧ s = ⟨.file path, false, g.settings.caseS, 1, eps, eps⟩ := by
  rw [fileStream] at h
  obtain ⟨path, h1, h⟩ := bind_ok h
  rw [argAt, if_pos (by omega)] at h1
  rw [show ((t : Int)).toNat = t by omega] at h1
  cases hr : g.arguments.raw[t]? with
  | none => rw [hr] at h1; cases h1
  | some q =>
    rw [hr] at h1
    obtain rfl := Except.ok.inj h1
    exact ⟨q, rfl, (Except.ok.inj h).symm⟩

/-- **C70** for output validators, without the tolerances (see `C70_tolerance_refuted`): `testIn` and `juryAns` read the first two arguments ignoring
differences in white space and end with the verdict for a failure of the jury; `teamAns` reads standard input, white space and case matter if the
program or the command line says so. -/
theorem C70_output_partial (parse : List Char → Option R) (eps : R) (argv : List (List Char)) (g g' : Globals R) (testIn juryAns teamAns : StreamArgs R)
    (f : Option (List Char)) (h : outputInit parse eps argv g = .ok (g', testIn, juryAns, teamAns, f)) :
    (∃ a b, argv[1]? = some a ∧ argv[2]? = some b ∧ testIn.source = .file a ∧ juryAns.source = .file b) ∧ (argv[3]?).isSome ∧
    testIn.space = false ∧ juryAns.space = false ∧ testIn.onFail = 1 ∧ juryAns.onFail = 1 ∧
    teamAns.source = .stdin ∧ teamAns.onFail = 43 ∧
    (teamAns.space = true ↔ g.settings.space = true ∨ "space_change_sensitive".toList ∈ argv) ∧
    (∀ s ∈ [testIn, juryAns, teamAns], (s.caseS = true ↔ g.settings.caseS = true ∨ "case_sensitive".toList ∈ argv)) := by
  rw [outputInit] at h
  obtain ⟨g1, h1, h⟩ := bind_ok h
  obtain ⟨d, h2, h⟩ := bind_ok h
  obtain ⟨t, h3, h⟩ := bind_ok h
  obtain ⟨j, h4, h⟩ := bind_ok h
  obtain ⟨ff, h5, h⟩ := bind_ok h
  obtain ⟨rfl, rfl, rfl, rfl, rfl⟩ : g1 = g' ∧ t = testIn ∧ j = juryAns ∧ stdinStream eps g1 = teamAns ∧ ff = f := by
    have := Except.ok.inj h
    simpa using this
  have hs := C69_settings parse argv g g1 h1
  obtain ⟨a, ha, rfl⟩ := fileStream_ok eps g1 1 t h3
  obtain ⟨b, hb, rfl⟩ := fileStream_ok eps g1 2 j h4
  rw [hs.2.2.2.2.1] at ha hb
  refine ⟨⟨a, b, ha, hb, rfl, rfl⟩, ?_, rfl, rfl, rfl, rfl, rfl, rfl, hs.2.2.1, ?_⟩
  · rw [argAt, hs.2.2.2.2.1] at h2
    cases hd : argv[3]? with
    | none => rw [if_pos (by decide), show (3 : Int).toNat = 3 from rfl, hd] at h2; cases h2
    | some _ => rfl
  · intro s hm
    rcases List.mem_cons.1 hm with rfl | hm
    · exact hs.2.2.2.1
    rcases List.mem_cons.1 hm with rfl | hm
    · exact hs.2.2.2.1
    rcases List.mem_cons.1 hm with rfl | hm
    · exact hs.2.2.2.1
    · cases hm

/-- **C70** for interactors, without the tolerances. -/
theorem C70_interactor_partial (parse : List Char → Option R) (eps : R) (argv : List (List Char)) (g g' : Globals R) (testIn fromTeam : StreamArgs R)
    (h : interactorInit parse eps argv g = .ok (g', testIn, fromTeam)) :
    (∃ a, argv[1]? = some a ∧ testIn.source = .file a) ∧ testIn.space = false ∧ testIn.onFail = 1 ∧ fromTeam.source = .stdin ∧ fromTeam.onFail = 43 ∧
    (fromTeam.space = true ↔ g.settings.space = true ∨ "space_change_sensitive".toList ∈ argv) ∧
    (∀ s ∈ [testIn, fromTeam], (s.caseS = true ↔ g.settings.caseS = true ∨ "case_sensitive".toList ∈ argv)) := by
  rw [interactorInit] at h
  obtain ⟨g1, h1, h⟩ := bind_ok h
  obtain ⟨d, h2, h⟩ := bind_ok h
  obtain ⟨t, h3, h⟩ := bind_ok h
  obtain ⟨rfl, rfl, rfl⟩ : g1 = g' ∧ t = testIn ∧ stdinStream eps g1 = fromTeam := by
    have := Except.ok.inj h
    simpa using this
  have hs := C69_settings parse argv g g1 h1
  obtain ⟨a, ha, rfl⟩ := fileStream_ok eps g1 1 t h3
  rw [hs.2.2.2.2.1] at ha
  refine ⟨⟨a, ha, rfl⟩, rfl, rfl, rfl, rfl, hs.2.2.1, ?_⟩
  intro s hm
  rcases List.mem_cons.1 hm with rfl | hm
  · exact hs.2.2.2.1
  rcases List.mem_cons.1 hm with rfl | hm
  · exact hs.2.2.2.1
  · cases hm

/-- **C70** for answer validators, without the tolerances: `ans` reads standard input, white space and case matter. -/
theorem C70_answer_partial (parse : List Char → Option R) (eps : R) (argv : List (List Char)) (g g' : Globals R) (testIn ans : StreamArgs R)
    (f : Option (List Char)) (h : answerInit parse eps argv g = .ok (g', testIn, ans, f)) :
    (∃ a, argv[1]? = some a ∧ testIn.source = .file a) ∧ testIn.space = false ∧ testIn.caseS = true ∧ testIn.onFail = 1 ∧ ans.source = .stdin ∧
    ans.onFail = 43 ∧ ans.space = true ∧ ans.caseS = true := by
  rw [answerInit, strictSettings] at h
  obtain ⟨g1, h1, h⟩ := bind_ok h
  obtain ⟨g2, h2, h⟩ := bind_ok h
  obtain ⟨t, h3, h⟩ := bind_ok h
  obtain ⟨ff, h4, h⟩ := bind_ok h
  obtain ⟨g0, h0, h1⟩ := bind_ok h1
  obtain ⟨rfl, rfl, rfl, rfl⟩ : g2 = g' ∧ t = testIn ∧ stdinStream eps g2 = ans ∧ ff = f := by
    have := Except.ok.inj h
    simpa using this
  have e0 : g0.settings = { g.settings with space := true } := by
    simp only [Globals.assign] at h0
    obtain ⟨_, _, h0⟩ := bind_ok h0
    rw [← Except.ok.inj h0]
  have e1 : g1.settings = { g.settings with space := true, caseS := true } := by
    simp only [Globals.assign] at h1
    obtain ⟨_, _, h1⟩ := bind_ok h1
    rw [← Except.ok.inj h1, e0]
  have hs := C69_settings parse argv g1 g2 h2
  rw [e1] at hs
  obtain ⟨a, ha, rfl⟩ := fileStream_ok eps g2 1 t h3
  rw [hs.2.2.2.2.1] at ha
  exact ⟨⟨a, ha, rfl⟩, rfl, hs.2.2.2.1.2 (.inl rfl), rfl, rfl, rfl, hs.2.2.1.2 (.inl rfl), hs.2.2.2.1.2 (.inl rfl)⟩

/-- **C70** fails for the tolerances of every other stream: whatever the command line and the program say, the streams of answer validators, output
validators and interactors use the default tolerance. -/
theorem C70_tolerance_refuted (parse : List Char → Option R) (eps : R) (argv : List (List Char)) (g : Globals R) :
    (∀ g' testIn ans f, answerInit parse eps argv g = .ok (g', testIn, ans, f) → ans.absTol = eps ∧ ans.relTol = eps) ∧
    (∀ g' testIn juryAns teamAns f, outputInit parse eps argv g = .ok (g', testIn, juryAns, teamAns, f) → teamAns.absTol = eps ∧ teamAns.relTol = eps) ∧
    (∀ g' testIn fromTeam, interactorInit parse eps argv g = .ok (g', testIn, fromTeam) → fromTeam.absTol = eps ∧ fromTeam.relTol = eps) := by
  refine ⟨?_, ?_, ?_⟩
  · intro g' testIn ans f h
    rw [answerInit] at h
    obtain ⟨g1, h1, h⟩ := bind_ok h
    obtain ⟨g2, h2, h⟩ := bind_ok h
    obtain ⟨t, h3, h⟩ := bind_ok h
    obtain ⟨ff, h4, h⟩ := bind_ok h
    have := Except.ok.inj h
    simp only [Prod.mk.injEq] at this
    rw [← this.2.2.1]
    exact ⟨rfl, rfl⟩
  · intro g' testIn juryAns teamAns f h
    rw [outputInit] at h
    obtain ⟨g1, h1, h⟩ := bind_ok h
    obtain ⟨d, h2, h⟩ := bind_ok h
    obtain ⟨t, h3, h⟩ := bind_ok h
    obtain ⟨j, h4, h⟩ := bind_ok h
    obtain ⟨ff, h5, h⟩ := bind_ok h
    have := Except.ok.inj h
    simp only [Prod.mk.injEq] at this
    rw [← this.2.2.2.1]
    exact ⟨rfl, rfl⟩
  · intro g' testIn fromTeam h
    rw [interactorInit] at h
    obtain ⟨g1, h1, h⟩ := bind_ok h
    obtain ⟨d, h2, h⟩ := bind_ok h
    obtain ⟨t, h3, h⟩ := bind_ok h
    have := Except.ok.inj h
    simp only [Prod.mk.injEq] at this
    rw [← this.2.2]
    exact ⟨rfl, rfl⟩

/-- `validator in ans feedback/ float_tolerance 3`: the setting is 3, `teamAns` uses 9. -/
example : (outputInit demoReal 9 (["validator", "in", "ans", "feedback/", "float_tolerance", "3"].map String.toList) (Globals.initial 9)).toOption.map
    (fun x => (x.1.settings.absTol, x.2.2.2.1)) = some (3, ⟨.stdin, false, false, 43, 9, 9⟩) := by decide +kernel

/-- The same command line for an input validator. -/
example : (inputInit demoReal (["validator", "float_tolerance", "3", "--constraints_file", "out"].map String.toList) (Globals.initial 9)).toOption.map
    (fun x => (x.2.1, x.2.2)) = some (⟨.stdin, true, true, 43, 3, 3⟩, some "out".toList) := by decide +kernel

end ICPC.Props
