import Verif.Lemmas.Files

/-!
# C105: the files of output validators and interactors
-/

namespace ICPC.Props

open ICPC ICPC.Init ICPC.Files Spec

variable {R : Type}

theorem said_eq (c : Chan) (script : Script) : saidOf script.said c = said c script := rfl

/-- The main part of a program, after `init`. -/
theorem run_rest {dir : Path} {S : Option String} {log : Option Path} {base fs : FS} {s : Sess} (script : Script)
    (h : FInv dir S log base (fun _ => []) s fs) (hS : ∀ n ∈ S, n = ".state0" ∨ n = ".state1") (hlog : ∀ p ∈ log, p ∉ feedbackFiles dir)
    (hnext : script.finish = .next → S ≠ none ∧ base.canWrite (join dir "nextpass.in") = true) :
    ∃ fs', (sayAll script.said s >>= fun s => finishFiles s script.logged script.finish) fs = (.error (.exit (exitCode script.finish)), fs') ∧ fs'.canWrite = base.canWrite ∧
      (∀ c f, (c = Chan.jury ∧ f = "judgemessage.txt") ∨ (c = .team ∧ f = "teammessage.txt") ∨ (c = .state ∧ f ∈ S) →
        fs'.content (join dir f) = some (message c script)) ∧
      (script.finish = .next → fs'.content (join dir "nextpass.in") = some (said .next script)) ∧
      (∀ p ∈ log, base.canWrite p = true → fs'.content p = some script.logged) ∧
      (∀ p, p ≠ join dir "judgemessage.txt" → p ≠ join dir "teammessage.txt" → (∀ n ∈ S, p ≠ join dir n) →
        (script.finish = .next → p ≠ join dir "nextpass.in") → (∀ q ∈ log, p ≠ q) → fs'.content p = base.content p) := by
  have h' := h.says script.said
  obtain ⟨fs', h1, h2, h3, h4, h5, h6⟩ := h'.finish hS hlog script.finish script.logged hnext
  refine ⟨fs', ?_, h2, fun c f hc => ?_, fun he => ?_, h5, h6⟩
  · rw [fs_bind]
    exact h1
  · rw [h3 c f hc]
    simp [message, said_eq]
  · rw [h4 he]
    simp [said_eq]

/-- **C105, one pass.** If `init` finds what it needs, the program gets the input, the answer (output validators) and the output of the team, and ends
with its verdict. Then `judgemessage.txt` and `teammessage.txt` contain exactly what it wrote to `juryOut` and `teamOut`, and no other file has changed,
except that of the constraints. (For `NEXT()`, see `C105_pass`.) -/
theorem C105_messages {kind : Role} {parse : List Char → Option R} {argv : List (List Char)} {g g' : Globals R} {dir : Path} {test answer : List Char}
    {log : Option Path} {fs : FS} (h : Fit kind parse argv g g' dir test answer log fs) (stdin : List Char) (prog : View R → Script)
    (hv : (prog (firstView kind g' test answer stdin)).finish ≠ .next) :
    let script := prog { globals := g', test := test, answer := if kind = .output then some answer else none, team := stdin }
    ∃ fs', process kind false parse argv g prog stdin fs = (.error (.exit (exitCode script.finish)), fs') ∧
      fs'.content (join dir "judgemessage.txt") = some (message .jury script) ∧
      fs'.content (join dir "teammessage.txt") = some (message .team script) ∧
      (∀ p ∈ log, fs.canWrite p = true → fs'.content p = some script.logged) ∧
      (∀ p, p ≠ join dir "judgemessage.txt" → p ≠ join dir "teammessage.txt" → (∀ q ∈ log, p ≠ q) → fs'.content p = fs.content p) := by
  obtain ⟨fs', h1, -, h3, -, h5, h6⟩ := run_rest (prog (firstView kind g' test answer stdin)) (FInv.start fs) (by simp) h.logOther
    (fun he => absurd he hv)
  refine ⟨fs', ?_, h3 .jury _ (.inl ⟨rfl, rfl⟩), h3 .team _ (.inr (.inl ⟨rfl, rfl⟩)), h5, fun p a b c => h6 p a b (by simp) (fun he => absurd he hv) c⟩
  unfold process
  rw [fs_bind_ok (initFiles_ok h stdin)]
  exact h1

/-- **C105, multipass.** The program also gets the number of the pass and what the pass before wrote to `nextstate`. Afterwards the messages are those of
this pass, what it wrote to `nextstate` is in the directory for the next pass, and if it ends with `NEXT()`, the exit code is that of an accepted
pass and `nextpass.in` contains exactly what was written to `nextpass`. No other file has changed, except that of the constraints. -/
theorem C105_pass {kind : Role} {parse : List Char → Option R} {argv : List (List Char)} {g g' : Globals R} {dir : Path} {test answer : List Char}
    {log : Option Path} {fs : FS} (h : Fit kind parse argv g g' dir test answer log fs) (hw : ∀ p ∈ feedbackFiles dir, fs.canWrite p = true)
    (b : Option (Nat × List Char)) (hb : PassBefore dir fs b) (hk : (nextNumber b : Int) < 2 ^ 63) (stdin : List Char) (prog : View R → Script) :
    let script := prog { firstView kind g' test answer stdin with pass := nextNumber b, prev := b.map Prod.snd }
    ∃ fs', process kind true parse argv g prog stdin fs = (.error (.exit (exitCode script.finish)), fs') ∧
      fs'.content (join dir "judgemessage.txt") = some (message .jury script) ∧
      fs'.content (join dir "teammessage.txt") = some (message .team script) ∧
      PassBefore dir fs' (some (nextNumber b, message .state script)) ∧
      (script.finish = .next → fs'.content (join dir "nextpass.in") = some (said .next script)) ∧
      (∀ p ∈ log, fs.canWrite p = true → fs'.content p = some script.logged) ∧ fs'.canWrite = fs.canWrite ∧
      (∀ p, p ∉ feedbackFiles dir → (∀ q ∈ log, p ≠ q) → fs'.content p = fs.content p) := by
  have hmemS : stateFile (nextNumber b) ∈ ["judgemessage.txt", "teammessage.txt", ".pass", ".state0", ".state1", "nextpass.in"] := by
    rcases stateFile_or (nextNumber b) with e | e <;> rw [e] <;> simp
  obtain ⟨s', fs1, base', a1, a2, a3, a4, a5⟩ := multipassFiles_ok (log := log) (firstView kind g' test answer stdin) (FInv.start fs) rfl hb hk
    (hw _ (mem_feedback hmemS))
  obtain ⟨fs', h1, h2, h3, h4, h5, h6⟩ := run_rest (prog { firstView kind g' test answer stdin with pass := nextNumber b, prev := b.map Prod.snd }) a2
    (by intro n hn; obtain rfl := Option.some.inj hn; exact stateFile_or _) h.logOther
    (fun _ => ⟨by simp, by rw [a3]; exact hw _ (mem_feedback (by simp))⟩)
  refine ⟨fs', ?_, h3 .jury _ (.inl ⟨rfl, rfl⟩), h3 .team _ (.inr (.inl ⟨rfl, rfl⟩)), ⟨?_, h3 .state _ (.inr (.inr ⟨rfl, rfl⟩))⟩, h4,
    fun p hp hc => h5 p hp (by rw [a3]; exact hc), by rw [h2, a3], fun p hp hl => ?_⟩
  · unfold process
    rw [fs_bind_ok (initFiles_ok h stdin)]
    simp only [if_true]
    rw [fs_bind_ok a1]
    exact h1
  · rw [h6 _ (join_ne (by decide)) (join_ne (by decide))
      (by intro n hn; obtain rfl := Option.some.inj hn; exact join_ne (stateFile_ne_pass _).symm) (fun _ => join_ne (by decide))
      (fun q hq e => ne_of_notin (h.logOther q hq) (n := ".pass") (by simp) e.symm)]
    exact a4 (hw _ (mem_feedback (by simp)))
  · rw [h6 p (ne_of_notin hp (by simp)) (ne_of_notin hp (by simp)) (by intro n hn; obtain rfl := Option.some.inj hn; exact ne_of_notin hp hmemS)
      (fun _ => ne_of_notin hp (by simp)) hl]
    exact a5 p (ne_of_notin hp (by simp))

/-- The arguments and the output of the team in one pass. -/
structure PassInput where
  argv : List (List Char)
  stdin : List Char

/-- One program run per pass; whatever the verdicts are, the next pass sees the files that are left. -/
def runPasses (kind : Role) (parse : List Char → Option R) (g : Globals R) (prog : View R → Script) : List PassInput → FS → FS
  | [], fs => fs
  | p :: ps, fs => runPasses kind parse g prog ps (process kind true parse p.argv g prog p.stdin fs).2

/-- What the programs of the passes do: each one gets its number and the state that its predecessor wrote. -/
def scripts (prog : View R → Script) : Option (Nat × List Char) → List (View R) → List Script
  | _, [] => []
  | b, v :: vs =>
    let script := prog { v with pass := nextNumber b, prev := b.map Prod.snd }
    script :: scripts prog (some (nextNumber b, message .state script)) vs

/-- **C105, all passes.** In a directory without `.pass` let the passes get existing files (and no file for constraints). Then pass `k` has the number
`k` and gets exactly what pass `k - 1` wrote to `nextstate`, and in the end the messages, the state and `nextpass.in` are those of the last pass alone. -/
theorem C105_passes (kind : Role) (parse : List Char → Option R) (g : Globals R) (prog : View R → Script) (dir : Path) :
    ∀ (ps : List (PassInput × Globals R × List Char × List Char)) (fs : FS) (b : Option (Nat × List Char)), PassBefore dir fs b →
    (nextNumber b : Int) + ps.length < 2 ^ 63 → (∀ p ∈ feedbackFiles dir, fs.canWrite p = true) →
    (∀ p ∈ ps, Fit kind parse p.1.argv g p.2.1 dir p.2.2.1 p.2.2.2 none fs) →
    ∀ last, last ∈ (scripts prog b (ps.map fun p => firstView kind p.2.1 p.2.2.1 p.2.2.2 p.1.stdin)).getLast? →
    let fs' := runPasses kind parse g prog (ps.map Prod.fst) fs
    fs'.content (join dir "judgemessage.txt") = some (message .jury last) ∧
    fs'.content (join dir "teammessage.txt") = some (message .team last) ∧
    (last.finish = .next → fs'.content (join dir "nextpass.in") = some (said .next last)) ∧
    PassBefore dir fs' (some (nextNumber b + ps.length - 1, message .state last)) ∧
    ∀ p, p ∉ feedbackFiles dir → fs'.content p = fs.content p := by
  intro ps
  induction ps with
  | nil =>
    intro fs b _ _ _ _ last hl
    simp [scripts] at hl
  | cons p ps ihp =>
    intro fs b hb hk hw hfit last hl
    have hkb : (nextNumber b : Int) < 2 ^ 63 := by
      rw [List.length_cons] at hk
      omega
    obtain ⟨fs1, a1, a2, a3, a4, a5, -, a7, a8⟩ := C105_pass (hfit p (by simp)) hw b hb hkb p.1.stdin prog
    have hrun : runPasses kind parse g prog ((p :: ps).map Prod.fst) fs = runPasses kind parse g prog (ps.map Prod.fst) fs1 := by
      rw [List.map_cons, runPasses, a1]
    simp only [List.map_cons, scripts] at hl
    cases ps with
    | nil =>
      simp only [List.map_nil, scripts, List.getLast?_singleton, Option.mem_def, Option.some.injEq] at hl
      subst hl
      intro fs'
      have : fs' = fs1 := hrun
      rw [this]
      exact ⟨a2, a3, a5, by simpa using a4, fun p hp => a8 p hp (by simp)⟩
    | cons q ps =>
      have hfit' : ∀ p ∈ q :: ps, Fit kind parse p.1.argv g p.2.1 dir p.2.2.1 p.2.2.2 none fs1 := by
        intro r hr
        have hf := hfit r (List.mem_cons_of_mem _ hr)
        refine ⟨hf.settings, hf.directory, by rw [a7]; exact hf.judgeFile, by rw [a7]; exact hf.teamFile, ?_, ?_, hf.logFile, hf.noLog, hf.logOther⟩
        · obtain ⟨a, h1, h2, h3⟩ := hf.testFile
          exact ⟨a, h1, h2, by rw [a8 a h2 (by simp)]; exact h3⟩
        · intro hkind
          obtain ⟨a, h1, h2, h3⟩ := hf.answerFile hkind
          exact ⟨a, h1, h2, by rw [a8 a h2 (by simp)]; exact h3⟩
      have ih := ihp fs1 _ a4 (by
        simp only [nextNumber, List.length_cons] at hk ⊢
        push_cast at hk ⊢
        omega) (fun r hr => by rw [a7]; exact hw r hr) hfit' last (by
          rw [List.getLast?_cons] at hl
          cases hc : (scripts prog (some (nextNumber b, message .state (prog { firstView kind p.2.1 p.2.2.1 p.2.2.2 p.1.stdin with
              pass := nextNumber b, prev := b.map Prod.snd }))) (List.map (fun p => firstView kind p.2.1 p.2.2.1 p.2.2.2 p.1.stdin) (q :: ps))).getLast? with
          | none => simp [scripts] at hc
          | some x =>
            rw [hc] at hl
            exact hl)
      intro fs'
      have hfs' : fs' = runPasses kind parse g prog ((q :: ps).map Prod.fst) fs1 := hrun
      rw [← hfs'] at ih
      refine ⟨ih.1, ih.2.1, ih.2.2.1, ?_, fun r hr => by rw [ih.2.2.2.2 r hr, a8 r hr (by simp)]⟩
      have := ih.2.2.2.1
      simp only [nextNumber, List.length_cons] at this ⊢
      convert this using 4
      omega

/-- **C105, refuted** for what was in the message files before (`MESSAGE_MODE` asks to open them at the end): a program that says nothing to the jury
leaves an empty `judgemessage.txt`, whatever an earlier pass or program wrote. -/
theorem C105_kept_refuted {kind : Role} {parse : List Char → Option R} {argv : List (List Char)} {g g' : Globals R} {dir : Path} {test answer : List Char}
    {log : Option Path} {fs : FS} (h : Fit kind parse argv g g' dir test answer log fs) (stdin old : List Char)
    (_hold : fs.content (join dir "judgemessage.txt") = some old) (hne : old ≠ []) :
    ∃ prog : View R → Script, ∃ text, (process kind false parse argv g prog stdin fs).2.content (join dir "judgemessage.txt") = some text ∧ ¬ old <+: text := by
  refine ⟨fun _ => { said := [], finish := .verdict .team 42 }, [], ?_, fun hp => hne (List.prefix_nil.1 hp)⟩
  obtain ⟨fs', h1, h2, -⟩ := C105_messages h stdin (fun _ => { said := [], finish := .verdict .team 42 }) (by simp)
  rw [h1, h2]
  rfl

/-- Even `init` alone empties both files. -/
theorem C105_init_empties {kind : Role} {parse : List Char → Option R} {argv : List (List Char)} {g g' : Globals R} {dir : Path} {test answer : List Char}
    {log : Option Path} {fs : FS} (h : Fit kind parse argv g g' dir test answer log fs) (stdin : List Char) :
    (initFiles kind parse argv g stdin fs).2.content (join dir "judgemessage.txt") = some [] ∧
    (initFiles kind parse argv g stdin fs).2.content (join dir "teammessage.txt") = some [] := by
  rw [initFiles_ok h stdin]
  exact ⟨by simp only; rw [put_other _ _ (join_ne (by decide))]; simp, by simp⟩

theorem fs_bind_error {α β : Type} {m : FsM α} {f : α → FsM β} {fs fs' : FS} {e : Stop} (h : m fs = (.error e, fs')) :
    (m >>= f) fs = (.error e, fs') := by
  rw [fs_bind, h]

theorem argAt_cases (p : CommandParser) (t : Nat) :
    (∃ a, p.raw[t]? = some a ∧ argAt p (t : Int) = .ok a) ∨ argAt p (t : Int) = .error .throw := by
  unfold argAt
  rw [if_pos (by omega), show ((t : Int)).toNat = t by omega]
  cases h : p.raw[t]? with
  | none => exact .inr rfl
  | some a => exact .inl ⟨a, rfl, rfl⟩

theorem initConstraints_cases {parse : List Char → Option R} {argv : List (List Char)} {g g' : Globals R} (h : baseInit parse argv g = .ok g') :
    (∃ f, initConstraints g'.arguments = .ok f) ∨ initConstraints g'.arguments = .error .throw := by
  obtain ⟨hi, p, hp⟩ := baseInit_ok parse argv g g' h
  have hg : g'.arguments = p := by
    rw [baseInit_eq parse argv g p hp hi] at h
    obtain ⟨sd, h1, h⟩ := bind_ok h
    obtain ⟨a, h2, h⟩ := bind_ok h
    obtain ⟨r, h3, h⟩ := bind_ok h
    obtain ⟨a', h4, h⟩ := bind_ok h
    obtain ⟨r', h5, h⟩ := bind_ok h
    obtain rfl := Except.ok.inj h
    rfl
  obtain ⟨c, h1, -, -⟩ := Init.get_spec argv constraintCommand p (by decide) (by decide +kernel) ⟨_, _, rfl⟩ hp
  unfold initConstraints
  rw [hg, h1, ok_bind]
  split
  · split
    · exact .inl ⟨_, rfl⟩
    · exact .inr rfl
  · exact .inl ⟨_, rfl⟩

theorem outputStream_cases (p : Path) (fs : FS) :
    (fs.canWrite p = true ∧ outputStream messageMode p fs = (.ok ⟨p, 0, false⟩, fs.put p (some []))) ∨
    outputStream messageMode p fs = (.error .throw, fs) := by
  cases h : fs.canWrite p with
  | true => exact .inl ⟨rfl, outputStream_ok rfl rfl h⟩
  | false =>
    right
    unfold outputStream
    rw [openFile_none h]

theorem inputStream_cases (p : Path) (fs : FS) :
    (∃ t, fs.content p = some t ∧ inputStream p fs = (.ok t, fs)) ∨ inputStream p fs = (.error .throw, fs) := by
  cases h : fs.content p with
  | some t => exact .inl ⟨t, rfl, inputStream_ok h⟩
  | none =>
    right
    unfold inputStream
    rw [h]

/-- **C105, all executions of `init`.** Only the two message files can change; `init` either returns or throws; if it returns, both message files could be
opened, and the input (and, for output validators, the answer) exists or is one of the message files, which are empty then. -/
theorem C105_init (kind : Role) (parse : List Char → Option R) (argv : List (List Char)) (g : Globals R) (stdin : List Char) (fs : FS) :
    (∀ p, (∀ dir, argv[3]? = some dir → p ≠ join dir "judgemessage.txt" ∧ p ≠ join dir "teammessage.txt") →
      (initFiles kind parse argv g stdin fs).2.content p = fs.content p) ∧
    (∀ e, (initFiles kind parse argv g stdin fs).1 = .error e → e = .throw) ∧
    (∀ x, (initFiles kind parse argv g stdin fs).1 = .ok x → ∃ g' dir, baseInit parse argv g = .ok g' ∧ argv[3]? = some dir ∧
      fs.canWrite (join dir "judgemessage.txt") = true ∧ fs.canWrite (join dir "teammessage.txt") = true ∧
      ∀ i ∈ (if kind = .output then [1, 2] else [1]), ∃ a, argv[i]? = some a ∧
        ((fs.content a).isSome ∨ a = join dir "judgemessage.txt" ∨ a = join dir "teammessage.txt")) := by
  -- a stop before or after the files were opened
  have hstop : ∀ {r : Out (Sess × View R) × FS} {fs' : FS}, r = (.error .throw, fs') →
      (∀ p, (∀ dir, argv[3]? = some dir → p ≠ join dir "judgemessage.txt" ∧ p ≠ join dir "teammessage.txt") → fs'.content p = fs.content p) →
      (∀ p, (∀ dir, argv[3]? = some dir → p ≠ join dir "judgemessage.txt" ∧ p ≠ join dir "teammessage.txt") → r.2.content p = fs.content p) ∧
      (∀ e, r.1 = .error e → e = .throw) ∧
      (∀ x, r.1 = .ok x → ∃ g' dir, baseInit parse argv g = .ok g' ∧ argv[3]? = some dir ∧
        fs.canWrite (join dir "judgemessage.txt") = true ∧ fs.canWrite (join dir "teammessage.txt") = true ∧
        ∀ i ∈ (if kind = .output then [1, 2] else [1]), ∃ a, argv[i]? = some a ∧
          ((fs.content a).isSome ∨ a = join dir "judgemessage.txt" ∨ a = join dir "teammessage.txt")) := by
    rintro r fs' rfl h
    exact ⟨h, fun e he => (Except.error.inj he).symm, fun x hx => by cases hx⟩
  unfold initFiles
  have hbase : (∃ g', baseInit parse argv g = .ok g') ∨ baseInit parse argv g = .error .throw := by
    cases hb : baseInit parse argv g with
    | ok g' => exact .inl ⟨g', rfl⟩
    | error e =>
      right
      obtain ⟨h1, h2⟩ := C69_accepts parse argv g
      have := h2 (fun hg => by
        obtain ⟨g', h', -⟩ := h1 hg
        rw [hb] at h'
        cases h')
      rw [hb] at this
      exact this
  rcases hbase with ⟨g', hb⟩ | hb
  swap
  · exact hstop (fs_bind_error (by unfold lift; rw [hb])) (fun _ _ => rfl)
  ·
    have hraw : g'.arguments.raw = argv := (C69_settings parse argv g g' hb).2.2.2.2.1
    rw [fs_bind_ok (a := g') (fs' := fs) (by unfold lift; rw [hb])]
    rcases argAt_cases g'.arguments 3 with ⟨dir, hd, ha⟩ | ha
    swap
    · exact hstop (fs_bind_error (by unfold lift; rw [show (3 : Int) = ((3 : Nat) : Int) from rfl, ha])) (fun _ _ => rfl)
    rw [hraw] at hd
    rw [fs_bind_ok (a := dir) (fs' := fs) (by unfold lift; rw [show (3 : Int) = ((3 : Nat) : Int) from rfl, ha])]
    rcases outputStream_cases (join dir "judgemessage.txt") fs with ⟨hj, ho⟩ | ho
    swap
    · exact hstop (fs_bind_error ho) (fun _ _ => rfl)
    rw [fs_bind_ok ho]
    rcases outputStream_cases (join dir "teammessage.txt") (fs.put (join dir "judgemessage.txt") (some [])) with ⟨ht, ho⟩ | ho
    swap
    · exact hstop (fs_bind_error ho) (fun p hp => put_other _ _ (hp dir hd).1)
    rw [fs_bind_ok ho]
    have hframe : ∀ p, (∀ dir, argv[3]? = some dir → p ≠ join dir "judgemessage.txt" ∧ p ≠ join dir "teammessage.txt") →
        ((fs.put (join dir "judgemessage.txt") (some [])).put (join dir "teammessage.txt") (some [])).content p = fs.content p := by
      intro p hp
      rw [put_other _ _ (hp dir hd).2, put_other _ _ (hp dir hd).1]
    have hread : ∀ {a t}, ((fs.put (join dir "judgemessage.txt") (some [])).put (join dir "teammessage.txt") (some [])).content a = some t →
        ((fs.content a).isSome ∨ a = join dir "judgemessage.txt" ∨ a = join dir "teammessage.txt") := by
      intro a t h
      by_cases h1 : a = join dir "judgemessage.txt"
      · exact .inr (.inl h1)
      by_cases h2 : a = join dir "teammessage.txt"
      · exact .inr (.inr h2)
      rw [put_other _ _ h2, put_other _ _ h1] at h
      exact .inl (by rw [h]; rfl)
    rcases argAt_cases g'.arguments 1 with ⟨a, ha1, ha⟩ | ha
    swap
    · exact hstop (fs_bind_error (by unfold lift; rw [show (1 : Int) = ((1 : Nat) : Int) from rfl, ha])) hframe
    rw [hraw] at ha1
    rw [fs_bind_ok (a := a) (by unfold lift; rw [show (1 : Int) = ((1 : Nat) : Int) from rfl, ha])]
    rcases inputStream_cases a ((fs.put (join dir "judgemessage.txt") (some [])).put (join dir "teammessage.txt") (some [])) with ⟨t, hta, hi⟩ | hi
    swap
    · exact hstop (fs_bind_error hi) hframe
    rw [fs_bind_ok hi]
    cases kind with
    | interactor =>
      dsimp only
      refine ⟨hframe, fun e he => (by cases he), fun x _ => ⟨g', dir, hb, hd, hj, ht, ?_⟩⟩
      intro i hi
      simp only [reduceCtorEq, if_false, List.mem_singleton] at hi
      subst hi
      exact ⟨a, ha1, hread hta⟩
    | output =>
      simp only
      rcases argAt_cases g'.arguments 2 with ⟨b, hb1, ha⟩ | ha
      swap
      · exact hstop (fs_bind_error (by unfold lift; rw [show (2 : Int) = ((2 : Nat) : Int) from rfl, ha])) hframe
      rw [hraw] at hb1
      rw [fs_bind_ok (a := b) (by unfold lift; rw [show (2 : Int) = ((2 : Nat) : Int) from rfl, ha])]
      rcases inputStream_cases b ((fs.put (join dir "judgemessage.txt") (some [])).put (join dir "teammessage.txt") (some [])) with ⟨t', htb, hi⟩ | hi
      swap
      · exact hstop (fs_bind_error hi) hframe
      rw [fs_bind_ok hi]
      rcases initConstraints_cases hb with ⟨f, hf⟩ | hf
      swap
      · exact hstop (fs_bind_error (by unfold lift; rw [hf])) hframe
      rw [fs_bind_ok (a := f) (by unfold lift; rw [hf])]
      refine ⟨hframe, fun e he => (by cases he), fun x _ => ⟨g', dir, hb, hd, hj, ht, ?_⟩⟩
      intro i hi
      simp only [if_true, List.mem_cons, List.not_mem_nil, or_false] at hi
      rcases hi with rfl | rfl
      · exact ⟨a, ha1, hread hta⟩
      · exact ⟨b, hb1, hread htb⟩

/-! Not vacuous: two passes of an output validator. -/

/-- A file system with an input, an answer and an old message. -/
def demoFS : FS :=
  { content := fun p => if p = "in".toList then some "7".toList else if p = "ans".toList then some "8".toList
      else if p = "fb/judgemessage.txt".toList then some "old".toList else none
    canWrite := fun _ => true }

/-- The first pass remembers its input and asks for another pass; the second one accepts. -/
def demoProgram (v : View Nat) : Script :=
  if v.pass = 0 then { said := [(.jury, "first".toList), (.state, v.test), (.next, "n".toList), (.next, "ext".toList)], finish := .next }
  else { said := [(.jury, v.prev.getD []), (.team, "bye".toList)], finish := .verdict .jury 42 }

def demoFilesArgs : List (List Char) := ["validator", "in", "ans", "fb"].map String.toList

example :
    let fs1 := process .output true demoReal demoFilesArgs (Globals.initial 9) demoProgram [] demoFS
    let fs2 := process .output true demoReal demoFilesArgs (Globals.initial 9) demoProgram [] fs1.2
    (fs1.2.content "fb/judgemessage.txt".toList, fs1.2.content "fb/nextpass.in".toList, fs1.2.content "fb/.state0".toList) =
      (some "first".toList, some "next".toList, some "7".toList) ∧
    (fs2.2.content "fb/judgemessage.txt".toList, fs2.2.content "fb/teammessage.txt".toList, fs2.2.content "fb/.pass".toList) =
      (some "7\n".toList, some "bye".toList, some "1".toList) ∧
    fs2.2.content "in".toList = some "7".toList := by decide +kernel

end ICPC.Props
