import Verif.Spec.Files
import Verif.Props.Multipass
import Verif.Props.Init

/-!
# Lemmas about files
-/

namespace ICPC.Files

open ICPC ICPC.Init ICPC.Spec ICPC.Props

variable {R : Type}

theorem join_inj {dir : Path} {a b : String} (h : join dir a = join dir b) : a = b := by
  unfold join at h
  apply String.toList_inj.1
  split at h
  · exact h
  · split at h
    · exact List.append_cancel_left h
    · exact (List.cons.inj (List.append_cancel_left h)).2

theorem join_ne {dir : Path} {a b : String} (h : a ≠ b) : join dir a ≠ join dir b := fun e => h (join_inj e)

@[simp] theorem put_self (fs : FS) (p : Path) (c : Option (List Char)) : (fs.put p c).content p = c := by simp [FS.put]

theorem put_other (fs : FS) {p q : Path} (c : Option (List Char)) (h : q ≠ p) : (fs.put p c).content q = fs.content q := by simp [FS.put, h]

@[simp] theorem put_can (fs : FS) (p : Path) (c : Option (List Char)) : (fs.put p c).canWrite = fs.canWrite := rfl

theorem fs_bind {α β : Type} (m : FsM α) (f : α → FsM β) (fs : FS) : (m >>= f) fs = match m fs with
    | (.ok a, fs') => f a fs'
    | (.error e, fs') => (.error e, fs') := rfl

theorem fs_bind_ok {α β : Type} {m : FsM α} {f : α → FsM β} {fs fs' : FS} {a : α} (h : m fs = (.ok a, fs')) : (m >>= f) fs = f a fs' := by
  rw [fs_bind, h]

theorem fs_pure {α : Type} (a : α) (fs : FS) : (pure a : FsM α) fs = (.ok a, fs) := rfl

theorem openFile_truncates {m : OpenMode} (h1 : m.app = false) (h2 : m.inp = false) {p : Path} {fs : FS} (h : fs.canWrite p = true) :
    openFile m p fs = some (⟨p, 0, false⟩, fs.put p (some [])) := by
  unfold openFile
  rw [h1, h2, h]
  rfl

theorem openFile_none {m : OpenMode} {p : Path} {fs : FS} (h : fs.canWrite p = false) : openFile m p fs = none := by
  unfold openFile
  rw [if_pos h]

theorem outputStream_ok {m : OpenMode} (h1 : m.app = false) (h2 : m.inp = false) {p : Path} {fs : FS} (h : fs.canWrite p = true) :
    outputStream m p fs = (.ok ⟨p, 0, false⟩, fs.put p (some [])) := by
  unfold outputStream
  rw [openFile_truncates h1 h2 h]

theorem inputStream_ok {p : Path} {fs : FS} {t : List Char} (h : fs.content p = some t) : inputStream p fs = (.ok t, fs) := by
  unfold inputStream
  rw [h]

theorem write_end {p : Path} {fs : FS} {t : List Char} (h : fs.content p = some t) (x : List Char) :
    OutFile.write ⟨p, t.length, false⟩ x fs = (⟨p, (t ++ x).length, false⟩, fs.put p (some (t ++ x))) := by
  unfold OutFile.write
  simp only [h, Option.getD_some, Bool.false_eq_true, if_false, List.length_append]
  rw [List.take_length, List.drop_eq_nil_of_le (by omega), List.append_nil]

/-- The open streams stand at the end of their files, which contain `w`. -/
structure FInv (dir : Path) (S : Option String) (log : Option Path) (base : FS) (w : Chan → List Char) (s : Sess) (fs : FS) : Prop where
  isDir : s.dir = dir
  isLog : s.log = log
  jury : s.jury = ⟨join dir "judgemessage.txt", (w .jury).length, false⟩
  team : s.team = ⟨join dir "teammessage.txt", (w .team).length, false⟩
  state : s.state = S.map fun n => ⟨join dir n, (w .state).length, false⟩
  buffer : S ≠ none → s.buffer = w .next
  juryC : fs.content (join dir "judgemessage.txt") = some (w .jury)
  teamC : fs.content (join dir "teammessage.txt") = some (w .team)
  stateC : ∀ n ∈ S, fs.content (join dir n) = some (w .state)
  other : ∀ p, p ≠ join dir "judgemessage.txt" → p ≠ join dir "teammessage.txt" → (∀ n ∈ S, p ≠ join dir n) → fs.content p = base.content p
  can : fs.canWrite = base.canWrite
  names : ∀ n ∈ S, n ≠ "judgemessage.txt" ∧ n ≠ "teammessage.txt"

theorem FInv.say {dir : Path} {S : Option String} {log : Option Path} {base : FS} {w : Chan → List Char} {s : Sess} {fs : FS}
    (h : FInv dir S log base w s fs) (c : Chan) (text : List Char) :
    FInv dir S log base (fun c' => if c' = c then w c' ++ text else w c') (s.say c text fs).1 (s.say c text fs).2 := by
  have hJT : join dir "judgemessage.txt" ≠ join dir "teammessage.txt" := join_ne (by decide)
  cases c with
  | jury =>
    unfold Sess.say
    simp only [h.jury, write_end h.juryC]
    refine ⟨h.isDir, h.isLog, by simp, h.team, h.state, h.buffer, by simp, ?_, ?_, ?_, h.can, h.names⟩
    · rw [put_other _ _ hJT.symm]; exact h.teamC
    · intro n hn
      rw [put_other _ _ (join_ne (h.names n hn).1)]
      exact h.stateC n hn
    · intro p h1 h2 h3
      rw [put_other _ _ h1]
      exact h.other p h1 h2 h3
  | team =>
    unfold Sess.say
    simp only [h.team, write_end h.teamC]
    refine ⟨h.isDir, h.isLog, h.jury, by simp, h.state, h.buffer, ?_, by simp, ?_, ?_, h.can, h.names⟩
    · rw [put_other _ _ hJT]; exact h.juryC
    · intro n hn
      rw [put_other _ _ (join_ne (h.names n hn).2)]
      exact h.stateC n hn
    · intro p h1 h2 h3
      rw [put_other _ _ h2]
      exact h.other p h1 h2 h3
  | state =>
    unfold Sess.say
    cases hS : S with
    | none =>
      subst hS
      have := h.state
      simp only [Option.map_none] at this
      simp only [this]
      exact ⟨h.isDir, h.isLog, h.jury, h.team, by simpa using this, h.buffer, h.juryC, h.teamC, by simp, h.other, h.can, h.names⟩
    | some n =>
      subst hS
      have := h.state
      simp only [Option.map_some] at this
      simp only [this, write_end (h.stateC n rfl)]
      refine ⟨h.isDir, h.isLog, h.jury, h.team, by simp, h.buffer, ?_, ?_, ?_, ?_, h.can, h.names⟩
      · rw [put_other _ _ (join_ne (h.names n rfl).1.symm)]; exact h.juryC
      · rw [put_other _ _ (join_ne (h.names n rfl).2.symm)]; exact h.teamC
      · intro n' hn'
        obtain rfl := Option.some.inj hn'
        simp
      · intro p h1 h2 h3
        rw [put_other _ _ (h3 n rfl)]
        exact h.other p h1 h2 h3
  | next =>
    unfold Sess.say
    cases hS : S with
    | none =>
      subst hS
      have := h.state
      simp only [Option.map_none] at this
      simp only [this]
      exact ⟨h.isDir, h.isLog, h.jury, h.team, by simpa using this, by simp, h.juryC, h.teamC, by simp, h.other, h.can, h.names⟩
    | some n =>
      subst hS
      have := h.state
      simp only [Option.map_some] at this
      simp only [this]
      exact ⟨h.isDir, h.isLog, h.jury, h.team, by simp, fun hne => by simp [h.buffer hne], h.juryC, h.teamC, h.stateC, h.other, h.can, h.names⟩

/-- Everything that the actions write to one stream. -/
def saidOf (acts : List (Chan × List Char)) (c : Chan) : List Char := ((acts.filter fun a => a.1 = c).map Prod.snd).flatten

theorem FInv.says {dir : Path} {S : Option String} {log : Option Path} {base : FS} :
    ∀ (acts : List (Chan × List Char)) {w : Chan → List Char} {s : Sess} {fs : FS}, FInv dir S log base w s fs →
    FInv dir S log base (fun c => w c ++ saidOf acts c) (acts.foldl (fun (x : Sess × FS) a => x.1.say a.1 a.2 x.2) (s, fs)).1
      (acts.foldl (fun (x : Sess × FS) a => x.1.say a.1 a.2 x.2) (s, fs)).2
  | [], w, s, fs, h => by simpa [saidOf] using h
  | a :: acts, w, s, fs, h => by
    have := FInv.says acts (h.say a.1 a.2)
    rw [List.foldl_cons]
    convert this using 2
    rename_i c
    by_cases hc : a.1 = c
    · rw [if_pos hc.symm]
      simp [saidOf, hc]
    · rw [if_neg (fun e => hc e.symm)]
      simp [saidOf, hc]

/-- What the logger does to the files. -/
theorem writeLog_frame (s : Sess) (text : List Char) (fs : FS) :
    (writeLog s text fs).canWrite = fs.canWrite ∧ ∀ p, (∀ q ∈ s.log, p ≠ q) → (writeLog s text fs).content p = fs.content p := by
  unfold writeLog
  cases hl : s.log with
  | none => exact ⟨rfl, fun _ _ => rfl⟩
  | some q =>
    cases hc : fs.canWrite q with
    | false => simp [openFile_none hc]
    | true =>
      simp only [openFile_truncates (m := outMode) rfl rfl hc]
      have := write_end (fs := fs.put q (some [])) (p := q) (t := []) (by simp) text
      simp only [List.length_nil, List.nil_append] at this
      rw [this]
      refine ⟨rfl, fun p hp => ?_⟩
      have := hp q rfl
      rw [put_other _ _ this, put_other _ _ this]

theorem writeLog_self (s : Sess) (text : List Char) (fs : FS) {q : Path} (hq : s.log = some q) (hc : fs.canWrite q = true) :
    (writeLog s text fs).content q = some text := by
  unfold writeLog
  rw [hq]
  simp only [openFile_truncates (m := outMode) rfl rfl hc]
  have := write_end (fs := fs.put q (some [])) (p := q) (t := []) (by simp) text
  simp only [List.length_nil, List.nil_append] at this
  rw [this]
  simp

theorem argAt_some {p : CommandParser} {t : Nat} {a : List Char} (h : p.raw[t]? = some a) : argAt p (t : Int) = .ok a := by
  unfold argAt
  rw [if_pos (by omega), show ((t : Int)).toNat = t by omega, h]

theorem mem_feedback {dir : Path} {n : String} (h : n ∈ ["judgemessage.txt", "teammessage.txt", ".pass", ".state0", ".state1", "nextpass.in"]) :
    join dir n ∈ feedbackFiles dir := List.mem_map.2 ⟨n, h, rfl⟩

theorem ne_of_notin {dir : Path} {p : Path} (h : p ∉ feedbackFiles dir) {n : String}
    (hn : n ∈ ["judgemessage.txt", "teammessage.txt", ".pass", ".state0", ".state1", "nextpass.in"]) : p ≠ join dir n :=
  fun e => h (e ▸ mem_feedback hn)

theorem initFiles_ok {kind : Role} {parse : List Char → Option R} {argv : List (List Char)} {g g' : Globals R} {dir : Path} {test answer : List Char}
    {log : Option Path} {fs : FS} (h : Fit kind parse argv g g' dir test answer log fs) (stdin : List Char) :
    initFiles kind parse argv g stdin fs =
      (.ok ({ dir := dir, jury := ⟨join dir "judgemessage.txt", 0, false⟩, team := ⟨join dir "teammessage.txt", 0, false⟩, log := log },
        firstView kind g' test answer stdin),
      (fs.put (join dir "judgemessage.txt") (some [])).put (join dir "teammessage.txt") (some [])) := by
  have hraw : g'.arguments.raw = argv := (C69_settings parse argv g g' h.settings).2.2.2.2.1
  obtain ⟨a, ha1, ha2, ha3⟩ := h.testFile
  unfold initFiles
  rw [fs_bind_ok (a := g') (fs' := fs) (by unfold lift; rw [h.settings])]
  rw [fs_bind_ok (a := dir) (fs' := fs) (by unfold lift; rw [show (3 : Int) = ((3 : Nat) : Int) from rfl, argAt_some (by rw [hraw]; exact h.directory)])]
  rw [fs_bind_ok (outputStream_ok rfl rfl h.judgeFile)]
  rw [fs_bind_ok (outputStream_ok rfl rfl (by rw [put_can]; exact h.teamFile))]
  rw [fs_bind_ok (a := a) (fs' := _) (by unfold lift; rw [show (1 : Int) = ((1 : Nat) : Int) from rfl, argAt_some (by rw [hraw]; exact ha1)])]
  rw [fs_bind_ok (inputStream_ok (t := test) (by
    rw [put_other _ _ (ne_of_notin ha2 (by simp)), put_other _ _ (ne_of_notin ha2 (by simp))]
    exact ha3))]
  cases kind with
  | output =>
    obtain ⟨b, hb1, hb2, hb3⟩ := h.answerFile rfl
    simp only
    rw [fs_bind_ok (a := b) (fs' := _) (by unfold lift; rw [show (2 : Int) = ((2 : Nat) : Int) from rfl, argAt_some (by rw [hraw]; exact hb1)])]
    rw [fs_bind_ok (inputStream_ok (t := answer) (by
      rw [put_other _ _ (ne_of_notin hb2 (by simp)), put_other _ _ (ne_of_notin hb2 (by simp))]
      exact hb3))]
    rw [fs_bind_ok (a := log) (fs' := _) (by unfold lift; rw [h.logFile rfl])]
    rfl
  | interactor =>
    rw [h.noLog rfl]
    rfl

/-- The streams after `init`. -/
theorem FInv.start {dir : Path} {log : Option Path} (fs : FS) :
    FInv dir none log fs (fun _ => []) { dir := dir, jury := ⟨join dir "judgemessage.txt", 0, false⟩, team := ⟨join dir "teammessage.txt", 0, false⟩, log := log }
      ((fs.put (join dir "judgemessage.txt") (some [])).put (join dir "teammessage.txt") (some [])) := by
  refine ⟨rfl, rfl, rfl, rfl, rfl, by simp, ?_, by simp, by simp, ?_, rfl, by simp⟩
  · rw [put_other _ _ (join_ne (by decide))]; simp
  · intro p h1 h2 _
    rw [put_other _ _ h2, put_other _ _ h1]

/-- The end of a program. -/
theorem FInv.finish {dir : Path} {S : Option String} {log : Option Path} {base : FS} {w : Chan → List Char} {s : Sess} {fs : FS}
    (h : FInv dir S log base w s fs) (hS : ∀ n ∈ S, n = ".state0" ∨ n = ".state1") (hlog : ∀ p ∈ log, p ∉ feedbackFiles dir) (e : End) (logged : List Char)
    (hnext : e = .next → S ≠ none ∧ base.canWrite (join dir "nextpass.in") = true) :
    ∃ fs', finishFiles s logged e fs = (.error (.exit (exitCode e)), fs') ∧ fs'.canWrite = base.canWrite ∧
      (∀ c f, (c = Chan.jury ∧ f = "judgemessage.txt") ∨ (c = .team ∧ f = "teammessage.txt") ∨ (c = .state ∧ f ∈ S) →
        fs'.content (join dir f) = some (w c ++ ending c e)) ∧
      (e = .next → fs'.content (join dir "nextpass.in") = some (w .next)) ∧
      (∀ p ∈ log, base.canWrite p = true → fs'.content p = some logged) ∧
      (∀ p, p ≠ join dir "judgemessage.txt" → p ≠ join dir "teammessage.txt" → (∀ n ∈ S, p ≠ join dir n) →
        (e = .next → p ≠ join dir "nextpass.in") → (∀ q ∈ log, p ≠ q) → fs'.content p = base.content p) := by
  have hmem : ∀ c f, (c = Chan.jury ∧ f = "judgemessage.txt") ∨ (c = .team ∧ f = "teammessage.txt") ∨ (c = .state ∧ f ∈ S) →
      f ∈ ["judgemessage.txt", "teammessage.txt", ".pass", ".state0", ".state1", "nextpass.in"] := by
    rintro c f (⟨-, rfl⟩ | ⟨-, rfl⟩ | ⟨-, h⟩)
    · simp
    · simp
    · rcases hS f h with rfl | rfl <;> simp
  have hnl : ∀ c f, (c = Chan.jury ∧ f = "judgemessage.txt") ∨ (c = .team ∧ f = "teammessage.txt") ∨ (c = .state ∧ f ∈ S) →
      ∀ q ∈ log, join dir f ≠ q := fun c f hc q hq e => ne_of_notin (hlog q hq) (hmem c f hc) e.symm
  cases e with
  | verdict c0 code =>
    have h' := h.say c0 ['\n']
    refine ⟨writeLog (s.say c0 ['\n'] fs).1 logged (s.say c0 ['\n'] fs).2, rfl, ?_, ?_, by simp, ?_, ?_⟩
    · rw [(writeLog_frame _ _ _).1]; exact h'.can
    · intro c f hc
      rw [(writeLog_frame _ _ _).2 _ (by rw [h'.isLog]; exact hnl c f hc)]
      rcases hc with ⟨rfl, rfl⟩ | ⟨rfl, rfl⟩ | ⟨rfl, hf⟩
      · rw [h'.juryC]; simp only [ending, eq_comm (a := c0)]; split <;> simp
      · rw [h'.teamC]; simp only [ending, eq_comm (a := c0)]; split <;> simp
      · rw [h'.stateC f hf]; simp only [ending, eq_comm (a := c0)]; split <;> simp
    · intro p hp hc
      exact writeLog_self _ _ _ (by rw [h'.isLog]; exact hp) (by rw [h'.can]; exact hc)
    · intro p h1 h2 h3 h4 h5
      rw [(writeLog_frame _ _ _).2 _ (by rw [h'.isLog]; exact h5)]
      exact h'.other p h1 h2 h3
  | next =>
    obtain ⟨hn1, hn2⟩ := hnext rfl
    simp only [finishFiles]
    rw [fs_bind_ok (outputStream_ok (m := outMode) rfl rfl (by rw [h.can, h.isDir]; exact hn2)), h.isDir, h.buffer hn1]
    have hw := write_end (fs := fs.put (join dir "nextpass.in") (some [])) (p := join dir "nextpass.in") (t := []) (by simp) (w .next)
    simp only [List.length_nil, List.nil_append] at hw
    have hfr := writeLog_frame s logged ((fs.put (join dir "nextpass.in") (some [])).put (join dir "nextpass.in") (some (w .next)))
    rw [h.isLog] at hfr
    refine ⟨writeLog s logged ((fs.put (join dir "nextpass.in") (some [])).put (join dir "nextpass.in") (some (w .next))), ?_, ?_, ?_, ?_, ?_, ?_⟩
    · show ((Except.error (Stop.exit 42) : Out Unit), writeLog s logged (OutFile.write ⟨join dir "nextpass.in", 0, false⟩ (w .next) (fs.put (join dir "nextpass.in") (some []))).2) = _
      rw [hw]
      rfl
    · rw [hfr.1]; exact h.can
    · intro c f hc
      have hne : f ≠ "nextpass.in" := by
        rcases hc with ⟨-, rfl⟩ | ⟨-, rfl⟩ | ⟨-, hf⟩
        · decide
        · decide
        · rcases hS f hf with rfl | rfl <;> decide
      rw [hfr.2 _ (hnl c f hc), put_other _ _ (join_ne hne), put_other _ _ (join_ne hne)]
      rcases hc with ⟨rfl, rfl⟩ | ⟨rfl, rfl⟩ | ⟨rfl, hf⟩
      · rw [h.juryC]; simp [ending]
      · rw [h.teamC]; simp [ending]
      · rw [h.stateC f hf]; simp [ending]
    · intro _
      rw [hfr.2 _ fun q hq e => ne_of_notin (hlog q hq) (n := "nextpass.in") (by simp) e.symm]
      simp
    · intro p hp hc
      exact writeLog_self _ _ _ (by rw [h.isLog]; exact hp) (by rw [put_can, put_can, h.can]; exact hc)
    · intro p h1 h2 h3 h4 h5
      rw [hfr.2 _ h5, put_other _ _ (h4 trivial), put_other _ _ (h4 trivial)]
      exact h.other p h1 h2 h3

theorem passState_eq {dir : Path} {fs : FS} {b : Option (Nat × List Char)} (h : PassBefore dir fs b) (hk : (nextNumber b : Int) < 2 ^ 63) :
    passState dir fs = (.ok ((nextNumber b : Int), stateFile (nextNumber b), b.map Prod.snd), fs) := by
  unfold passState
  rw [fs_bind_ok (m := look) (a := fs) (fs' := fs) rfl]
  cases b with
  | none =>
    have : fs.content (join dir ".pass") = none := h
    rw [this]
    rfl
  | some x =>
    obtain ⟨k, t⟩ := x
    obtain ⟨h1, h2⟩ := (show fs.content (join dir ".pass") = some (printInt k) ∧ fs.content (join dir (stateFile k)) = some t from h)
    rw [h1]
    have hk' : ((k : Int) + 1) < 2 ^ 63 := by simpa [nextNumber] using hk
    have hr : chk (readPass (printInt k) + 1) = .ok ((k + 1 : Nat) : Int) := by
      rw [readPass_print k (by omega), chk_ok (⟨by omega, by omega⟩ : I64 ((k : Int) + 1))]
      push_cast; rfl
    have hfiles : (if ((k + 1 : Nat) : Int) % 2 ≠ 0 then (".state1", ".state0") else (".state0", ".state1")) =
        (stateFile (k + 1), stateFile k) := by
      unfold stateFile
      rcases Nat.mod_two_eq_zero_or_one k with h | h
      · rw [if_pos (by omega), if_neg (by omega), if_pos h]
      · rw [if_neg (by omega), if_pos (by omega), if_neg (by omega)]
    simp only
    rw [fs_bind_ok (a := ((k + 1 : Nat) : Int)) (fs' := fs) (by unfold lift; rw [hr])]
    simp only [hfiles]
    rw [fs_bind_ok (inputStream_ok h2)]
    rfl

theorem stateFile_or (k : Nat) : stateFile k = ".state0" ∨ stateFile k = ".state1" := by unfold stateFile; split <;> simp

/-- `Multipass::init` opens the other state file and counts the pass. -/
theorem multipassFiles_ok {dir : Path} {log : Option Path} {base fs : FS} {s : Sess} {b : Option (Nat × List Char)} (v : View R)
    (h : FInv dir none log base (fun _ => []) s fs) (hb : s.buffer = []) (hbef : PassBefore dir base b) (hk : (nextNumber b : Int) < 2 ^ 63)
    (hst : base.canWrite (join dir (stateFile (nextNumber b))) = true) :
    ∃ s' fs' base', multipassFiles s v fs = (.ok (s', { v with pass := nextNumber b, prev := b.map Prod.snd }), fs') ∧
      FInv dir (some (stateFile (nextNumber b))) log base' (fun _ => []) s' fs' ∧ base'.canWrite = base.canWrite ∧
      (base.canWrite (join dir ".pass") = true → base'.content (join dir ".pass") = some (printInt (nextNumber b))) ∧
      (∀ p, p ≠ join dir ".pass" → base'.content p = base.content p) := by
  have hother : ∀ n, n ≠ "judgemessage.txt" → n ≠ "teammessage.txt" → fs.content (join dir n) = base.content (join dir n) := fun n h1 h2 =>
    h.other _ (join_ne h1) (join_ne h2) (by simp)
  have hbef' : PassBefore dir fs b := by
    cases b with
    | none => show fs.content _ = none; rw [hother _ (by decide) (by decide)]; exact hbef
    | some x =>
      obtain ⟨k, t⟩ := x
      refine ⟨?_, ?_⟩
      · rw [hother _ (by decide) (by decide)]; exact hbef.1
      · show fs.content (join dir (stateFile k)) = some t
        rw [hother _ (by rcases stateFile_or k with e | e <;> rw [e] <;> decide) (by rcases stateFile_or k with e | e <;> rw [e] <;> decide)]
        exact hbef.2
  generalize hn : nextNumber b = N at *
  have hN1 : stateFile N ≠ "judgemessage.txt" := by rcases stateFile_or N with e | e <;> rw [e] <;> decide
  have hN2 : stateFile N ≠ "teammessage.txt" := by rcases stateFile_or N with e | e <;> rw [e] <;> decide
  have hN3 : stateFile N ≠ ".pass" := stateFile_ne_pass N
  have hps := passState_eq hbef' (by rw [hn]; exact hk)
  rw [hn] at hps
  unfold multipassFiles
  rw [h.isDir, fs_bind_ok hps]
  simp only
  rw [fs_bind_ok (m := change _) (a := ()) rfl]
  rw [fs_bind_ok (outputStream_ok (m := outMode) rfl rfl (by rw [put_can, h.can]; exact hst))]
  generalize hfs2 : (fs.put (join dir (stateFile N)) none).put (join dir (stateFile N)) (some []) = fs2
  have hcan2 : fs2.canWrite = base.canWrite := by rw [← hfs2]; exact h.can
  have hc2 : ∀ p, p ≠ join dir (stateFile N) → fs2.content p = fs.content p := by
    intro p hp
    rw [← hfs2, put_other _ _ hp, put_other _ _ hp]
  have hs2 : fs2.content (join dir (stateFile N)) = some [] := by rw [← hfs2]; simp
  cases hc : base.canWrite (join dir ".pass") with
  | false =>
    rw [fs_bind_ok (m := change _) (a := ()) (fs' := fs2) (by
      simp only [change]
      rw [openFile_none (by rw [hcan2]; exact hc)])]
    refine ⟨_, fs2, base, rfl, ⟨rfl, h.isLog, h.jury, h.team, rfl, fun _ => hb, ?_, ?_, ?_, ?_, hcan2, ?_⟩, rfl, by simp, fun _ _ => rfl⟩
    · rw [hc2 _ (join_ne hN1.symm)]; exact h.juryC
    · rw [hc2 _ (join_ne hN2.symm)]; exact h.teamC
    · intro n hn; obtain rfl := Option.some.inj hn; exact hs2
    · intro p h1 h2 h3
      rw [hc2 _ (h3 _ rfl)]
      exact h.other p h1 h2 (by simp)
    · intro n hn; obtain rfl := Option.some.inj hn; exact ⟨hN1, hN2⟩
  | true =>
    have hw := write_end (fs := fs2.put (join dir ".pass") (some [])) (p := join dir ".pass") (t := []) (by simp) (printInt N)
    simp only [List.length_nil, List.nil_append] at hw
    rw [fs_bind_ok (m := change _) (a := ()) (fs' := (fs2.put (join dir ".pass") (some [])).put (join dir ".pass") (some (printInt N))) (by
      simp only [change]
      rw [openFile_truncates (m := outMode) rfl rfl (by rw [hcan2]; exact hc)]
      simp only
      rw [hw])]
    refine ⟨_, _, base.put (join dir ".pass") (some (printInt N)), rfl,
      ⟨rfl, h.isLog, h.jury, h.team, rfl, fun _ => hb, ?_, ?_, ?_, ?_, hcan2, ?_⟩, rfl, by simp, fun p hp => put_other _ _ hp⟩
    · rw [put_other _ _ (join_ne (by decide)), put_other _ _ (join_ne (by decide)), hc2 _ (join_ne hN1.symm)]; exact h.juryC
    · rw [put_other _ _ (join_ne (by decide)), put_other _ _ (join_ne (by decide)), hc2 _ (join_ne hN2.symm)]; exact h.teamC
    · intro n hn; obtain rfl := Option.some.inj hn
      rw [put_other _ _ (join_ne hN3), put_other _ _ (join_ne hN3)]
      exact hs2
    · intro p h1 h2 h3
      by_cases hp : p = join dir ".pass"
      · subst hp; simp
      · rw [put_other _ _ hp, put_other _ _ hp, put_other _ _ hp, hc2 _ (h3 _ rfl)]
        exact h.other p h1 h2 (by simp)
    · intro n hn; obtain rfl := Option.some.inj hn; exact ⟨hN1, hN2⟩

end ICPC.Files
