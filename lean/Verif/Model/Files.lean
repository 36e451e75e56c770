import Verif.Model.Init
import Verif.Model.Multipass

/-!
# Files of output validators and interactors (src/validate.h 133, 244-260, 2269-2297, 2860-3009)

The file system maps paths to contents; it also says which paths can be opened for writing. Different paths are different files, and a file that
exists can be read. `std::filesystem::remove` succeeds. A stream that reads a file yields what the file contains when it is opened. What a program does
between `init` and its end is a function of everything that it can read; what it sends to the standard output is not modelled. When a function throws,
the program ends without a verdict, and only what happened to the files before is described.
-/

namespace ICPC.Files

open ICPC.Init

abbrev Path := List Char

/-- The file system. -/
structure FS where
  content : Path → Option (List Char)
  canWrite : Path → Bool

/-- Replacing, creating or removing one file. -/
def FS.put (fs : FS) (p : Path) (c : Option (List Char)) : FS := { fs with content := fun q => if q = p then c else fs.content q }

/-- Functions that may stop; the files are in the state at that point. -/
def FsM (α : Type) : Type := FS → Out α × FS

instance : Monad FsM where
  pure a := fun fs => (.ok a, fs)
  bind m f := fun fs => match m fs with
    | (.ok a, fs') => f a fs'
    | (.error e, fs') => (.error e, fs')

/-- Functions that do not touch files. -/
def lift {α : Type} (x : Out α) : FsM α := fun fs => (x, fs)

/-- The file system as it is. -/
def look : FsM FS := fun fs => (.ok fs, fs)

/-- Changes that always succeed. -/
def change (f : FS → FS) : FsM Unit := fun fs => (.ok (), f fs)

/-- `std::filesystem::path::operator/` with a file name on the right. -/
def join (dir : Path) (name : String) : Path :=
  match dir.getLast? with
  | none => name.toList
  | some c => if c = '/' then dir ++ name.toList else dir ++ '/' :: name.toList

/-- `std::ios_base::openmode`. -/
structure OpenMode where
  app : Bool := false
  ate : Bool := false
  trunc : Bool := false
  inp : Bool := false
  out : Bool := false

/-- `MESSAGE_MODE` (src/validate.h 133). -/
def messageMode : OpenMode := { out := true, ate := true }

/-- `std::ios::out`, the mode of `nextstate` (src/validate.h 2990) and the default of `std::ofstream`. -/
def outMode : OpenMode := { out := true }

/-- An open `std::ofstream`. -/
structure OutFile where
  path : Path
  pos : Nat
  app : Bool
  deriving DecidableEq, Repr

/-- `std::ofstream(path, mode)`: table of `basic_filebuf::open` in the standard (`ate` is no part of the table, it only moves to the end). -/
def openFile (m : OpenMode) (p : Path) (fs : FS) : Option (OutFile × FS) :=
  if fs.canWrite p = false then none
  else if m.app then
    let old := (fs.content p).getD []
    some (⟨p, old.length, true⟩, fs.put p (some old))
  else if m.inp && !m.trunc then
    match fs.content p with
    | none => none
    | some old => some (⟨p, if m.ate then old.length else 0, false⟩, fs)
  else some (⟨p, 0, false⟩, fs.put p (some []))

/-- Writing to an open file. -/
def OutFile.write (f : OutFile) (text : List Char) (fs : FS) : OutFile × FS :=
  let old := (fs.content f.path).getD []
  let pos := if f.app then old.length else f.pos
  ({ f with pos := pos + text.length }, fs.put f.path (some (old.take pos ++ text ++ old.drop (pos + text.length))))

/-- `OutputStream(path, mode)` (src/validate.h 257-260). -/
def outputStream (m : OpenMode) (p : Path) : FsM OutFile := fun fs =>
  match openFile m p fs with
  | some (f, fs') => (.ok f, fs')
  | none => (.error .throw, fs)

/-- `InputStream(path, ...)` (src/validate.h 2277-2295): what can be read from it. -/
def inputStream (p : Path) : FsM (List Char) := fun fs =>
  match fs.content p with
  | some t => (.ok t, fs)
  | none => (.error .throw, fs)

/-- What the program has to do with files: the open streams, `details::nextpassBuffer` (src/validate.h 2966) and the directory. -/
structure Sess where
  dir : Path
  jury : OutFile
  team : OutFile
  /-- `nextstate`; without `Multipass::init` it writes to `details::nullStream` -/
  state : Option OutFile := none
  buffer : List Char := []
  /-- the file of the constraints -/
  log : Option Path := none

/-- What a program can read. -/
structure View (R : Type) where
  globals : Globals R
  test : List Char
  /-- `juryAns`, only for output validators -/
  answer : Option (List Char)
  /-- `teamAns` or `fromTeam` -/
  team : List Char
  pass : Int := 0
  /-- `prevstate`, if it is initialised -/
  prev : Option (List Char) := none

/-- Both kinds of programs that get a feedback directory. -/
inductive Role where
  | output
  | interactor
  deriving DecidableEq, Repr

variable {R : Type}

/-- `OutputValidator::init` (src/validate.h 2925-2935) and `Interactor::init` (lines 2948-2956). -/
def initFiles (kind : Role) (parse : List Char → Option R) (argv : List (List Char)) (g : Globals R) (stdin : List Char) : FsM (Sess × View R) := do
  let g ← lift (baseInit parse argv g)
  let dir ← lift (argAt g.arguments 3)
  let jury ← outputStream messageMode (join dir "judgemessage.txt")
  let team ← outputStream messageMode (join dir "teammessage.txt")
  let a ← lift (argAt g.arguments 1)
  let test ← inputStream a
  match kind with
  | .output => do
    let b ← lift (argAt g.arguments 2)
    let answer ← inputStream b
    let log ← lift (initConstraints g.arguments)
    pure ({ dir := dir, jury := jury, team := team, log := log }, { globals := g, test := test, answer := some answer, team := stdin })
  | .interactor =>
    pure ({ dir := dir, jury := jury, team := team }, { globals := g, test := test, answer := none, team := stdin })

/-- The first part of `Multipass::init` (src/validate.h 2975-2988): the number of the pass, the file for `nextstate` and the text of `prevstate`. -/
def passState (dir : Path) : FsM (Int × String × Option (List Char)) := do
  let fs ← look
  match fs.content (join dir ".pass") with
  | some t => do
    let pass ← lift (chk (readPass t + 1))
    let (next, prev) := if pass % 2 ≠ 0 then (".state1", ".state0") else (".state0", ".state1")
    let text ← inputStream (join dir prev)
    pure (pass, next, some text)
  | none => pure (0, ".state0", none)

/-- `Multipass::init` (src/validate.h 2972-2994); whether `.pass` could be opened is not checked. -/
def multipassFiles (s : Sess) (v : View R) : FsM (Sess × View R) := do
  let (pass, next, prev) ← passState s.dir
  change fun fs => fs.put (join s.dir next) none
  let f ← outputStream outMode (join s.dir next)
  change fun fs => match openFile outMode (join s.dir ".pass") fs with
    | some (f, fs) => (f.write (printInt pass) fs).2
    | none => fs
  pure ({ s with state := some f }, { v with pass := pass, prev := prev })

/-- The output streams of a program. -/
inductive Chan where
  | jury
  | team
  | state
  | next
  deriving DecidableEq, Repr

/-- `stream << text`. -/
def Sess.say (c : Chan) (text : List Char) (s : Sess) (fs : FS) : Sess × FS :=
  match c with
  | .jury => let (f, fs) := s.jury.write text fs; ({ s with jury := f }, fs)
  | .team => let (f, fs) := s.team.write text fs; ({ s with team := f }, fs)
  | .state => match s.state with
    | some f => let (f, fs) := f.write text fs; ({ s with state := some f }, fs)
    | none => (s, fs)
  | .next => match s.state with
    | some _ => ({ s with buffer := s.buffer ++ text }, fs)
    | none => (s, fs)

/-- Everything that a program writes, one piece after the other. -/
def sayAll (said : List (Chan × List Char)) (s : Sess) : FsM Sess := fun fs =>
  let r := said.foldl (fun (x : Sess × FS) a => x.1.say a.1 a.2 x.2) (s, fs)
  (.ok r.1, r.2)

/-- How a program ends: `stream << verdict` (src/validate.h 209-212) or `NEXT()` (lines 2996-3003). -/
inductive End where
  | verdict (c : Chan) (code : Nat)
  | next
  deriving DecidableEq, Repr

/-- What a program writes, how it ends, and what its constraints logger prints. -/
structure Script where
  said : List (Chan × List Char)
  finish : End
  logged : List Char := []

/-- `~ConstraintsLogger` (src/validate.h 2226-2249), which runs at the end; whether the file could be opened is not checked. -/
def writeLog (s : Sess) (text : List Char) (fs : FS) : FS :=
  match s.log with
  | none => fs
  | some p => match openFile outMode p fs with
    | some (f, fs) => (f.write text fs).2
    | none => fs

/-- The end of a program. -/
def finishFiles (s : Sess) (logged : List Char) : End → FsM Unit
  | .verdict c code => fun fs =>
    let (s, fs) := s.say c ['\n'] fs
    (.error (.exit code), writeLog s logged fs)
  | .next => do
    let f ← outputStream outMode (join s.dir "nextpass.in")
    change fun fs => (f.write s.buffer fs).2
    change (writeLog s logged)
    lift (.error (.exit 42))

/-- A program with `using namespace OutputValidator` or `Interactor`, and `Multipass` if `multi`. -/
def process (kind : Role) (multi : Bool) (parse : List Char → Option R) (argv : List (List Char)) (g : Globals R) (prog : View R → Script)
    (stdin : List Char) : FsM Unit := do
  let x ← initFiles kind parse argv g stdin
  let (s, v) ← (if multi then multipassFiles x.1 x.2 else pure x : FsM (Sess × View R))
  let script := prog v
  let s ← sayAll script.said s
  finishFiles s script.logged script.finish

end ICPC.Files
