import Verif.Model.Files

/-!
# What the files should contain
-/

namespace ICPC.Spec

open Files Init

/-- Everything written to one stream. -/
def said (c : Chan) (script : Script) : List Char := ((script.said.filter fun a => a.1 = c).map Prod.snd).flatten

/-- A verdict ends the line of the stream that it is written to. -/
def ending (c : Chan) : End → List Char
  | .verdict c' _ => if c' = c then ['\n'] else []
  | .next => []

/-- The text on one stream: what was written, and the line break of the verdict. -/
def message (c : Chan) (script : Script) : List Char := said c script ++ ending c script.finish

/-- The files of the feedback directory that a program uses. -/
def feedbackFiles (dir : Path) : List Path :=
  ["judgemessage.txt", "teammessage.txt", ".pass", ".state0", ".state1", "nextpass.in"].map (join dir)

/-- The exit code. -/
def exitCode : End → Nat
  | .verdict _ code => code
  | .next => 42

variable {R : Type}

/-- What `init` needs: the settings can be read, the messages can be written, and the files with the input and the answer exist. -/
structure Fit (kind : Role) (parse : List Char → Option R) (argv : List (List Char)) (g g' : Globals R) (dir : Path) (test answer : List Char)
    (log : Option Path) (fs : FS) : Prop where
  settings : baseInit parse argv g = .ok g'
  directory : argv[3]? = some dir
  judgeFile : fs.canWrite (join dir "judgemessage.txt") = true
  teamFile : fs.canWrite (join dir "teammessage.txt") = true
  testFile : ∃ a, argv[1]? = some a ∧ a ∉ feedbackFiles dir ∧ fs.content a = some test
  answerFile : kind = .output → ∃ b, argv[2]? = some b ∧ b ∉ feedbackFiles dir ∧ fs.content b = some answer
  logFile : kind = .output → initConstraints g'.arguments = .ok log
  noLog : kind = .interactor → log = none
  logOther : ∀ p ∈ log, p ∉ feedbackFiles dir

/-- What the program can read in its first pass, or without passes. -/
def firstView (kind : Role) (g' : Globals R) (test answer stdin : List Char) : View R :=
  { globals := g', test := test, answer := if kind = .output then some answer else none, team := stdin }

/-- The pass before, if there was one: its number and what it left for the next one. -/
def PassBefore (dir : Path) (fs : FS) : Option (Nat × List Char) → Prop
  | none => fs.content (join dir ".pass") = none
  | some (k, t) => fs.content (join dir ".pass") = some (printInt k) ∧ fs.content (join dir (if k % 2 = 0 then ".state0" else ".state1")) = some t

/-- The number of the next pass. -/
def nextNumber : Option (Nat × List Char) → Nat
  | none => 0
  | some (k, _) => k + 1

end ICPC.Spec
