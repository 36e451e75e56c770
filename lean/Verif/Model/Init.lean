import Verif.Model.Command

/-!
# Settings and the `init` functions (src/validate.h 2728-2957, 3011-3025)

`Real` is an arbitrary type `R`; `parse` is `details::parse<Real>` and `eps` is `DEFAULT_EPS` (line 83). Opening files succeeds here; files and
the output streams are in `Model/Files`. What remains of the settings when `init` throws is not described.
-/

namespace ICPC.Init

/-- The four settings (src/validate.h 2803-2806). -/
structure Settings (R : Type) where
  absTol : R
  relTol : R
  space : Bool
  caseS : Bool
  deriving DecidableEq, Repr

/-- The global state: the settings, `details::initialized` (src/validate.h 2729-2732), `arguments` (line 2801) and the word given to
`Random::seed`, if any. -/
structure Globals (R : Type) where
  settings : Settings R
  inited : Bool := false
  arguments : CommandParser := { raw := [] }
  seed : Option (BitVec 64) := none

/-- The initial state (src/validate.h 2803-2806). -/
def Globals.initial {R : Type} (eps : R) : Globals R := { settings := ⟨eps, eps, false, false⟩ }

variable {R : Type}

/-- `SettingBase::operator=` (src/validate.h 2767-2771); `f` replaces the value of one setting. -/
def Globals.assign (g : Globals R) (f : Settings R → Settings R) : Out (Globals R) := do
  judgeAssert (!g.inited)
  pure { g with settings := f g.settings }

/-- `ParameterBase::asReal(defaultValue)` (src/validate.h 1956-1962). -/
def asRealOr (parse : List Char → Option R) (token : Option (List Char)) (default : R) : Out R :=
  match token with
  | none => .ok default
  | some t => match parse t with
    | some v => .ok v
    | none => .error .throw

/-- `SEED_COMMAND` (src/validate.h 138). -/
def seedCommand : List Char := "--seed".toList

/-- `CONSTRAINT_COMMAND` (src/validate.h 137). -/
def constraintCommand : List Char := "--constraints_file".toList

/-- `FLOAT_TOLERANCE` (src/validate.h 130). -/
def floatTolerance : List Char := "float_tolerance".toList

/-- `FLOAT_ABSOLUTE_TOLERANCE` (src/validate.h 128). -/
def floatAbsoluteTolerance : List Char := "float_absolute_tolerance".toList

/-- `FLOAT_RELATIVE_TOLERANCE` (src/validate.h 129). -/
def floatRelativeTolerance : List Char := "float_relative_tolerance".toList

/-- `SPACE_SENSITIVE` (src/validate.h 127). -/
def spaceChangeSensitive : List Char := "space_change_sensitive".toList

/-- `CASE_SENSITIVE` (src/validate.h 126). -/
def caseSensitiveFlag : List Char := "case_sensitive".toList

/-- `if (auto seed = arguments[SEED_COMMAND]) Random::seed(...)` (src/validate.h 2842). -/
def seedFrom (g : Globals R) : Out (Globals R) := do
  let c ← g.arguments.get seedCommand
  if c.found then do
    let x ← asInteger c.token
    pure { g with seed := some (BitVec.ofInt 64 x) }
  else pure g

/-- `floatAbsTol = arguments.getRaw(flag).asReal(floatAbsTol)` (src/validate.h 2844-2845, 2847). -/
def absFrom (parse : List Char → Option R) (flag : List Char) (g : Globals R) : Out (Globals R) := do
  let c ← g.arguments.getRaw flag
  let v ← asRealOr parse c.token g.settings.absTol
  g.assign fun s => { s with absTol := v }

/-- `floatRelTol = arguments.getRaw(flag).asReal(floatRelTol)` (src/validate.h 2844, 2846, 2848). -/
def relFrom (parse : List Char → Option R) (flag : List Char) (g : Globals R) : Out (Globals R) := do
  let c ← g.arguments.getRaw flag
  let v ← asRealOr parse c.token g.settings.relTol
  g.assign fun s => { s with relTol := v }

/-- `if (arguments.getRaw(SPACE_SENSITIVE)) spaceSensitive = true` (src/validate.h 2850). -/
def spaceFrom (g : Globals R) : Out (Globals R) := do
  let c ← g.arguments.getRaw spaceChangeSensitive
  if c.found then g.assign fun s => { s with space := true } else pure g

/-- `if (arguments.getRaw(CASE_SENSITIVE)) caseSensitive = true` (src/validate.h 2851). -/
def caseFrom (g : Globals R) : Out (Globals R) := do
  let c ← g.arguments.getRaw caseSensitiveFlag
  if c.found then g.assign fun s => { s with caseS := true } else pure g

/-- `ValidateBase::details::init` (src/validate.h 2835-2854). -/
def baseInit (parse : List Char → Option R) (argv : List (List Char)) (g : Globals R) : Out (Globals R) := do
  judgeAssert (!g.inited)
  let args ← parseArgs argv
  let g ← seedFrom { g with arguments := args }
  let g ← absFrom parse floatTolerance g
  let g ← relFrom parse floatTolerance g
  let g ← absFrom parse floatAbsoluteTolerance g
  let g ← relFrom parse floatRelativeTolerance g
  let g ← spaceFrom g
  let g ← caseFrom g
  pure { g with inited := true }

/-- Where a stream reads from. -/
inductive Source where
  | stdin
  | file (path : List Char)
  deriving DecidableEq, Repr

/-- The fields of an `InputStream` that its constructors set (src/validate.h 2256-2316). -/
structure StreamArgs (R : Type) where
  source : Source
  space : Bool
  caseS : Bool
  onFail : Nat
  absTol : R
  relTol : R
  deriving DecidableEq, Repr

/-- `CommandParser::operator[](Integer)` (src/validate.h 2091-2094). -/
def argAt (p : CommandParser) (t : Int) : Out (List Char) :=
  if 0 ≤ t then
    match p.raw[t.toNat]? with
    | some s => .ok s
    | none => .error .throw
  else .error .throw

/-- `Verdicts::WA` and `Verdicts::FAIL` (src/validate.h 217, 219). -/
def WA : Nat := 43
@[inherit_doc WA] def FAIL : Nat := 1

/-- `initConstraints` (src/validate.h 2862-2866): the file of the logger, if any. -/
def initConstraints (p : CommandParser) : Out (Option (List Char)) := do
  let c ← p.get constraintCommand
  if c.found then
    match c.token with
    | some t => .ok (some t)
    | none => .error .throw
  else .ok none

/-- `spaceSensitive = true; caseSensitive = true;` (src/validate.h 2879-2880, 2901-2902). -/
def strictSettings (g : Globals R) : Out (Globals R) := do
  let g ← g.assign fun s => { s with space := true }
  g.assign fun s => { s with caseS := true }

/-- A stream from a file (src/validate.h 2907, 2930, 2931, 2954); the tolerances are the defaults of the constructor (lines 2281-2282). -/
def fileStream (eps : R) (g : Globals R) (t : Int) : Out (StreamArgs R) := do
  let path ← argAt g.arguments t
  pure ⟨.file path, false, g.settings.caseS, FAIL, eps, eps⟩

/-- The stream from standard input with the default tolerances (src/validate.h 2908, 2932, 2955). -/
def stdinStream (eps : R) (g : Globals R) : StreamArgs R := ⟨.stdin, g.settings.space, g.settings.caseS, WA, eps, eps⟩

/-- `InputValidator::init` (src/validate.h 2878-2887): the global state, `testIn` and the file of the logger. -/
def inputInit (parse : List Char → Option R) (argv : List (List Char)) (g : Globals R) : Out (Globals R × StreamArgs R × Option (List Char)) := do
  let g ← strictSettings g
  let g ← baseInit parse argv g
  let f ← initConstraints g.arguments
  pure (g, ⟨.stdin, g.settings.space, g.settings.caseS, WA, g.settings.absTol, g.settings.relTol⟩, f)

/-- `AnswerValidator::init` (src/validate.h 2900-2910): the global state, `testIn`, `ans` and the file of the logger. -/
def answerInit (parse : List Char → Option R) (eps : R) (argv : List (List Char)) (g : Globals R) :
    Out (Globals R × StreamArgs R × StreamArgs R × Option (List Char)) := do
  let g ← strictSettings g
  let g ← baseInit parse argv g
  let testIn ← fileStream eps g 1
  let f ← initConstraints g.arguments
  pure (g, testIn, stdinStream eps g, f)

/-- `OutputValidator::init` (src/validate.h 2925-2934): the global state, `testIn`, `juryAns`, `teamAns` and the file of the logger.
`arguments[3]` names the directory for messages. -/
def outputInit (parse : List Char → Option R) (eps : R) (argv : List (List Char)) (g : Globals R) :
    Out (Globals R × StreamArgs R × StreamArgs R × StreamArgs R × Option (List Char)) := do
  let g ← baseInit parse argv g
  let _ ← argAt g.arguments 3
  let testIn ← fileStream eps g 1
  let juryAns ← fileStream eps g 2
  let f ← initConstraints g.arguments
  pure (g, testIn, juryAns, stdinStream eps g, f)

/-- `Interactor::init` (src/validate.h 2948-2956): the global state, `testIn` and `fromTeam`. -/
def interactorInit (parse : List Char → Option R) (eps : R) (argv : List (List Char)) (g : Globals R) :
    Out (Globals R × StreamArgs R × StreamArgs R) := do
  let g ← baseInit parse argv g
  let _ ← argAt g.arguments 3
  let testIn ← fileStream eps g 1
  pure (g, testIn, stdinStream eps g)

/-- `Generator::init` (src/validate.h 3018-3022). -/
def generatorInit (parse : List Char → Option R) (argv : List (List Char)) (g : Globals R) : Out (Globals R) := baseInit parse argv g

/-- `~InitGuard` (src/validate.h 2734-2740), if no exception is under way. -/
def atExit (g : Globals R) : Out Unit := judgeAssert g.inited

end ICPC.Init
