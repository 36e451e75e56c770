import Verif.Model.GraphIO
import Verif.Model.RandSeq
import Verif.Model.Command

/-!
# The example programs (example/*.cpp)

The programs after `init`; the streams that `init` makes are in `Model/Init`.  Messages to jury and team are left out, verdicts end the
program.
-/

namespace ICPC.Examples

open GraphIO (AC WA verdict)

/-- example/inputValidator.cpp 15-27. -/
def inputValidator (cfg : StreamCfg) (s : List Char) : Out Unit := do
  let (_, s) ← Stream.string cfg s
  let s ← Stream.space cfg s
  let (_, s) ← Stream.stringBounded cfg 5 7 s
  let s ← Stream.newline cfg s
  let (_, s) ← Stream.integerBounded cfg 5 7 s
  let s ← Stream.newline cfg s
  let _ ← Stream.eof cfg s
  verdict AC

/-- The loop of example/inputValidator.constraints.cpp 12-14. -/
def constraintsLoop (cfg : StreamCfg) : Nat → Int → List Char → Out (Int × List Char)
  | 0, sum, s => .ok (sum, s)
  | k + 1, sum, s => do
    let (a, s) ← Stream.integerBounded cfg 1 1000000 s
    let sum ← chk (sum + a)
    constraintsLoop cfg k sum s

/-- example/inputValidator.constraints.cpp 10-19, without the constraint file (that is `Model/Constraint`). -/
def constraints (cfg : StreamCfg) (s : List Char) : Out Unit := do
  let (n, s) ← Stream.integerBounded cfg 1 100000 s
  let _ ← constraintsLoop cfg n.toNat 0 s
  verdict AC

/-- example/answerValidator.cpp 11-16. -/
def answerValidator (testCfg ansCfg : StreamCfg) (test ans : List Char) : Out Unit := do
  let (t, _) ← Stream.integer testCfg test
  let (_, s) ← Stream.many ansCfg (Stream.integerBounded ansCfg 0 100) t '\n' ans
  let s ← Stream.newline ansCfg s
  let _ ← Stream.eof ansCfg s
  verdict AC

/-- The word that stands for no answer. -/
def impossible : List Char := "impossible".toList

/-- The team says that there is no answer (example/outputValidator.cpp 15-18, example/interactor.cpp 15-18). -/
def noAnswer (cfg : StreamCfg) (team : List Char) : Out Unit := do
  let s ← Stream.expectString cfg impossible team
  let s ← Stream.newline cfg s
  let _ ← Stream.eof cfg s
  verdict AC

/-- The team gives an answer (example/outputValidator.cpp 21-28, example/interactor.cpp 20-27). -/
def someAnswer (cfg : StreamCfg) (n : Int) (team : List Char) : Out Unit := do
  let (ans, s) ← Stream.integer cfg team
  let s ← Stream.newline cfg s
  let d ← chk (2 * ans)
  if d ≠ n then verdict WA
  else do
    let _ ← Stream.eof cfg s
    verdict AC

/-- example/outputValidator.cpp 14-29.  The comparison is the one of src/validate.h 2830-2832 with the setting `caseSensitive`, which
`juryAns` got as well. -/
def outputValidator (testCfg juryCfg teamCfg : StreamCfg) (test jury team : List Char) : Out Unit := do
  let (j, _) ← Stream.string juryCfg jury
  if (stringEqual juryCfg.defaultLower j impossible juryCfg.caseSensitive).value then noAnswer teamCfg team
  else do
    let (n, _) ← Stream.integer testCfg test
    someAnswer teamCfg n team

/-- example/interactor.cpp 11-28: what is sent to the team, and the verdict. -/
def interactor (testCfg teamCfg : StreamCfg) (test team : List Char) : List Char × Out Unit :=
  match Stream.integer testCfg test with
  | .error e => ([], .error e)
  | .ok (n, _) =>
    (write (.int n) ++ ['\n'], if n.tmod 2 = 0 then noAnswer teamCfg team else someAnswer teamCfg n team)

/-- The first pass of example/multipassInteractor.cpp 15-22: the text sent to the team, and then the content of the state file and of
`nextpass.in` if the pass ends with `NEXT` (which appends a line break, src/validate.h 3004-3007). -/
def firstPass (testCfg teamCfg : StreamCfg) (test team : List Char) : List Char × Out (List Char × List Char) :=
  match Stream.integer testCfg test with
  | .error e => ([], .error e)
  | .ok (n, _) =>
    (write (.int n) ++ ['\n'], do
      let (ans, _) ← Stream.integer teamCfg team
      .ok (write (.int ans) ++ ['\n'], write (.int n) ++ ['\n']))

/-- The other passes of example/multipassInteractor.cpp 23-35. -/
def laterPass (testCfg teamCfg stateCfg : StreamCfg) (test team state : List Char) : List Char × Out Unit :=
  match Stream.integer testCfg test with
  | .error e => ([], .error e)
  | .ok (n, _) =>
    (write (.int n) ++ ['\n'], do
      let (cur, _) ← Stream.integer teamCfg team
      let (last, _) ← Stream.integer stateCfg state
      if cur = last then verdict AC else verdict WA)

/-- example/generator.cpp 14-19: the text that is written; the parameter is the argument after `--n`. -/
def generator (arg : Option (List Char)) : Rand (List Char) := do
  let n ← Rand.lift (asInteger arg)
  let data ← distinct n 0 10
  pure (write (.int n) ++ ['\n'] ++ joinRange DEFAULT_SEPARATOR (data.map fun v => write (.int v)) ++ ['\n'])

end ICPC.Examples
