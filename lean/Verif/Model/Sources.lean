import Verif.Model.Validator
import Verif.Model.Init

/-!
# Validators that read several streams

Output validators, answer validators and interactors read several `InputStream`s (src/validate.h 2893-3011): the test
case, the answer of the jury, the answer of the team.  `MProg ι R` is the type of all programs over streams named by `ι`:
in every step the program calls one function of one stream, and what it does next may depend on all values so far.
-/

namespace ICPC

open Init

/-- A program that reads several streams. -/
inductive MProg (ι R : Type) where
  /-- The program ends by itself: normally, with a verdict of its own, or with an exception of its own. -/
  | done (result : Out Unit)
  | call (i : ι) (c : Call R) (k : List (Val R) → MProg ι R)

/-- Running a program; the rests of all streams.  Each stream has its own position, settings and verdict
(src/validate.h 2254-2316), tolerances are in `ops`. -/
def MProg.run {ι R : Type} [DecidableEq ι] (cfg : ι → StreamCfg) (ops : ι → RealOps R) : MProg ι R → (ι → List Char) → Out (ι → List Char)
  | .done r, s => do
    let _ ← r
    .ok s
  | .call i c k, s => do
    let (v, rest) ← c.run (cfg i) (ops i) (s i)
    (k v).run cfg ops fun j => if j = i then rest else s j

/-- The settings of a stream made by a constructor of `InputStream` (src/validate.h 2278-2316). -/
def Init.StreamArgs.cfg {R : Type} (defaultLower : Bool) (a : StreamArgs R) : StreamCfg where
  spaceSensitive := a.space
  caseSensitive := a.caseS
  defaultLower := defaultLower
  onFail := a.onFail

end ICPC
