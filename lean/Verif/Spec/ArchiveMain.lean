import Verif.Spec.Init
import Verif.Spec.Stream
import Verif.Model.Stream

/-!
# Texts of the archived generators

The validators of this file are programs that only use the strict streams; they say what a validator for such a file would read.
-/

namespace ICPC.Spec

/-- The integer argument `name`: the number after `name`, or the default value if there is none. -/
def NumberOf (readInt : List Char → Option Int) (argv : List (List Char)) (name : List Char) (default v : Int) : Prop :=
  (∃ t, ValueOf argv name t ∧ ¬ IsCmd t ∧ readInt t = some v) ∨ ((¬ ∃ t, ValueOf argv name t ∧ ¬ IsCmd t) ∧ v = default)

/-- The argument `name` is not a number. -/
def BadNumber (readInt : List Char → Option Int) (argv : List (List Char)) (name : List Char) : Prop :=
  ∃ t, ValueOf argv name t ∧ ¬ IsCmd t ∧ readInt t = none

/-- One line per point: the coordinates with a blank between them. -/
def pointLines : List (Int × Int) → List Char
  | [] => []
  | p :: ps => decimal p.1 ++ ' ' :: (decimal p.2 ++ '\n' :: pointLines ps)

/-- The number of points and the points. -/
def pointFile (ps : List (Int × Int)) : List Char := decimal ps.length ++ '\n' :: pointLines ps

/-- The number of values in one line and the values in the next one. -/
def listFile (vs : List Int) : List Char := decimal vs.length ++ '\n' :: (separate [' '] (vs.map decimal) ++ ['\n'])

/-- A validator reads `n` lines with two integers from `[lower, upper)` each. -/
def readLines (cfg : StreamCfg) (lower upper : Int) : Nat → List Char → Out (List (Int × Int) × List Char)
  | 0, s => .ok ([], s)
  | n + 1, s => do
    let (x, s) ← Stream.integerBounded cfg lower upper s
    let s ← Stream.space cfg s
    let (y, s) ← Stream.integerBounded cfg lower upper s
    let s ← Stream.newline cfg s
    let (ps, s) ← readLines cfg lower upper n s
    .ok ((x, y) :: ps, s)

/-- A validator reads a number from `[1, most)`, as many points and the end of the file. -/
def validatePoints (cfg : StreamCfg) (most lower upper : Int) (s : List Char) : Out (List (Int × Int)) := do
  let (n, s) ← Stream.integerBounded cfg 1 most s
  let s ← Stream.newline cfg s
  let (ps, s) ← readLines cfg lower upper n.toNat s
  let _ ← Stream.eof cfg s
  .ok ps

end ICPC.Spec
