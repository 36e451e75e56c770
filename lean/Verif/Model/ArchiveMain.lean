import Verif.Model.ConvexDisk
import Verif.Model.JavaSortHack
import Verif.Model.Polygon
import Verif.Model.Init
import Verif.Model.Output

/-!
# The main functions of the archived generators (archive/convex.cpp 62-74, archive/javaSortHack.cpp 148-158, archive/polygon.cpp 80-91)

The result is the text that is written to `testOut`; `std::endl` writes a line break.  `g` is the global state before `main`, `parse` the
conversion of texts to real numbers, `size_t` numbers are natural numbers.
-/

namespace ICPC.Archive

open Rand ICPC.Init

variable {R : Type}

/-- `arguments[name].asInteger(defaultValue)` (archive/convex.cpp 66-67, archive/javaSortHack.cpp 152-153, archive/polygon.cpp 84-85). -/
def argument (p : CommandParser) (name : List Char) (default : Int) : Out Int := do
  let c ← p.get name
  asIntegerOr c.token default

/-- `testOut << points.size() << std::endl; testOut << join(points, '\n') << std::endl` (archive/convex.cpp 72-73, archive/polygon.cpp 89-90). -/
def writePoints (points : List Pt) : List Char :=
  write (.int points.length) ++ ['\n'] ++ joinRange '\n' (points.map fun p => write (.pair (.int p.1) (.int p.2))) ++ ['\n']

/-- The two arguments of the programs: `Generator::init(argc, argv)` and the next lines (archive/convex.cpp 63-67, archive/javaSortHack.cpp
149-153, archive/polygon.cpp 81-85). -/
def readArguments (parse : List Char → Option R) (argv : List (List Char)) (g : Globals R) (second : List Char) (default1 default2 : Int) :
    Out (Int × Int) := do
  let g ← generatorInit parse argv g
  let a ← argument g.arguments "--n".toList default1
  let b ← argument g.arguments second default2
  pure (a, b)

/-- `main` (archive/convex.cpp 62-74). -/
def convexMain (parse : List Char → Option R) (g : Globals R) (candidate : Int → Rand Pt) (fuel : Nat) (argv : List (List Char)) :
    Rand (List Char) := do
  let a ← lift (readArguments parse argv g "--dim".toList 100000 1000000000)
  let points ← convexDisk candidate fuel a.1 a.2
  pure (writePoints points)

/-- `main` (archive/polygon.cpp 80-91). -/
def polygonMain (parse : List Char → Option R) (g : Globals R) (fits : Int → Int → Bool) (part : (Pt → Bool) → List Pt → List Pt)
    (sort : (Pt → Pt → Bool) → List Pt → List Pt) (fuel : Nat) (argv : List (List Char)) : Rand (List Char) := do
  let a ← lift (readArguments parse argv g "--dim".toList 100000 1000000000)
  let points ← polygon fits part sort fuel a.1 a.2
  pure (writePoints points)

/-- `main` (archive/javaSortHack.cpp 148-158). -/
def javaSortHackMain (parse : List Char → Option R) (g : Globals R) (argv : List (List Char)) : Rand (List Char) := do
  let a ← lift (readArguments parse argv g "--min".toList 100000 1)
  let data ← javaSortHack a.1 a.2
  pure (write (.int a.1) ++ ['\n'] ++ joinRange DEFAULT_SEPARATOR (data.map fun v => write (.int v)) ++ ['\n'])

end ICPC.Archive
