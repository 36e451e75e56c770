import Verif.Model.GraphGen
import Verif.Model.GraphVal
import Verif.Model.Output
import Verif.Model.Stream

/-!
# Graphs as text: the output of the generator and the program that reads it

The output operators of graph_gen.h (54-64, 74-83, 602-613) and the whole program example/inputValidator.graph.cpp, the
usage example of graph_val.h.
-/

namespace ICPC.GraphIO

/-- `operator<<` of an edge (src/graph_gen.h 54-64 with data, 74-83 for `NoData`); `data` tells how the data is
written, `none` is `NoData`. -/
def writeEdge {E : Type} (data : Option (E → OutVal)) (e : Gen.Edge E) : List Char :=
  write (.int e.src) ++ write (.text [' ']) ++ write (.int e.dst) ++
    match data with
    | none => []
    | some f => write (.text [' ']) ++ write (f e.data)

/-- `operator<<` of a graph (src/graph_gen.h 602-613). -/
def writeGraph {E : Type} (data : Option (E → OutVal)) (g : Gen.Graph E) : List Char :=
  write (.int g.nodeCount) ++ write (.text [' ']) ++ write (.int g.edgeCount) ++
    (g.getEdges.map fun e => write (.text ['\n']) ++ writeEdge data e).flatten

/-- `AC`, `WA`, `FAIL` (src/validate.h 216-219). -/
def AC : Nat := 42
def WA : Nat := 43
def FAIL : Nat := 1

/-- `juryOut << verdict`. -/
def verdict (code : Nat) : Out Unit := .error (.exit code)

variable (cfg : StreamCfg)

/-- The loop that reads the edges (example/inputValidator.graph.cpp 18-25). -/
def readEdges (n : Int) : Nat → List Char → Graph → Out (Graph × List Char)
  | 0, s, g => .ok (g, s)
  | k + 1, s, g => do
    let (a, s) ← Stream.integerBounded cfg 1 (n + 1) s
    let s ← Stream.space cfg s
    let (b, s) ← Stream.integerBounded cfg 1 (n + 1) s
    let s ← Stream.newline cfg s
    let g ← g.addEdge a b
    readEdges n k s g

/-- The checks (example/inputValidator.graph.cpp 29-35). -/
def judge (g : Graph) : Out Unit :=
  if g.base.selfloop.isSome then verdict WA
  else if g.base.multiedge.isSome then verdict WA
  else if !g.isConnected then verdict WA
  else if !g.isTree then verdict WA
  else if !g.isBipartite then verdict FAIL
  else verdict AC

/-- `main` after `init` (example/inputValidator.graph.cpp 12-35). -/
def main (s : List Char) : Out Unit := do
  let (n, s) ← Stream.integerBounded cfg 1 100000 s
  let s ← Stream.space cfg s
  let (m, s) ← Stream.integerBounded cfg 1 200000 s
  let s ← Stream.newline cfg s
  let g ← Graph.new 1 (n + 1)
  let (g, s) ← readEdges cfg n m.toNat s g
  let _ ← Stream.eof cfg s
  judge g

end ICPC.GraphIO
