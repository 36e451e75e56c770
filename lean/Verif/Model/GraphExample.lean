import Verif.Model.Families
import Verif.Model.GraphIO

/-!
# The program example/generator.graph.cpp
-/

namespace ICPC.GraphExample

open ICPC.Gen

/-- The graph without random choices (example/generator.graph.cpp 14-22). The initialisation copies the result of the calls of
`append`, which is a reference. -/
def base : Out (Gen.Graph Unit) := do
  let a : Gen.Graph Unit ← hypercube 3
  let b : Gen.Graph Unit ← hypercube 3
  let c : Gen.Graph Unit ← cycle 3
  let a ← a.append b
  let a ← a.append c
  let res ← a.copy
  let res ← res.add 16 0 default
  let res ← res.add 17 1 default
  let res ← res.add 18 2 default
  let res ← res.add 16 8 default
  let res ← res.add 17 9 default
  res.add 18 10 default

/-- The random directed graph made from it (example/generator.graph.cpp 25-34). -/
def randomDag (res : Gen.Graph Unit) : Rand (Gen.Graph Unit) := do
  let res ← res.permutateRandom
  let dag ← Rand.lift (res.directedBy fun u v _ => decide (u < v))
  let dag ← Rand.lift (dag.setMinId 1)
  dag.permutateRandom

/-- `main` after `init` (example/generator.graph.cpp 14-38): what is written to `testOut`. -/
def main : Rand (List Char) := do
  let res ← Rand.lift base
  let dag ← randomDag res
  pure (GraphIO.writeGraph none dag ++ ['\n'])

end ICPC.GraphExample
