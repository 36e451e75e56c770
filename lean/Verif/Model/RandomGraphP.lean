import Verif.Model.RandomGraph

/-!
# Random graphs with a given probability (src/graph_gen.h 683-688, 882-901)

The floating point part is a parameter: `binomial t` is the call `Random::binomial(t, p)`, and `degree i` is
`Integer deg = p * Random::real(0, i+1)`.
-/

namespace ICPC.Gen

variable {E : Type} [Inhabited E]

/-- `randomGraph(n, p)` (src/graph_gen.h 884-887). -/
def randomGraphP (dir : Bool) (binomial : Int → Rand Int) (n : Int) : Rand (Graph E) := do
  let k ← Rand.lift (chk (n - 1))
  let l ← Rand.lift (chk (n * k))
  let m ← binomial (l.tdiv 2)
  randomGraph dir n m

/-- `randomBipartite(n, m, p)` (src/graph_gen.h 685-688). -/
def randomBipartiteP (dir : Bool) (binomial : Int → Rand Int) (n m : Int) : Rand (Graph E) := do
  let l ← Rand.lift (chk (n * m))
  let k ← binomial l
  randomBipartite dir n m k

/-- The loop of `randomGrowingGraph` (src/graph_gen.h 894-898). -/
def growLoop (degree : Int → Rand Int) (n : Int) : Nat → Int → Graph E → Rand (Graph E)
  | 0, _, res => pure res
  | fuel + 1, i, res => do
    if i < n then
      let deg ← degree i
      let neighbours ← distinct deg 0 i
      let res ← Rand.lift (addPairs res (neighbours.map fun j => (i, j)))
      growLoop degree n fuel (i + 1) res
    else pure res

/-- `randomGrowingGraph` (src/graph_gen.h 890-901); the loop ends after `n` iterations. -/
def randomGrowingGraph (degree : Int → Rand Int) (n : Int) : Rand (Graph E) := do
  let res ← Rand.lift (Graph.ofSize false n)
  growLoop degree n n.toNat 0 res

end ICPC.Gen
