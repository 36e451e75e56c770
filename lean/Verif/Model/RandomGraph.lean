import Verif.Model.Families

/-!
# Random graphs with a given number of edges (src/graph_gen.h 661-681, 857-880)

The pairs are computed in the loop that adds the edges; here they are computed first, which makes no difference as the list of indices is
fixed before.
-/

namespace ICPC.Gen

variable {E : Type} [Inhabited E]

/-- `x / n` for `Integer`s. -/
def quot (x n : Int) : Out Int := if n = 0 then .error .ub else chk (x.tdiv n)

/-- `x % n` for `Integer`s. -/
def rmd (x n : Int) : Out Int := if n = 0 then .error .ub else .ok (x.tmod n)

/-- The pair of the index `x` in `randomGraph` (src/graph_gen.h 866-876). -/
def graphPair (dir : Bool) (n x : Int) : Out (Int × Int) := do
  let i ← quot x n
  let j ← rmd x n
  if dir then
    if i = j then do
      let i ← chk (n - 1)
      pure (i, j)
    else pure (i, j)
  else if j ≤ i then do
    let i ← chk (n - 2 - i)
    let j ← chk (n - 1 - j)
    pure (i, j)
  else pure (i, j)

/-- `lim` in `randomGraph` (src/graph_gen.h 862-863). -/
def graphLim (dir : Bool) (n : Int) : Out Int := do
  let k ← chk (n - 1)
  let l ← chk (n * k)
  if dir then pure l else pure (l.tdiv 2)

/-- `randomGraph(n, m)` (src/graph_gen.h 859-880). -/
def randomGraph (dir : Bool) (n m : Int) : Rand (Graph E) := do
  let res ← Rand.lift (Graph.ofSize dir n)
  let lim ← Rand.lift (graphLim dir n)
  let edges ← distinct m 0 lim
  let ps ← Rand.lift (edges.mapM (graphPair dir n))
  Rand.lift (addPairs res ps)

/-- The pair of the index `x` in `randomBipartite` (src/graph_gen.h 669-677). -/
def bipPair (dir : Bool) (n m x : Int) : Out (Int × Int) := do
  let i ← rmd x n
  let q ← quot x n
  let j ← chk (q + n)
  let nm ← chk (n * m)
  if dir ∧ x ≥ nm then do
    let j ← chk (j - m)
    pure (j, i)
  else pure (i, j)

/-- `lim` in `randomBipartite` (src/graph_gen.h 666-667). -/
def bipLim (dir : Bool) (n m : Int) : Out Int := do
  let l ← chk (n * m)
  if dir then chk (l * 2) else pure l

/-- `randomBipartite(n, m, k)` (src/graph_gen.h 663-681). -/
def randomBipartite (dir : Bool) (n m k : Int) : Rand (Graph E) := do
  let s ← Rand.lift (chk (n + m))
  let res ← Rand.lift (Graph.ofSize dir s)
  let lim ← Rand.lift (bipLim dir n m)
  let edges ← distinct k 0 lim
  let ps ← Rand.lift (edges.mapM (bipPair dir n m))
  Rand.lift (addPairs res ps)

end ICPC.Gen
