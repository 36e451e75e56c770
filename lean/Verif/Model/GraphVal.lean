import Verif.Model.Basic

/-!
# Graphs of validators (src/graph_val.h)

Vectors are lists, indices into them are natural numbers (`vertexIndex` does the conversion; everything outside the
vector is undefined behaviour).  A `std::set<Integer>` is a strictly increasing list.
-/

namespace ICPC

/-! ## Union-find (src/graph_val.h 17-45) -/

/-- `UnionFind(n)` (src/graph_val.h 29). -/
def ufNew (n : Nat) : List Int := List.replicate n (-1)

/-- `UnionFind::findSet` (src/graph_val.h 31-34) with path compression; the first argument bounds the depth of the
recursion. -/
def findSetFuel : Nat → List Int → Nat → Out (Nat × List Int)
  | 0, _, _ => .error .fuel
  | k + 1, u, n =>
    match u[n]? with
    | none => .error .ub
    | some v =>
      if v < 0 then .ok (n, u)
      else do
        let (r, u) ← findSetFuel k u v.toNat
        .ok (r, u.set n (r : Int))

/-- `UnionFind::findSet` (src/graph_val.h 31-34).  The bound on the depth is never reached, see `findSet_spec`. -/
def findSet (u : List Int) (n : Nat) : Out (Nat × List Int) := findSetFuel (u.length + 1) u n

/-- `UnionFind::connected` (src/graph_val.h 36-38). -/
def ufConnected (u : List Int) (a b : Nat) : Out (Bool × List Int) := do
  let (x, u) ← findSet u a
  let (y, u) ← findSet u b
  .ok (x == y, u)

/-- `UnionFind::linkSets` (src/graph_val.h 20-26). -/
def linkSets (u : List Int) (a b : Nat) : Out (List Int) :=
  match u[a]?, u[b]? with
  | some x, some y =>
    if x > y then .ok (u.set a b)
    else if y > x then .ok (u.set b a)
    else .ok ((u.set a b).set b (y - 1))
  | _, _ => .error .ub

/-- `UnionFind::unionSets` (src/graph_val.h 40-44). -/
def unionSets (u : List Int) (a b : Nat) : Out (Bool × List Int) := do
  let (c, u) ← ufConnected u a b
  if !c then do
    let (x, u) ← findSet u a
    let (y, u) ← findSet u b
    let u ← linkSets u x y
    .ok (true, u)
  else .ok (false, u)

/-! ## BaseGraph (src/graph_val.h 51-98) -/

/-- `std::set::insert`. -/
def setInsert : List Int → Int → List Int
  | [], x => [x]
  | y :: ys, x => if x < y then x :: y :: ys else if x = y then y :: ys else y :: setInsert ys x

/-- `BaseGraph` (src/graph_val.h 55-58). -/
structure BaseGraph where
  offset : Int
  edges : Int
  adj : List (List Int)
  selfloop : Option Int
  multiedge : Option (Int × Int)

/-- Constructor of `BaseGraph` (src/graph_val.h 60). -/
def BaseGraph.new (l u : Int) : Out BaseGraph := do
  let n ← chk (u - l)
  -- a negative size of a vector throws
  judgeAssert (decide (0 ≤ n))
  .ok { offset := l, edges := 0, adj := List.replicate n.toNat [], selfloop := none, multiedge := none }

/-- `a - offset` used as an index of a vector with `n` elements. -/
def vertexIndex (offset a : Int) (n : Nat) : Out Nat := do
  let i ← chk (a - offset)
  if 0 ≤ i ∧ i < n then .ok i.toNat else .error .ub

/-- `BaseGraph::addEdge_` (src/graph_val.h 63-70). -/
def BaseGraph.addEdge (g : BaseGraph) (a b : Int) : Out BaseGraph := do
  let selfloop := if a = b then some a else g.selfloop
  let i ← vertexIndex g.offset a g.adj.length
  let s := g.adj.getD i []
  let multiedge := if s.contains b then some (a, b) else g.multiedge
  let edges ← chk (g.edges + 1)
  .ok { g with edges := edges, adj := g.adj.set i (setInsert s b), selfloop := selfloop, multiedge := multiedge }

/-- `BaseGraph::operator[]` (src/graph_val.h 75-77). -/
def BaseGraph.neighbours (g : BaseGraph) (a : Int) : Out (List Int) := do
  let i ← vertexIndex g.offset a g.adj.length
  .ok (g.adj.getD i [])

/-- `BaseGraph::hasEdge` (src/graph_val.h 95-97). -/
def BaseGraph.hasEdge (g : BaseGraph) (a b : Int) : Out Bool := do
  let s ← g.neighbours a
  .ok (s.contains b)

/-! ## Graph (src/graph_val.h 101-142) -/

/-- `Graph` (src/graph_val.h 101-105). -/
structure Graph where
  base : BaseGraph
  uf : List Int
  buf : List Int
  components : Int
  forest : Bool
  bipartite : Bool

/-- Constructor of `Graph` (src/graph_val.h 107). -/
def Graph.new (l r : Int) : Out Graph := do
  let base ← BaseGraph.new l r
  let m ← chk (2 * (r - l))
  .ok { base := base, uf := ufNew (r - l).toNat, buf := ufNew m.toNat, components := r - l, forest := true, bipartite := true }

/-- `Graph::addEdge` (src/graph_val.h 118-131); `x ^ 1` of an even number is `x + 1`. -/
def Graph.addEdge (g : Graph) (a b : Int) : Out Graph := do
  let base ← g.base.addEdge a b
  let j ← vertexIndex base.offset b base.adj.length
  let base := { base with adj := base.adj.set j (setInsert (base.adj.getD j []) a) }
  let i ← vertexIndex base.offset a base.adj.length
  let (joined, uf) ← unionSets g.uf i j
  let components := if joined then g.components - 1 else g.components
  let forest := if joined then g.forest else false
  let (_, buf) ← unionSets g.buf (2 * i) (2 * j + 1)
  let (_, buf) ← unionSets buf (2 * i + 1) (2 * j)
  let (c, buf) ← ufConnected buf (2 * i) (2 * i + 1)
  .ok { base := base, uf := uf, buf := buf, components := components, forest := forest, bipartite := g.bipartite && !c }

/-- `Graph::degree` (src/graph_val.h 133-135). -/
def Graph.degree (g : Graph) (a : Int) : Out Int := do
  let s ← g.base.neighbours a
  .ok s.length

/-- `Graph::isConnected` (src/graph_val.h 137). -/
def Graph.isConnected (g : Graph) : Bool := decide (g.components ≤ 1)

/-- `Graph::isForest` (src/graph_val.h 138). -/
def Graph.isForest (g : Graph) : Bool := g.forest

/-- `Graph::isTree` (src/graph_val.h 139). -/
def Graph.isTree (g : Graph) : Bool := decide (g.components ≤ 1) && g.forest

/-- `Graph::isBipartite` (src/graph_val.h 140). -/
def Graph.isBipartite (g : Graph) : Bool := g.bipartite

/-- `Graph::areConnected` (src/graph_val.h 141); the union-find changes by path compression. -/
def Graph.areConnected (g : Graph) (a b : Int) : Out (Bool × Graph) := do
  let i ← vertexIndex g.base.offset a g.uf.length
  let j ← vertexIndex g.base.offset b g.uf.length
  let (c, uf) ← ufConnected g.uf i j
  .ok (c, { g with uf := uf })

/-- The graphs that exist after a constructor call, calls of `addEdge` with the edges of the list (in this order) and any
queries in between. -/
inductive Graph.Reached (l r : Int) : List (Int × Int) → Graph → Prop
  | new {g : Graph} : Graph.new l r = .ok g → Reached l r [] g
  | add {E : List (Int × Int)} {g g' : Graph} {a b : Int} :
      Reached l r E g → g.addEdge a b = .ok g' → Reached l r (E ++ [(a, b)]) g'
  | query {E : List (Int × Int)} {g g' : Graph} {a b : Int} {c : Bool} :
      Reached l r E g → g.areConnected a b = .ok (c, g') → Reached l r E g'

/-! ## DiGraph (src/graph_val.h 144-216) -/

/-- `DiGraph` (src/graph_val.h 144-147). -/
structure DiGraph where
  base : BaseGraph
  rev : List (List Int)
  uf : List Int
  root : Nat
  rootCount : Int

/-- Constructor of `DiGraph` (src/graph_val.h 149). -/
def DiGraph.new (l r : Int) : Out DiGraph := do
  let base ← BaseGraph.new l r
  .ok { base := base, rev := List.replicate (r - l).toNat [], uf := ufNew (r - l).toNat, root := 0, rootCount := r - l }

/-- The loop of `DiGraph::addEdge` (src/graph_val.h 167). -/
def advanceRoot (rev : List (List Int)) (root : Nat) : Nat :=
  root + ((rev.drop root).takeWhile (fun s => !s.isEmpty)).length

/-- `DiGraph::addEdge` (src/graph_val.h 160-168). -/
def DiGraph.addEdge (g : DiGraph) (a b : Int) : Out DiGraph := do
  let base ← g.base.addEdge a b
  let j ← vertexIndex base.offset b g.rev.length
  let rootCount := if (g.rev.getD j []).isEmpty then g.rootCount - 1 else g.rootCount
  let rev := g.rev.set j (setInsert (g.rev.getD j []) a)
  let i ← vertexIndex base.offset a base.adj.length
  let (joined, uf) ← unionSets g.uf i j
  let root := if !joined then base.adj.length else g.root
  .ok { base := base, rev := rev, uf := uf, root := advanceRoot rev root, rootCount := rootCount }

/-- `DiGraph::inEdges` (src/graph_val.h 170-176). -/
def DiGraph.inEdges (g : DiGraph) (a : Int) : Out (List Int) := do
  let i ← vertexIndex g.base.offset a g.rev.length
  .ok (g.rev.getD i [])

/-- `DiGraph::outDegree` (src/graph_val.h 178-180). -/
def DiGraph.outDegree (g : DiGraph) (a : Int) : Out Int := do
  let s ← g.base.neighbours a
  .ok s.length

/-- `DiGraph::inDegree` (src/graph_val.h 182-184). -/
def DiGraph.inDegree (g : DiGraph) (a : Int) : Out Int := do
  let s ← g.inEdges a
  .ok s.length

/-- `DiGraph::hasReverse` (src/graph_val.h 186-188). -/
def DiGraph.hasReverse (g : DiGraph) (a b : Int) : Out Bool := do
  let s ← g.inEdges a
  .ok (s.contains b)

/-- The inner loop of `DiGraph::isDAG` (src/graph_val.h 200-204); `deg` wraps around like `std::size_t`. -/
def dagRelax (offset : Int) : List Int → List Nat → List Nat → Out (List Nat × List Nat)
  | [], deg, todo => .ok (deg, todo)
  | y :: ys, deg, todo => do
    let j ← vertexIndex offset y deg.length
    let d := (deg.getD j 0 + (2 ^ 64 - 1)) % 2 ^ 64
    dagRelax offset ys (deg.set j d) (if d = 0 then todo ++ [j] else todo)

/-- The outer loop of `DiGraph::isDAG` (src/graph_val.h 197-205); the first argument bounds the number of rounds. -/
def dagLoop (g : DiGraph) : Nat → List Nat → List Nat → List Nat → Out (List Nat)
  | 0, _, _, _ => .error .fuel
  | k + 1, deg, todo, order =>
    match todo.getLast? with
    | none => .ok order
    | some x => do
      let (deg, todo) ← dagRelax g.base.offset (g.base.adj.getD x []) deg todo.dropLast
      dagLoop g k deg todo (order ++ [x])

/-- `DiGraph::isDAG` (src/graph_val.h 190-209).  The bound on the number of rounds is never reached on reachable states, see
`isDAG_eq`. -/
def DiGraph.isDAG (g : DiGraph) : Out (Option (List Int)) := do
  let deg := g.base.adj.map List.length
  let todo := (List.range deg.length).filter (fun i => decide (deg.getD i 0 = 0))
  let order ← dagLoop g (g.base.adj.length + 1) deg todo []
  .ok (if order.length = g.base.adj.length then some (order.map (fun i : Nat => (i : Int) + g.base.offset)) else none)

/-- `DiGraph::isTree` (src/graph_val.h 211-214). -/
def DiGraph.isTree (g : DiGraph) : Option Int :=
  if g.rootCount = 1 ∧ g.base.edges + 1 = g.base.adj.length then some ((g.root : Int) + g.base.offset) else none

/-- The digraphs that exist after a constructor call and calls of `addEdge` with the edges of the list (in this order). -/
inductive DiGraph.Reached (l r : Int) : List (Int × Int) → DiGraph → Prop
  | new {g : DiGraph} : DiGraph.new l r = .ok g → Reached l r [] g
  | add {E : List (Int × Int)} {g g' : DiGraph} {a b : Int} :
      Reached l r E g → g.addEdge a b = .ok g' → Reached l r (E ++ [(a, b)]) g'

end ICPC
