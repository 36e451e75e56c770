import Verif.Model.GraphOps

/-!
# Families of graphs (src/graph_gen.h 628-782)

Loops that only call `addEdge` are written as the list of these calls. `dir` is the template parameter `DIR`; families without it are
undirected. Edges get the default data `E()`.
-/

namespace ICPC.Gen

variable {E : Type} [Inhabited E]

/-- Calls of `addEdge(u, v)` for all pairs of the list. -/
def addPairs (g : Graph E) (ps : List (Int × Int)) : Out (Graph E) := ps.foldlM (fun g p => g.add p.1 p.2 default) g

/-- `independent` (src/graph_gen.h 629-632). -/
def independent (dir : Bool) (n : Int) : Out (Graph E) := Graph.ofSize dir n

/-- Calls in `clique`. -/
def cliquePairs (n : Int) : List (Int × Int) := (intRange 0 n).flatMap fun j => (intRange 0 j).map fun i => (i, j)

/-- `clique` (src/graph_gen.h 634-646). -/
def clique (dir : Bool) (n : Int) : Out (Graph E) := do
  let res : Graph E ← Graph.ofSize dir n
  addPairs res (cliquePairs n)

/-- Calls in `bipartite`. -/
def bipartitePairs (n m : Int) : List (Int × Int) := (intRange 0 n).flatMap fun i => (intRange 0 m).map fun j => (i, n + j)

/-- `bipartite` (src/graph_gen.h 648-659). -/
def bipartite (dir : Bool) (n m : Int) : Out (Graph E) := do
  let s ← chk (n + m)
  let res : Graph E ← Graph.ofSize dir s
  addPairs res (bipartitePairs n m)

/-- `star` (src/graph_gen.h 690-695). -/
def star (dir : Bool) (leaves : Int) : Out (Graph E) := bipartite dir 1 leaves

/-- Calls in `path`. -/
def pathPairs (edges : Int) : List (Int × Int) := (intRange 0 edges).map fun i => (i, i + 1)

/-- `path` (src/graph_gen.h 697-705). -/
def path (dir : Bool) (edges : Int) : Out (Graph E) := do
  let s ← chk (edges + 1)
  let res : Graph E ← Graph.ofSize dir s
  addPairs res (pathPairs edges)

/-- `cycle` (src/graph_gen.h 707-713), which compiles only for undirected graphs. -/
def cycle (n : Int) : Out (Graph E) := do
  let k ← chk (n - 1)
  let p : Graph E ← path false k
  p.add k 0 default

/-- `wheel` (src/graph_gen.h 715-719). -/
def wheel (outer : Int) : Out (Graph E) := do
  let s : Graph E ← star false outer
  let p : Graph E ← path false outer
  let p ← p.setMinId 1
  s.combine p

/-- `lolly` (src/graph_gen.h 721-726). -/
def lolly (p c : Int) : Out (Graph E) := do
  let a : Graph E ← path false p
  let b : Graph E ← clique false c
  let b ← b.setMinId p
  a.combine b

/-- `broom` (src/graph_gen.h 728-733). -/
def broom (p l : Int) : Out (Graph E) := do
  let a : Graph E ← path false p
  let b : Graph E ← star false l
  let b ← b.setMinId p
  a.combine b

/-- `grid(n, m)` (src/graph_gen.h 735-746). -/
def grid (n m : Int) : Out (Graph E) := do
  let k ← chk (n - 1)
  let l ← chk (m - 1)
  let a : Graph E ← path false k
  let b : Graph E ← path false l
  a.cartesian b

/-- `grid(n)` (src/graph_gen.h 747-750). -/
def gridSquare (n : Int) : Out (Graph E) := grid n n

/-- `hypercube` for a dimension that is not negative. -/
def hypercubeN : Nat → Out (Graph E)
  | 0 => clique false 1
  | 1 => clique false 2
  | k + 2 => do
    let h ← hypercubeN (k + 1)
    let c : Graph E ← clique false 2
    h.cartesian c

/-- `hypercube` (src/graph_gen.h 752-758). -/
def hypercube (dimension : Int) : Out (Graph E) :=
  if dimension < 0 then do
    let k ← chk (dimension + 1)
    clique false k
  else hypercubeN dimension.toNat

/-- Loop of `completeTree` (src/graph_gen.h 767-771). -/
def attach (children : Int) (sub res : Graph E) : Out (Graph E) :=
  forI 0 children (fun _ (res : Graph E) => do
    let next := res.nodeCount
    let res ← res.append sub
    res.add 0 next default) res

/-- `completeTree` for a level that is not negative. -/
def completeTreeN (dir : Bool) (children : Int) : Nat → Out (Graph E)
  | 0 => star dir children
  | 1 => star dir children
  | 2 => star dir children
  | k + 3 => do
    let res : Graph E ← Graph.ofSize dir 1
    let sub ← completeTreeN dir children (k + 2)
    attach children sub res

/-- `completeTree` (src/graph_gen.h 760-773); a negative level is treated as 0. -/
def completeTree (dir : Bool) (level children : Int) : Out (Graph E) := completeTreeN dir children level.toNat

/-- `1 << k` for the 32 bit type `int`: undefined for shifts outside `[0, 32)`, otherwise reduced modulo `2^32`. -/
def shlInt (k : Int) : Out Int :=
  if 0 ≤ k ∧ k < 32 then .ok (if k = 31 then -2147483648 else 2 ^ k.toNat) else .error .ub

/-- `a | b` for two `Integer`s. -/
def orI (a b : Int) : Int := (BitVec.ofInt 64 a ||| BitVec.ofInt 64 b).toInt

/-- Calls in `booleanLattice`: `j` runs through the powers of two below `size`. -/
def latticePairs (level : Nat) (size : Int) : List (Int × Int) :=
  (intRange 0 size).flatMap fun i =>
    (((List.range level).map fun k : Nat => ((2 ^ k : Nat) : Int)).filter fun j => decide (orI i j = i)).map fun j => (i, xorI i j)

/-- `booleanLattice` (src/graph_gen.h 776-789). -/
def booleanLattice (dir : Bool) (level : Int) : Out (Graph E) := do
  let s ← shlInt level
  let res : Graph E ← Graph.ofSize dir s
  addPairs res (latticePairs level.toNat s)

/-- Inner loop of `rado` (src/graph_gen.h 797-801) from `j` on: the targets of the edges from `i`. It ends at the latest when the shift
becomes undefined. -/
def radoInner (i : Int) : Nat → Int → Out (List Int)
  | 0, _ => .error .fuel
  | f + 1, j => do
    let p ← shlInt j
    if p < i then do
      let r ← radoInner i f (j + 1)
      pure (if orI i p = i then j :: r else r)
    else pure []

/-- `rado` (src/graph_gen.h 791-804). -/
def rado (dir : Bool) (n : Int) : Out (Graph E) := do
  let res : Graph E ← Graph.ofSize dir n
  forI 0 n (fun i (res : Graph E) => do
    let js ← radoInner i 33 0
    addPairs res (js.map fun j => (i, j))) res

end ICPC.Gen
