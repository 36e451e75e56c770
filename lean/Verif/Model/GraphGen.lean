import Verif.Model.Basic
import Verif.Model.Rand
import Verif.Model.RandSeq
import Verif.Model.Seq

/-!
# Graphs of the generator library (src/graph_gen.h)

`Graph E` is `GraphType<E, DIR>`. A pointer to an internal edge is its position in the deque `edges` (positions of a deque are stable when
elements are added or removed at the end, which is all the code does). A `std::set` of such pointers is the list of its elements in
ascending order. Values of type `E` are copied freely; references into a graph that are returned by the API (`Edge::data`) are modelled by
the value they refer to.
-/

namespace ICPC.Gen

/-- `a ^ b` for two `Integer`s. -/
def xorI (a b : Int) : Int := (BitVec.ofInt 64 a ^^^ BitVec.ofInt 64 b).toInt

/-- `EdgeType` (src/graph_gen.h 84-95). -/
structure Rec (E : Type) where
  fromXorTo : Int
  dst : Int
  data : E
  deriving DecidableEq, Repr

/-- `fromXorTo ^ to`, as computed wherever the code needs `from`. -/
def Rec.src {E : Type} (r : Rec E) : Int := xorI r.fromXorTo r.dst

/-- `EdgeWrapper` (src/graph_gen.h 40-82): what the API returns. -/
structure Edge (E : Type) where
  src : Int
  dst : Int
  data : E
  deriving DecidableEq, Repr

/-- `GraphType` (src/graph_gen.h 113-129); `dir` is the template parameter `DIR`. -/
structure Graph (E : Type) where
  dir : Bool
  adj : List (List Nat)
  edges : List (Rec E)
  minId : Int
  deriving DecidableEq, Repr

section
variable {E : Type}

/-- Key of the edge a pointer refers to. -/
def keyAt (edges : List (Rec E)) (i : Nat) : Int := ((edges[i]?).map Rec.fromXorTo).getD 0

/-- `std::set::find(key)` with `EdgePointerCompair` (src/graph_gen.h 97-109). -/
def setFind (edges : List (Rec E)) (s : List Nat) (k : Int) : Option Nat := s.find? fun i => decide (keyAt edges i = k)

/-- `std::set::emplace(pointer)`: the new set and the element with that key. -/
def setInsert (edges : List (Rec E)) (i : Nat) : List Nat → List Nat × Nat
  | [] => ([i], i)
  | j :: s =>
    if keyAt edges i < keyAt edges j then (i :: j :: s, i)
    else if keyAt edges j < keyAt edges i then
      let r := setInsert edges i s
      (j :: r.1, r.2)
    else (j :: s, j)

/-- `std::set::erase(pointer)`: erases the element with the key of the pointer. -/
def setErase (edges : List (Rec E)) (s : List Nat) (i : Nat) : List Nat := s.filter fun j => decide (keyAt edges j ≠ keyAt edges i)

namespace Graph

/-- `nodeCount` (src/graph_gen.h 183-185). -/
def nodeCount (g : Graph E) : Int := (g.adj.length : Int)

/-- `edgeCount` (src/graph_gen.h 187-189). -/
def edgeCount (g : Graph E) : Int := (g.edges.length : Int)

/-- `assertNode` (src/graph_gen.h 130-134); `minId + nodeCount()` is computed in the condition or in the message. -/
def assertNode (g : Graph E) (id : Int) : Out Unit := do
  let e ← chk (g.minId + g.nodeCount)
  judgeAssert (!(decide (id < g.minId) || decide (id ≥ e)))

/-- `adj[v - minId]`, undefined outside. -/
def adjAt (g : Graph E) (v : Int) : Out (List Nat) :=
  if 0 ≤ v - g.minId then
    match g.adj[(v - g.minId).toNat]? with
    | some s => .ok s
    | none => .error .ub
  else .error .ub

/-- Assigning to `adj[v - minId]`. -/
def setAdj (g : Graph E) (v : Int) (s : List Nat) : Graph E := { g with adj := g.adj.set (v - g.minId).toNat s }

/-- `adj[v - minId].emplace(e)`. -/
def insertAt (g : Graph E) (v : Int) (i : Nat) : Out (Graph E × Nat) := do
  let s ← g.adjAt v
  pure (g.setAdj v (setInsert g.edges i s).1, (setInsert g.edges i s).2)

/-- `adj[v - minId].erase(e)`. -/
def eraseAt (g : Graph E) (v : Int) (i : Nat) : Out (Graph E) := do
  let s ← g.adjAt v
  pure (g.setAdj v (setErase g.edges s i))

/-- `addEdge(InternalEdge*)` (src/graph_gen.h 136-141). -/
def addInternal (g : Graph E) (i : Nat) : Out (Graph E × Nat) :=
  match g.edges[i]? with
  | none => .error .ub
  | some r => do
    let g ← if !g.dir && decide (r.src ≠ r.dst) then (do let x ← g.insertAt r.dst i; pure x.1) else pure g
    g.insertAt r.src i

/-- `emplaceEdge` (src/graph_gen.h 143-145). -/
def emplaceEdge (g : Graph E) (u v : Int) (d : E) : Graph E := { g with edges := g.edges ++ [⟨xorI u v, v, d⟩] }

/-- `buildAdj` (src/graph_gen.h 147-149). -/
def buildAdj (g : Graph E) : Out (Graph E) :=
  (List.range g.edges.length).foldlM (fun g i => do let x ← g.addInternal i; pure x.1) g

/-- `for (auto& n : adj) n.clear()`. -/
def clearAdj (g : Graph E) : Graph E := { g with adj := g.adj.map fun _ => [] }

/-- `GraphType(from, to)` (src/graph_gen.h 152-156). The deque is constructed before the assertion; a negative size makes its constructor
throw. -/
def new (dir : Bool) (l r : Int) : Out (Graph E) := do
  let n ← chk (r - l)
  judgeAssert (decide (0 ≤ n))
  judgeAssert (decide (l ≤ r))
  pure ⟨dir, List.replicate n.toNat [], [], l⟩

/-- `GraphType(n)` (src/graph_gen.h 158-159). -/
def ofSize (dir : Bool) (n : Int) : Out (Graph E) := new dir 0 n

/-- Copy constructor and assignment (src/graph_gen.h 162-178). -/
def copy (g : Graph E) : Out (Graph E) := buildAdj ⟨g.dir, List.replicate g.adj.length [], g.edges, g.minId⟩

/-- `degree` (src/graph_gen.h 191-194). -/
def degree (g : Graph E) (id : Int) : Out Int := do
  g.assertNode id
  let s ← g.adjAt id
  pure (s.length : Int)

/-- `setMinId` (src/graph_gen.h 200-214). -/
def setMinId (g : Graph E) (m : Int) : Out (Graph E) := do
  let move (v : Int) : Out Int := do
    let x ← chk (v - g.minId)
    chk (x + m)
  let edges ← g.edges.mapM fun r => do
    let u ← move r.src
    let v ← move r.dst
    pure (⟨xorI u v, v, r.data⟩ : Rec E)
  buildAdj { g.clearAdj with edges := edges, minId := m }

/-- `getNextId` (src/graph_gen.h 216-218). -/
def getNextId (g : Graph E) : Out Int := chk (g.minId + g.nodeCount)

/-- `normalize` (src/graph_gen.h 220-222). -/
def normalize (g : Graph E) : Out (Graph E) := g.setMinId 0

/-- `findEdge` (src/graph_gen.h 238-258). -/
def findEdge (g : Graph E) (u v : Int) : Out (Option (Edge E)) := do
  g.assertNode u
  g.assertNode v
  let s ← g.adjAt u
  match setFind g.edges s (xorI u v) with
  | none => pure none
  | some i =>
    match g.edges[i]? with
    | none => .error .ub
    | some r => pure (some ⟨u, v, r.data⟩)

/-- `getEdgeById` (src/graph_gen.h 261-273). -/
def getEdgeById (g : Graph E) (id : Nat) : Out (Edge E) :=
  match g.edges[id]? with
  | none => .error .throw
  | some r => .ok ⟨r.src, r.dst, r.data⟩

/-- `hasEdge` (src/graph_gen.h 275-279). -/
def hasEdge (g : Graph E) (u v : Int) : Out Bool := do
  g.assertNode u
  g.assertNode v
  let s ← g.adjAt u
  pure (setFind g.edges s (xorI u v)).isSome

/-- `addEdge` (src/graph_gen.h 281-294); the second component is the graph after the call, also if it throws. -/
def addEdge (g : Graph E) (u v : Int) (d : E) : Out (Edge E) × Graph E :=
  match (do g.assertNode u; g.assertNode v; judgeAssert (decide (u ≠ v)); g.adjAt u) with
  | .error e => (.error e, g)
  | .ok s =>
    match setFind g.edges s (xorI u v) with
    | none =>
      let g := g.emplaceEdge u v d
      match g.addInternal (g.edges.length - 1) with
      | .error e => (.error e, g)
      | .ok (g, i) =>
        match g.edges[i]? with
        | none => (.error .ub, g)
        | some r => (.ok ⟨u, v, r.data⟩, g)
    | some i =>
      match g.edges[i]? with
      | none => (.error .ub, g)
      | some r => (.ok ⟨u, v, d⟩, { g with edges := g.edges.set i { r with data := d } })

/-- `addEdge` as part of a longer computation. -/
def add (g : Graph E) (u v : Int) (d : E) : Out (Graph E) :=
  match g.addEdge u v d with
  | (.ok _, g) => .ok g
  | (.error e, _) => .error e

/-- `adj[from - minId].erase(e); if constexpr (!DIR) adj[to - minId].erase(e)`. -/
def eraseBoth (g : Graph E) (u v : Int) (i : Nat) : Out (Graph E) := do
  let g ← g.eraseAt u i
  if !g.dir then g.eraseAt v i else pure g

/-- The part of `eraseEdge` after the edge was found (src/graph_gen.h 301-313): `i` is the position of `*a`. -/
def eraseFound (g : Graph E) (u v : Int) (i : Nat) : Out (Graph E) := do
  let last := g.edges.length - 1
  let g ← g.eraseBoth u v i
  match g.edges[i]?, g.edges[last]? with
  | some a, some b =>
    let g ← g.eraseBoth b.src b.dst last
    let g := { g with edges := ((g.edges.set i b).set last a).dropLast }
    if i ≠ last then (do let x ← g.addInternal i; pure x.1) else pure g
  | _, _ => .error .ub

/-- `eraseEdge` (src/graph_gen.h 296-318); the second component is the graph after the call. (If the part after the search failed the graph
would be in an intermediate state; that never happens.) -/
def eraseEdge (g : Graph E) (u v : Int) : Out Bool × Graph E :=
  match (do g.assertNode u; g.assertNode v; g.adjAt u) with
  | .error e => (.error e, g)
  | .ok s =>
    match setFind g.edges s (xorI u v) with
    | none => (.ok false, g)
    | some i =>
      match g.eraseFound u v i with
      | .error e => (.error e, g)
      | .ok g => (.ok true, g)

/-- `eraseEdge` as part of a longer computation. -/
def erase (g : Graph E) (u v : Int) : Out (Graph E) :=
  match g.eraseEdge u v with
  | (.ok _, g) => .ok g
  | (.error e, _) => .error e

/-- `getEdges` (src/graph_gen.h 324-336). -/
def getEdges (g : Graph E) : List (Edge E) := g.edges.map fun r => ⟨r.src, r.dst, r.data⟩

/-- `operator[]` (src/graph_gen.h 338-352). -/
def neighbours (g : Graph E) (id : Int) : Out (List (Edge E)) := do
  g.assertNode id
  let s ← g.adjAt id
  s.mapM fun i =>
    match g.edges[i]? with
    | none => .error .ub
    | some r => .ok ⟨id, xorI r.fromXorTo id, r.data⟩

/-- `getDegrees` (src/graph_gen.h 354-359). -/
def getDegrees (g : Graph E) : List Nat := g.adj.map List.length

end Graph

end

end ICPC.Gen
