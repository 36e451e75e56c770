import Verif.Model.GraphGen

/-!
# Operators of `GraphType` (src/graph_gen.h 224-605)

Loops that only append to `edges` are written as the list that they append. Functions of two graphs are modelled for two different
objects; `combine` with itself does nothing (line 363), `append` of itself is `append` of a copy.
-/

namespace ICPC.Gen

/-- `for (Integer i = lo; i < hi; i++) s = f(i, s)`. -/
def forI {σ : Type} (lo hi : Int) (f : Int → σ → Out σ) (s : σ) : Out σ :=
  (List.range (hi - lo).toNat).foldlM (fun s (k : Nat) => f (lo + (k : Int)) s) s

/-- The values of that loop counter. -/
def intRange (lo hi : Int) : List Int := (List.range (hi - lo).toNat).map fun k : Nat => lo + (k : Int)

/-- Selection by a condition that may throw. -/
def filterOut {α : Type} (p : α → Out Bool) : List α → Out (List α)
  | [] => .ok []
  | x :: l => do
    let b ← p x
    let r ← filterOut p l
    pure (if b then x :: r else r)

namespace Graph

variable {E : Type}

/-- The edges that `emplaceEdge(from, to, data)` appends. -/
def mkRec (u v : Int) (d : E) : Rec E := ⟨xorI u v, v, d⟩

/-- `range` (src/graph_gen.h 224-235). -/
def range (g : Graph E) (l r : Int) : Out (Graph E) := do
  judgeAssert (decide (l ≤ r))
  let res : Graph E ← new g.dir l r
  let l' ← chk (l - g.minId)
  let r' ← chk (r - g.minId)
  let f := max 0 l'
  let t := min g.nodeCount r'
  g.getEdges.foldlM (fun res e =>
    if e.src ≥ f ∧ e.src < t ∧ e.dst ≥ f ∧ e.dst < t then res.add e.src e.dst e.data else pure res) res

/-- `combine` (src/graph_gen.h 362-376). -/
def combine (g o : Graph E) : Out (Graph E) := do
  let front := (g.minId - o.minId).toNat
  let g : Graph E := { g with minId := min g.minId o.minId, adj := List.replicate front [] ++ g.adj }
  let e ← chk (g.minId + g.nodeCount)
  let e' ← chk (o.minId + o.nodeCount)
  let g : Graph E := { g with adj := g.adj ++ List.replicate (e' - e).toNat [] }
  o.edges.foldlM (fun g r => g.add r.src r.dst r.data) g

/-- `append` (src/graph_gen.h 378-388). -/
def append (g o : Graph E) : Out (Graph E) := do
  let s ← chk (g.nodeCount + g.minId)
  let diff ← chk (s - o.minId)
  let g : Graph E := { g with adj := g.adj ++ List.replicate o.adj.length [] }
  o.edges.foldlM (fun g r => do
    let u ← chk (r.src + diff)
    let v ← chk (r.dst + diff)
    g.add u v r.data) g

/-- `e.to ^= e.fromXorTo`: the same edge seen from the other end. -/
def turn (r : Rec E) : Rec E := { r with dst := xorI r.dst r.fromXorTo }

/-- `Random::bit()` for undirected graphs only. -/
def coinIf (dir : Bool) : Rand Bool := if dir then pure false else bit

/-- `for (auto& e : edges) if (Random::bit()) e.to ^= e.fromXorTo`, for undirected graphs. -/
def flipLoop (dir : Bool) : List (Rec E) → Rand (List (Rec E))
  | [] => pure []
  | r :: l => do
    let b ← coinIf dir
    let rest ← flipLoop dir l
    pure ((if b then turn r else r) :: rest)

/-- `permutateEdges` (src/graph_gen.h 390-402). -/
def permutateEdges (g : Graph E) : Rand (Graph E) := do
  let es ← shuffle g.edges
  let es ← flipLoop g.dir es
  Rand.lift (buildAdj { g.clearAdj with edges := es })

/-- `perm[v - minId]`, undefined outside. -/
def permAt (perm : List Int) (k : Int) : Out Int :=
  if 0 ≤ k then
    match perm[k.toNat]? with
    | some x => .ok x
    | none => .error .ub
  else .error .ub

/-- Loop of `permutate(perm)` (src/graph_gen.h 408-418). -/
def permLoop (dir : Bool) (minId : Int) (perm : List Int) : List (Rec E) → Rand (List (Rec E))
  | [] => pure []
  | r :: l => do
    let b ← coinIf dir
    let r := if b then turn r else r
    let u ← Rand.lift (permAt perm (r.src - minId))
    let v ← Rand.lift (permAt perm (r.dst - minId))
    let rest ← permLoop dir minId perm l
    pure (mkRec u v r.data :: rest)

/-- `permutate(perm)` (src/graph_gen.h 404-421). -/
def permutate (g : Graph E) (perm : List Int) : Rand (Graph E) := do
  let b ← Rand.lift (isPerm perm g.minId)
  Rand.lift (judgeAssert b.value)
  let es ← shuffle g.edges
  let es ← permLoop g.dir g.minId perm es
  Rand.lift (buildAdj { g.clearAdj with edges := es })

/-- `permutate()` (src/graph_gen.h 423-428). -/
def permutateRandom (g : Graph E) : Rand (Graph E) := do
  let perm ← shuffle ((List.range g.adj.length).map fun k : Nat => g.minId + (k : Int))
  g.permutate perm

/-- `edges[id]`, undefined outside. -/
def edgeAt (edges : List (Rec E)) (id : Int) : Out (Rec E) :=
  match edges[id.toNat]? with
  | some r => .ok r
  | none => .error .ub

/-- `subgraph` (src/graph_gen.h 430-437). -/
def subgraph (g : Graph E) (k : Int) : Rand (Graph E) :=
  if k ≥ g.edgeCount then Rand.lift g.copy
  else do
    let e ← Rand.lift (chk (g.minId + g.nodeCount))
    let res : Graph E ← Rand.lift (new g.dir g.minId e)
    let todo ← distinct k 0 g.edgeCount
    let es ← Rand.lift (todo.mapM (edgeAt g.edges))
    Rand.lift (buildAdj { res with edges := es })

/-- `reverse` (src/graph_gen.h 439-447), for directed graphs. -/
def reverse (g : Graph E) : Out (Graph E) := buildAdj { g.clearAdj with edges := g.edges.map turn }

/-- `undirected` (src/graph_gen.h 449-456), for directed graphs. -/
def undirected (g : Graph E) : Out (Graph E) := do
  let e ← chk (g.minId + g.nodeCount)
  let res : Graph E ← new false g.minId e
  g.getEdges.foldlM (fun res e => res.add e.src e.dst e.data) res

/-- `directed(p)` (src/graph_gen.h 458-474), for undirected graphs. -/
def directedBy (g : Graph E) (p : Int → Int → E → Bool) : Out (Graph E) := do
  let e ← chk (g.minId + g.nodeCount)
  let res : Graph E ← new true g.minId e
  buildAdj { res with edges := g.getEdges.flatMap fun e =>
    (if p e.src e.dst e.data then [mkRec e.src e.dst e.data] else []) ++ (if p e.dst e.src e.data then [mkRec e.dst e.src e.data] else []) }

/-- `directed()` (src/graph_gen.h 476-480). -/
def directed (g : Graph E) : Out (Graph E) := g.directedBy fun _ _ _ => true

/-- `complement` (src/graph_gen.h 482-498). -/
def complement [Inhabited E] (g : Graph E) : Out (Graph E) := do
  let e ← chk (g.minId + g.nodeCount)
  let res : Graph E ← new g.dir g.minId e
  let cand := (intRange 0 g.nodeCount).flatMap fun i => (intRange 0 i).flatMap fun j =>
    (i + g.minId, j + g.minId) :: (if g.dir then [(j + g.minId, i + g.minId)] else [])
  let pairs ← filterOut (fun p => do let b ← g.hasEdge p.1 p.2; pure !b) cand
  buildAdj { res with edges := pairs.map fun p => mkRec p.1 p.2 default }

/-- Inner loop of `power` (src/graph_gen.h 510-515): new entries of the queue, and `seen`. -/
def powerScan (minId d : Int) : List (Edge E) → List Bool → List (Int × Int) × List Bool
  | [], seen => ([], seen)
  | e :: l, seen =>
    if seen.getD (e.dst - minId).toNat false then powerScan minId d l seen
    else
      let r := powerScan minId d l (seen.set (e.dst - minId).toNat true)
      ((e.dst - minId, d) :: r.1, r.2)

/-- Loop over the queue in `power` (src/graph_gen.h 506-518): `pending` are the entries from position `j` on. -/
def powerBfs (g : Graph E) (k : Int) : Nat → List (Int × Int) → List (Int × Int) → List Bool → Out (List (Int × Int) × List Bool)
  | _, [], done, seen => .ok (done, seen)
  | 0, _ :: _, _, _ => .error .fuel
  | f + 1, (c, d) :: rest, done, seen =>
    if d < k then do
      let nb ← g.neighbours (c + g.minId)
      let r := powerScan g.minId (d + 1) nb seen
      powerBfs g k f (rest ++ r.1) (done ++ [(c, d)]) r.2
    else powerBfs g k f rest (done ++ [(c, d)]) seen

/-- `power` (src/graph_gen.h 501-527); `fuel` bounds the length of the queue. -/
def power [Inhabited E] (fuel : Nat) (g : Graph E) (k : Int) : Out (Graph E) := do
  let e ← chk (g.minId + g.nodeCount)
  let res : Graph E ← new g.dir g.minId e
  let r ← forI 0 g.nodeCount (fun i (s : List (Rec E) × List Bool) => do
    let q ← powerBfs g k fuel [(i, 0)] [] s.2
    pure (s.1 ++ (q.1.filter fun x => decide (i ≠ x.1)).map (fun x => mkRec (i + g.minId) (x.1 + g.minId) default),
      q.1.foldl (fun seen x => seen.set x.1.toNat false) q.2)) ([], List.replicate g.adj.length false)
  buildAdj { res with edges := r.1 }

/-- `newId` in `product` and `cartesian` (src/graph_gen.h 536-538). -/
def newId (g o : Graph E) (a b : Int) : Int := (b - o.minId) * g.nodeCount + (a - g.minId)

/-- `product` (src/graph_gen.h 533-547), for undirected graphs. -/
def product [Inhabited E] (g o : Graph E) : Out (Graph E) := do
  let s ← chk (g.nodeCount * o.nodeCount)
  let res : Graph E ← ofSize g.dir s
  buildAdj { res with edges := g.getEdges.flatMap fun e1 => o.getEdges.flatMap fun e2 =>
    [mkRec (newId g o e1.src e2.src) (newId g o e1.dst e2.dst) default, mkRec (newId g o e1.src e2.dst) (newId g o e1.dst e2.src) default] }

/-- `cartesian` (src/graph_gen.h 549-569). -/
def cartesian [Inhabited E] (g o : Graph E) : Out (Graph E) := do
  let s ← chk (g.nodeCount * o.nodeCount)
  let res : Graph E ← ofSize g.dir s
  buildAdj { res with edges :=
    (o.getEdges.flatMap fun e => (intRange 0 g.nodeCount).map fun i => mkRec (newId g o (i + g.minId) e.src) (newId g o (i + g.minId) e.dst) default) ++
    (g.getEdges.flatMap fun e => (intRange 0 o.nodeCount).map fun i => mkRec (newId g o e.src (i + o.minId)) (newId g o e.dst (i + o.minId)) default) }

/-- `strongProduct` (src/graph_gen.h 571-574), for undirected graphs. -/
def strongProduct [Inhabited E] (g o : Graph E) : Out (Graph E) := do
  let a ← cartesian o g
  let b ← product o g
  a.combine b

/-- The edges that `lineGraph` adds for one edge (src/graph_gen.h 587-597). -/
def lineRow (dir : Bool) (tmp : Graph Int) (e1 : Edge Int) : Out (List (Rec Int)) :=
  if dir then do
    let a ← tmp.neighbours e1.dst
    pure (a.map fun e2 => mkRec e1.data e2.data 0)
  else do
    let a ← tmp.neighbours e1.dst
    let b ← tmp.neighbours e1.src
    pure (((a ++ b).filter fun e2 => decide (e1.data < e2.data)).map fun e2 => mkRec e1.data e2.data 0)

/-- `lineGraph` (src/graph_gen.h 576-600); it compiles only if `E` is an integral type. -/
def lineGraph (g : Graph Int) : Out (Graph Int) := do
  let e ← chk (g.minId + g.nodeCount)
  let tmp : Graph Int ← new g.dir g.minId e
  let tmp ← buildAdj { tmp with edges := g.getEdges.mapIdx fun i e => mkRec e.src e.dst (i : Int) }
  let res : Graph Int ← ofSize g.dir (g.edges.length : Int)
  let es ← tmp.getEdges.mapM (lineRow g.dir tmp)
  buildAdj { res with edges := es.flatten }

end Graph

end ICPC.Gen
