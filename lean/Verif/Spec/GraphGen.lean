import Verif.Model.GraphGen

/-!
# What a graph of the generator library stands for

A map from pairs of vertices to edge data. For undirected graphs it is symmetric. `Agrees` compares all observations with the map.
-/

namespace ICPC.Spec.EdgeMap

open ICPC ICPC.Gen

/-- The abstract value: the data of the edge from `u` to `v`, if there is one. -/
abbrev Map (E : Type) := Int → Int → Option E

variable {E : Type}

/-- The two pairs denote the same edge. -/
def Same (dir : Bool) (u v u' v' : Int) : Prop := (u' = u ∧ v' = v) ∨ (dir = false ∧ u' = v ∧ v' = u)

instance (dir : Bool) (u v u' v' : Int) : Decidable (Same dir u v u' v') := inferInstanceAs (Decidable (_ ∨ _))

/-- Adding an edge or changing its data. -/
def put (dir : Bool) (m : Map E) (u v : Int) (d : E) : Map E := fun x y => if Same dir u v x y then some d else m x y

/-- Removing an edge. -/
def del (dir : Bool) (m : Map E) (u v : Int) : Map E := fun x y => if Same dir u v x y then none else m x y

/-- Renaming vertices. -/
def shift (m : Map E) (k : Int) : Map E := fun x y => m (x - k) (y - k)

/-- `u` is a vertex. -/
def In (lo : Int) (n : Nat) (u : Int) : Prop := lo ≤ u ∧ u < lo + n

instance (lo : Int) (n : Nat) (u : Int) : Decidable (In lo n u) := inferInstanceAs (Decidable (_ ∧ _))

/-- Everything that can be observed of the graph agrees with the map `m` on the `n` vertices from `lo`. -/
structure Agrees (g : Graph E) (dir : Bool) (lo : Int) (n : Nat) (m : Map E) : Prop where
  minId : g.minId = lo
  nodeCount : g.nodeCount = n
  next : g.getNextId = .ok (lo + n)
  has : ∀ u v, g.hasEdge u v = if In lo n u ∧ In lo n v then .ok (m u v).isSome else .error .throw
  find : ∀ u v, g.findEdge u v = if In lo n u ∧ In lo n v then .ok ((m u v).map fun d => ⟨u, v, d⟩) else .error .throw
  /-- every stored edge is an edge between different vertices -/
  sound : ∀ e ∈ g.getEdges, In lo n e.src ∧ In lo n e.dst ∧ e.src ≠ e.dst ∧ m e.src e.dst = some e.data
  /-- every edge is stored exactly once, undirected ones in one of the two orientations -/
  once : ∀ u v d, m u v = some d → ∃! i : Nat, ∃ e : Edge E, g.getEdges[i]? = some e ∧ Same dir u v e.src e.dst
  count : g.edgeCount = g.getEdges.length
  byId : ∀ i, g.getEdgeById i = match g.getEdges[i]? with | some e => .ok e | none => .error .throw
  /-- the adjacency view lists every neighbour once -/
  view : ∀ u, In lo n u → ∃ l, g.neighbours u = .ok l ∧ g.degree u = .ok l.length ∧ (l.map Edge.dst).Nodup ∧
    ∀ e, e ∈ l ↔ e.src = u ∧ m u e.dst = some e.data
  unknown : ∀ u, ¬ In lo n u → g.neighbours u = .error .throw ∧ g.degree u = .error .throw
  degrees : g.getDegrees.length = n ∧ ∀ k, k < n → g.degree (lo + k) = .ok (g.getDegrees.getD k 0)

/-! ## Sequences of calls -/

/-- Calls that change a graph. -/
inductive Op (E : Type) where
  | addEdge (u v : Int) (d : E)
  | eraseEdge (u v : Int)
  | setMinId (k : Int)
  | normalize
  | copy

/-- What a call returns. -/
inductive Reply (E : Type) where
  | edge (e : Edge E)
  | bool (b : Bool)
  | none
  deriving DecidableEq

/-- The abstract state. -/
structure Abs (E : Type) where
  lo : Int
  m : Map E

/-- The call on the abstract state (with `n` vertices): what it returns, and the state afterwards. -/
def Abs.step (dir : Bool) (n : Nat) (a : Abs E) : Op E → Out (Reply E) × Abs E
  | .addEdge u v d =>
    if In a.lo n u ∧ In a.lo n v ∧ u ≠ v then (.ok (.edge ⟨u, v, d⟩), { a with m := put dir a.m u v d }) else (.error .throw, a)
  | .eraseEdge u v =>
    if In a.lo n u ∧ In a.lo n v then (.ok (.bool (a.m u v).isSome), { a with m := del dir a.m u v }) else (.error .throw, a)
  | .setMinId k => (.ok .none, ⟨k, shift a.m (k - a.lo)⟩)
  | .normalize => (.ok .none, ⟨0, shift a.m (0 - a.lo)⟩)
  | .copy => (.ok .none, a)

/-- All calls. -/
def Abs.run (dir : Bool) (n : Nat) : Abs E → List (Op E) → List (Out (Reply E)) × Abs E
  | a, [] => ([], a)
  | a, o :: ops =>
    let r := a.step dir n o
    let rest := Abs.run dir n r.2 ops
    (r.1 :: rest.1, rest.2)

/-- New vertex numbers are representable. -/
def Op.Fits (n : Nat) : Op E → Prop
  | .setMinId k => I64 k ∧ I64 (k + n)
  | _ => True

/-- The call on a graph: what it returns, and the graph afterwards (also if it throws). -/
def call (g : Graph E) : Op E → Out (Reply E) × Graph E
  | .addEdge u v d => ((g.addEdge u v d).1.map .edge, (g.addEdge u v d).2)
  | .eraseEdge u v => ((g.eraseEdge u v).1.map .bool, (g.eraseEdge u v).2)
  | .setMinId k => match g.setMinId k with | .ok g => (.ok .none, g) | .error e => (.error e, g)
  | .normalize => match g.normalize with | .ok g => (.ok .none, g) | .error e => (.error e, g)
  | .copy => match g.copy with | .ok g => (.ok .none, g) | .error e => (.error e, g)

/-- All calls. -/
def calls : Graph E → List (Op E) → List (Out (Reply E)) × Graph E
  | g, [] => ([], g)
  | g, o :: ops =>
    let r := call g o
    let rest := calls r.2 ops
    (r.1 :: rest.1, rest.2)

end ICPC.Spec.EdgeMap
