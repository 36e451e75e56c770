import Verif.Model.Families
import Verif.Model.Rand

/-!
# Random graphs with given degrees (src/graph_gen.h 902-942)

The priority queue of pairs of a degree and a vertex is the list of its entries, the largest first. All entries are different, so their order
is determined.
-/

namespace ICPC.Gen

variable {E : Type} [Inhabited E]

/-- `operator<` of `std::pair`. -/
def pairLt (a b : Int × Int) : Bool := decide (a.1 < b.1) || (decide (a.1 = b.1) && decide (a.2 < b.2))

/-- `pq.push(e)`. -/
def pqPush (e : Int × Int) : List (Int × Int) → List (Int × Int)
  | [] => [e]
  | x :: q => if pairLt x e then e :: x :: q else x :: pqPush e q

/-- `for (const auto& e : todo) pq.push(e);` -/
def pushAll (q todo : List (Int × Int)) : List (Int × Int) := todo.foldl (fun q e => pqPush e q) q

/-- The queue at the beginning (src/graph_gen.h 908-913); `i` is the number of the next vertex. -/
def initQueue (i : Int) : List Int → List (Int × Int) → List (Int × Int)
  | [], q => q
  | d :: degree, q => initQueue (i + 1) degree (if d > 0 then pqPush (d, i) q else q)

/-- The loop over the neighbours of `c` (src/graph_gen.h 921-927). -/
def connect (c : Int) : Nat → List (Int × Int) → List (Int × Int) → Graph E → Out (List (Int × Int) × List (Int × Int) × Graph E)
  | 0, q, todo, res => pure (q, todo, res)
  | _ + 1, [], _, _ => .error .ub
  | k + 1, (dd, cc) :: q, todo, res => do
    let res ← res.add c cc default
    let dd ← chk (dd - 1)
    connect c k q (if dd > 0 then todo ++ [(dd, cc)] else todo) res

/-- The loop of Havel and Hakimi (src/graph_gen.h 914-929). Every round removes at least one entry. -/
def havelHakimi : Nat → List (Int × Int) → Graph E → Out (Graph E)
  | 0, _, _ => .error .fuel
  | _ + 1, [], res => pure res
  | f + 1, (d, c) :: q, res =>
    if (q.length : Int) < d ∨ d < 0 then .error .throw
    else do
      let (q, todo, res) ← connect c d.toNat q [] res
      havelHakimi f (pushAll q todo) res

/-- `u == v or res.hasEdge(u, v)`. -/
def blocked (res : Graph E) (u v : Int) : Out Bool := if u = v then .ok true else res.hasEdge u v

/-- One flip (src/graph_gen.h 932-939). -/
def flip (res : Graph E) : Rand (Graph E) := do
  let i ← integer 0 res.edgeCount
  let a ← Rand.lift (res.getEdgeById i.toNat)
  let j ← integer 0 res.edgeCount
  let b ← Rand.lift (res.getEdgeById j.toNat)
  Rand.lift (do
    let s ← blocked res a.src b.dst
    if s then pure res
    else do
      let s ← blocked res b.src a.dst
      if s then pure res
      else do
        let res ← res.erase a.src a.dst
        let res ← res.erase b.src b.dst
        let res ← res.add a.src b.dst default
        res.add b.src a.dst default)

/-- All flips. -/
def flips : Nat → Graph E → Rand (Graph E)
  | 0, res => pure res
  | k + 1, res => do
    let res ← flip res
    flips k res

/-- `randomGraph(degree, averageFlips)` (src/graph_gen.h 905-942). -/
def degreeGraph (degree : List Int) (averageFlips : Int) : Rand (Graph E) := do
  let res ← Rand.lift (do
    let n ← chk degree.length
    let res : Graph E ← Graph.ofSize false n
    havelHakimi (degree.length + 1) (initQueue 0 degree []) res)
  let k ← Rand.lift (chk (averageFlips * res.nodeCount))
  flips k.toNat res

end ICPC.Gen
