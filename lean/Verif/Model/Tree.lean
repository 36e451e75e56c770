import Verif.Model.Families
import Verif.Model.Rand

/-!
# Prüfer codes and random trees (src/graph_gen.h 806-855)

The edges of `pruefer` are collected first and added afterwards. No decision of the loop depends on the graph, so this makes no difference
unless an access is out of bounds.
-/

namespace ICPC.Gen

variable {E : Type} [Inhabited E]

/-- `count[x]`, undefined outside of the vector. -/
def at' (count : List Int) (x : Int) : Out Int :=
  if x < 0 then .error .ub else match count[x.toNat]? with | some c => .ok c | none => .error .ub

/-- `count[x] += d`. -/
def bump (count : List Int) (x d : Int) : Out (List Int) := do
  let c ← at' count x
  pure (count.set x.toNat (c + d))

/-- `for (; count[current] > 0; current++) {}` with the value of `current` afterwards. -/
def scan (count : List Int) : Nat → Int → Out Int
  | 0, _ => .error .fuel
  | f + 1, cur => do
    let c ← at' count cur
    if c > 0 then scan count f (cur + 1) else pure cur

/-- `getNext` (src/graph_gen.h 815-821): the vertex, and the new value of `current`. `skip` is -1 afterwards. -/
def getNext (count : List Int) (current skip : Int) : Out (Int × Int) :=
  if 0 ≤ skip ∧ skip ≤ current then .ok (skip, current)
  else do
    let c ← scan count (count.length + 1) (current + 1)
    pure (c, c)

/-- Loops of `pruefer` (src/graph_gen.h 822-830): the pairs of the calls of `addEdge`. -/
def prueferLoop : List Int → List Int → Int → Int → Out (List (Int × Int))
  | [], count, current, skip => do
    let (x, current) ← getNext count current skip
    let (y, _) ← getNext count current (-1)
    pure [(x, y)]
  | x :: code, count, current, skip => do
    let (y, current) ← getNext count current skip
    let count ← bump count x (-1)
    let c ← at' count x
    let rest ← prueferLoop code count current (if c = 0 then x else -1)
    pure ((x, y) :: rest)

/-- `pruefer` (src/graph_gen.h 808-832). The size of a vector is below `2^63`; adding 2 to it is unsigned and the conversion to `Integer` keeps
the value unless it is above. -/
def pruefer (code : List Int) : Out (Graph E) := do
  let s ← chk (code.length + 2)
  let res : Graph E ← Graph.ofSize false s
  let count ← code.foldlM (fun count x => bump count x 1) (List.replicate (code.length + 2) 0)
  let ps ← prueferLoop code count (-1) (-1)
  addPairs res ps

/-- `for (Integer& x : code) x = Random::integer(n);` (src/graph_gen.h 840). -/
def randomCode (n : Int) : Nat → Rand (List Int)
  | 0 => pure []
  | k + 1 => do
    let x ← integer 0 n
    let rest ← randomCode n k
    pure (x :: rest)

/-- `randomTree<E, false>` (src/graph_gen.h 837-841). -/
def randomTree (n : Int) : Rand (Graph E) :=
  if n ≤ 2 then Rand.lift (clique false n)
  else do
    let code ← randomCode n (n - 2).toNat
    Rand.lift (pruefer code)

/-- `dfs` (src/graph_gen.h 845-851). -/
def orient (tmp : Graph Unit) : Nat → Int → Int → Graph E → Out (Graph E)
  | 0, _, _, _ => .error .fuel
  | f + 1, cur, pref, res => do
    let l ← tmp.neighbours cur
    l.foldlM (fun (res : Graph E) (e : Edge Unit) => if e.dst = pref then pure res else do
      let res ← res.add cur e.dst default
      orient tmp f e.dst cur res) res

/-- `randomTree<E, true>` (src/graph_gen.h 843-853). Fuel for a path through all vertices. -/
def randomDiTree (n : Int) : Rand (Graph E) := do
  let tmp ← (randomTree n : Rand (Graph Unit))
  let res ← Rand.lift (Graph.ofSize true n)
  Rand.lift (orient tmp (n.toNat + 1) tmp.minId (tmp.minId - 1) res)

end ICPC.Gen
