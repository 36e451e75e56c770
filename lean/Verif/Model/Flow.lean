import Verif.Model.GraphGen

/-!
# Worst cases for flow algorithms (src/graph_gen.h 944-982)
-/

namespace ICPC.Gen

/-- The loop of `ffWorstcase` (src/graph_gen.h 952-957). -/
def ffLoop (n : Int) : Nat → Int → Int → Int → Graph Int → Out (Graph Int)
  | 0, _, _, _, _ => .error .fuel
  | fuel + 1, i, j, c, res =>
    if j < 2 * n then do
      let res ← res.add i (i + 1) c
      let res ← res.add i (j - 1) c
      let res ← res.add (i + 1) j c
      let res ← res.add (j - 1) j c
      let c ← chk (c * 2)
      ffLoop n fuel (i - 1) (j + 1) c res
    else .ok res

/-- `ffWorstcase` (src/graph_gen.h 948-959); the loop has `n - 1` iterations. -/
def ffWorstcase (n : Int) : Out (Graph Int) := do
  judgeAssert (decide (0 < n ∧ n ≤ 63))
  let res ← Graph.ofSize true (2 * n)
  let res ← res.add (n - 1) n 1
  ffLoop n n.toNat (n - 2) (n + 1) 1 res

/-- `a << k` for `long long`: undefined for a wrong number of bits; the operands here are small enough that no bit is lost, which is checked. -/
def shl64 (a k : Int) : Out Int := if 0 ≤ k ∧ k < 64 then chk (a * 2 ^ k.toNat) else .error .ub

/-- `i < 2 ? 2 * i + 1 : 5ll << (i - 2)` (src/graph_gen.h 969). -/
def supply (i : Int) : Out Int := if i < 2 then .ok (2 * i + 1) else shl64 5 (i - 2)

/-- `i < 2 ? 2: 5ll << (i - 2)` (src/graph_gen.h 979). -/
def demand (i : Int) : Out Int := if i < 2 then .ok 2 else shl64 5 (i - 2)

/-- The loop over the sources (src/graph_gen.h 968-970). -/
def sourceLoop : Nat → Int → Graph (Int × Int) → Out (Graph (Int × Int))
  | 0, _, res => .ok res
  | k + 1, i, res => do
    let a ← supply i
    let res ← res.add 0 (i + 1) (a, 0)
    sourceLoop k (i + 1) res

/-- The inner loop (src/graph_gen.h 973-976). -/
def middleInner (n inf i : Int) : Nat → Int → Graph (Int × Int) → Out (Graph (Int × Int))
  | 0, _, res => .ok res
  | k + 1, j, res => do
    if i = j then middleInner n inf i k (j + 1) res
    else
      let w ← shl64 1 (max i j)
      let res ← res.add (i + 1) (j + 1 + n) (inf, w - 1)
      middleInner n inf i k (j + 1) res

/-- The two loops over sources and sinks (src/graph_gen.h 972-977). -/
def middleLoop (n inf : Int) : Nat → Int → Graph (Int × Int) → Out (Graph (Int × Int))
  | 0, _, res => .ok res
  | k + 1, i, res => do
    let res ← middleInner n inf i n.toNat 0 res
    middleLoop n inf k (i + 1) res

/-- The loop over the sinks (src/graph_gen.h 978-980). -/
def sinkLoop (n : Int) : Nat → Int → Graph (Int × Int) → Out (Graph (Int × Int))
  | 0, _, res => .ok res
  | k + 1, i, res => do
    let b ← demand i
    let res ← res.add (i + 1 + n) (2 * n + 1) (b, 0)
    sinkLoop n k (i + 1) res

/-- `mcmfWorstcase` (src/graph_gen.h 964-982). -/
def mcmfWorstcase (n : Int) : Out (Graph (Int × Int)) := do
  judgeAssert (decide (0 < n ∧ n ≤ 60))
  let res ← Graph.ofSize true (2 * n + 2)
  let s ← shl64 1 n
  let s ← chk (5 * s)
  let inf := s.tdiv 4
  let res ← sourceLoop n.toNat 0 res
  let res ← res.add 1 (n + 1) (inf, 0)
  let res ← middleLoop n inf n.toNat 0 res
  sinkLoop n n.toNat 0 res

end ICPC.Gen
