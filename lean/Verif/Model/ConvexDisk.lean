import Verif.Model.ConvexHull
import Verif.Model.RandSeq

/-!
# `Random::convexDisk` (archive/convex.cpp 27-60)

The candidates of `sampleRing` come from floating point functions (`std::sin`, `std::cos`, `std::sqrt`); they are a
parameter here.
-/

namespace ICPC.Archive

open Rand

/-- `sampleRing(r)` (archive/convex.cpp 34-43) with at most the given number of candidates; `dim` is the squared radius. -/
def sampleRing (candidate : Int → Rand Pt) (dim r : Int) : Nat → Rand Pt
  | 0 => lift (.error .fuel)
  | f + 1 => do
    let p ← candidate r
    let x2 ← lift (chk (p.1 * p.1))
    let y2 ← lift (chk (p.2 * p.2))
    let d ← lift (chk (x2 + y2))
    if r ≤ d ∧ d < dim then pure p else sampleRing candidate dim r f

/-- `for (Integer i = 0; i < n; i++) res.push_back(sampleRing(r))` (archive/convex.cpp 49-51). -/
def samples (sample : Rand Pt) : Nat → List Pt → Rand (List Pt)
  | 0, res => pure res
  | n + 1, res => do
    let p ← sample
    samples sample n (res ++ [p])

/-- `for (auto p : res) r = std::min(r, ...)` (archive/convex.cpp 48). -/
def minNorm : Int → List Pt → Out Int
  | r, [] => .ok r
  | r, p :: res => do
    let x2 ← chk (p.1 * p.1)
    let y2 ← chk (p.2 * p.2)
    let d ← chk (x2 + y2)
    minNorm (min r d) res

/-- `res.pop_back()`, undefined for an empty vector. -/
def popBack (res : List Pt) : Out (List Pt) := if res = [] then .error .ub else .ok res.dropLast

/-- `do { ... } while (res.size() <= n)` (archive/convex.cpp 46-54); `n` is converted to an unsigned number. -/
def diskLoop (candidate : Int → Rand Pt) (n dim : Int) : Nat → List Pt → Rand (List Pt)
  | 0, _ => lift (.error .fuel)
  | f + 1, res => do
    let r ← lift (minNorm dim res)
    let res ← samples (sampleRing candidate dim r (f + 1)) n.toNat res
    let res ← lift (convexHull res)
    let res ← lift (popBack res)
    if res.length ≤ toU64 n then diskLoop candidate n dim f res else pure res

/-- `res.resize(n)` (archive/convex.cpp 57). -/
def resize (n : Nat) (res : List Pt) : List Pt := res.take n ++ List.replicate (n - res.length) (0, 0)

/-- `Random::convexDisk(n, dim)` (archive/convex.cpp 28-59); `fuel` bounds both loops that may run for ever. -/
def convexDisk (candidate : Int → Rand Pt) (fuel : Nat) (n dim : Int) : Rand (List Pt) := do
  lift (judgeAssert (decide (dim ≤ 0x3FFFFFFF)))
  let n2 ← lift (chk (n * n))
  lift (judgeAssert (decide (n2.tdiv 1000 ≤ dim)))
  let dim ← lift (chk (dim * dim))
  let res ← diskLoop candidate n dim fuel [(0, 0)]
  let res ← lift (popBack res)
  let res ← shuffle res
  lift (convexHull (resize n.toNat res))

end ICPC.Archive
