import Mathlib.Data.List.Sort
import Verif.Model.Geo

/-!
# `convexHull` (archive/convex.cpp 5-23)
-/

namespace ICPC.Archive

/-- The comparator of `std::sort` (archive/convex.cpp 7-9). -/
def ptLess (a b : Pt) : Bool := if a.1 = b.1 then decide (a.2 < b.2) else decide (a.1 < b.1)

/-- `std::sort` with this comparator (archive/convex.cpp 7-9).  Points that are equivalent for it are equal, so there is
only one sorted rearrangement. -/
def sortPts (pts : List Pt) : List Pt := pts.insertionSort fun a b => ptLess b a = false

/-- `p.erase(std::unique(p.begin(), p.end()), p.end())` (archive/convex.cpp 10). -/
def unique : List Pt → List Pt
  | a :: b :: l => if a = b then unique (b :: l) else a :: unique (b :: l)
  | l => l

/-- `while (k > t and cross(h[k - 2], h[k - 1], p) < 0) k--` (archive/convex.cpp 14, 18).  The first `k` entries of `h` are
kept as a stack with the last of them first. -/
def popLoop (t : Nat) (p : Pt) : List Pt → Out (List Pt)
  | b :: a :: rest =>
    if t < rest.length + 2 then do
      let c ← crossP a b p
      if c < 0 then popLoop t p (a :: rest) else .ok (b :: a :: rest)
    else .ok (b :: a :: rest)
  | h => .ok h

/-- The two loops (archive/convex.cpp 13-16, 17-20); in the first one `t` is 1.  At most `2 * p.size() - 1` points are
written, so the writes are inside of `h`. -/
def chain (t : Nat) : List Pt → List Pt → Out (List Pt)
  | [], h => .ok h
  | p :: ps, h => do
    let h ← popLoop t p h
    chain t ps (p :: h)

/-- `convexHull` (archive/convex.cpp 5-23). -/
def convexHull (pts : List Pt) : Out (List Pt) := do
  let p := unique (sortPts pts)
  let h ← chain 1 p []
  let h ← chain h.length (p.reverse.drop 1) h
  .ok h.reverse

end ICPC.Archive
