import Verif.Model.Geo
import Verif.Model.RandSeq

/-!
# `Random::polygon` (archive/polygon.cpp 3-78)

`std::partition` and `std::sort` leave the order of equivalent elements open; they are parameters. Numbers called `fuel`
bound loops and recursions that may run for ever. `sign` (src/validate.h 1150-1153) is `Int.sign`.
-/

namespace ICPC.Archive

open Rand

/-- `details::dot(a, b)` (archive/polygon.cpp 4-7). -/
def dotO (a b : Pt) : Out Int := do
  let u ← chk (a.1 * b.1)
  let v ← chk (a.2 * b.2)
  chk (u + v)

/-- `details::dot(p, a, b)` (archive/polygon.cpp 9-16). -/
def dotP (p a b : Pt) : Out Int := do
  let ax ← chk (a.1 - p.1)
  let ay ← chk (a.2 - p.2)
  let bx ← chk (b.1 - p.1)
  let b_y ← chk (b.2 - p.2)
  dotO (ax, ay) (bx, b_y)

/-- `do cutPointA = ... while (...)` (archive/polygon.cpp 24-27); `mid` are the points between the first and the last one. -/
def pickA (mid : List Pt) (first last : Pt) : Nat → Rand Pt
  | 0 => lift (.error .fuel)
  | f + 1 => do
    let a ← select mid
    let c ← lift (crossP a first last)
    if c = 0 then pickA mid first last f else pure a

/-- The loop that fills `cutPointBs` (archive/polygon.cpp 30-36). -/
def cutEnds (a first last : Pt) : List Pt → Out (List Pt)
  | [] => .ok []
  | p :: ps => do
    let cf ← crossP a p first
    let cl ← crossP a p last
    let rest ← cutEnds a first last ps
    .ok (if cf ≠ 0 ∧ cf.sign * cl.sign ≤ 0 then p :: rest else rest)

/-- The predicate of `std::partition` (archive/polygon.cpp 39-45). -/
def sideOf (a b first p : Pt) : Out Bool := do
  let c ← crossP a b p
  if c ≠ 0 then do
    let cf ← crossP a b first
    .ok (decide (c.sign = cf.sign))
  else do
    let d ← dotP a b p
    let df ← dotP a b first
    .ok (decide (d.sign = df.sign))

/-- `for (auto it = cut; ...) if (*it == cutPointA) std::iter_swap(cut, it);` (archive/polygon.cpp 46-48): the element at
`cut`, and the ones after it. -/
def toFront (a c : Pt) : List Pt → Pt × List Pt
  | [] => (c, [])
  | p :: ps =>
    if p = a then ((toFront a p ps).1, c :: (toFront a p ps).2)
    else ((toFront a c ps).1, p :: (toFront a c ps).2)

/-- The same for the whole range `[cut, prev(last))`, which may be empty. -/
def cutFront (a : Pt) : List Pt → List Pt
  | [] => []
  | c :: ps => (toFront a c ps).1 :: (toFront a c ps).2

/-- `details::findLine` (archive/polygon.cpp 18-52). -/
def findLine (part : (Pt → Bool) → List Pt → List Pt) (loop : Nat) : Nat → List Pt → Rand (List Pt)
  | 0, _ => lift (.error .fuel)
  | f + 1, first :: x :: y :: rest => do
    let mid := (x :: y :: rest).dropLast
    let last := (y :: rest).getLast (List.cons_ne_nil y rest)
    let a ← pickA mid first last loop
    let bs ← lift (cutEnds a first last mid)
    let b ← select (last :: bs)
    lift (if mid.all fun p => (sideOf a b first p).isOk then .ok () else .error .ub)
    let q := fun p => match sideOf a b first p with
      | .ok s => s
      | .error _ => false
    let m := part q mid
    let right := cutFront a (m.drop (m.countP q)) ++ [last]
    let r1 ← findLine part loop f (first :: m.take (m.countP q) ++ right.take 1)
    let r2 ← findLine part loop f (r1.drop (r1.length - 1) ++ right.drop 1)
    pure (r1.dropLast ++ r2)
  | _ + 1, l => pure l

/-- `Random::point(dim)` (archive/polygon.cpp 56-59). -/
def point (dim : Int) : Rand Pt := do
  let l ← lift (chk (-dim))
  let l ← lift (chk (l + 1))
  let x ← integer l dim
  let y ← integer l dim
  pure (x, y)

/-- `for (auto& p : points) p = point(dim)` (archive/polygon.cpp 69). -/
def samplePoints (dim : Int) : Nat → Rand (List Pt)
  | 0 => pure []
  | n + 1 => do
    let p ← point dim
    let ps ← samplePoints dim n
    pure (p :: ps)

/-- The comparator of `std::sort` (archive/polygon.cpp 71-73). -/
def dirLess (dir a b : Pt) : Bool := decide (a.1 * dir.1 + a.2 * dir.2 < b.1 * dir.1 + b.2 * dir.2)

/-- `swap(points[1], points.back())` (archive/polygon.cpp 74); undefined for less than two points. -/
def swapSecond (l : List Pt) : Out (List Pt) := swapAt l 1 (l.length - 1)

/-- The part of `Random::polygon` after the choice of the points and the direction (archive/polygon.cpp 71-76). -/
def polygonOf (part : (Pt → Bool) → List Pt → List Pt) (sort : (Pt → Pt → Bool) → List Pt → List Pt) (fuel : Nat) (points : List Pt)
    (dir : Pt) : Rand (List Pt) := do
  lift (if points.all fun p => (dotO p dir).isOk then .ok () else .error .ub)
  let points ← lift (swapSecond (sort (dirLess dir) points))
  findLine part fuel fuel points

/-- `Random::polygon(n, dim)` (archive/polygon.cpp 61-77); `fits` is the test `n*sqrt(n) <= dim` in floating point numbers. -/
def polygon (fits : Int → Int → Bool) (part : (Pt → Bool) → List Pt → List Pt) (sort : (Pt → Pt → Bool) → List Pt → List Pt) (fuel : Nat)
    (n dim : Int) : Rand (List Pt) := do
  lift (judgeAssert (decide (dim ≤ 0x3FFFFFFF)))
  lift (judgeAssert (decide (dim > 0)))
  lift (judgeAssert (fits n dim))
  lift (judgeAssert (decide (n ≥ 3)))
  let points ← samplePoints dim n.toNat
  let dir ← point 0x3FFFFFFF
  polygonOf part sort fuel points dir

end ICPC.Archive
