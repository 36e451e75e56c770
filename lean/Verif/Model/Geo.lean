import Verif.Model.Basic

/-!
# Plane geometry (src/validate.h 1164-1236, 1306-1317)

Points are pairs of `Integer`; `getX`, `getY` are the components.
-/

namespace ICPC

abbrev Pt := Int × Int

/-- `cross(a, b)` (src/validate.h 1169-1172). -/
def crossO (a b : Pt) : Out Int := do
  let u ← chk (a.1 * b.2)
  let v ← chk (a.2 * b.1)
  chk (u - v)

/-- `cross(p, a, b)` (src/validate.h 1173-1180). -/
def crossP (p a b : Pt) : Out Int := do
  let ax ← chk (a.1 - p.1)
  let ay ← chk (a.2 - p.2)
  let bx ← chk (b.1 - p.1)
  let b_y ← chk (b.2 - p.2)
  crossO (ax, ay) (bx, b_y)

/-- `std::abs(x) <= 0x3FFF'FFFF` as a `judgeAssert` (src/validate.h 1200-1201); `std::abs` of the smallest value
is undefined. -/
def assertAbs (x : Int) : Out Unit := do
  let a ← chk (x.natAbs : Int)
  judgeAssert (decide (a ≤ 0x3FFFFFFF))

/-- `details::assertBounds` (src/validate.h 1196-1204). -/
def assertBounds : List Pt → Out Unit
  | [] => .ok ()
  | p :: ps => do
    assertAbs p.1
    assertAbs p.2
    assertBounds ps

/-- `first[i]`. -/
def ptAt (pts : List Pt) (i : Nat) : Out Pt :=
  match pts[i]? with
  | some p => .ok p
  | none => .error .ub

/-- The loop of `isConvex` (src/validate.h 1211-1217) with `r` iterations to go, `i = n - r`. -/
def isConvexLoop (pts : List Pt) (n : Nat) : Nat → Bool → Out Bool
  | 0, hasArea => .ok hasArea
  | r + 1, hasArea => do
    let i := n - (r + 1)
    let a ← ptAt pts i
    let b ← ptAt pts ((i + 1) % n)
    if a = b then return false
    let o ← ptAt pts 0
    let c1 ← crossP o a b
    if c1 < 0 then return false
    let c ← ptAt pts ((i + 2) % n)
    let c2 ← crossP a b c
    if c2 < 0 then return false
    isConvexLoop pts n r (hasArea || decide (c2 ≠ 0))

/-- `isConvex` (src/validate.h 1206-1218). -/
def isConvex (pts : List Pt) : Out Bool := do
  assertBounds pts
  if pts.length < 3 then return false
  isConvexLoop pts pts.length pts.length false

/-- The loop of `isStrictlyConvex` (src/validate.h 1228-1230) with `r` iterations to go. -/
def noStraightLoop (pts : List Pt) (n : Nat) : Nat → Out Bool
  | 0 => .ok true
  | r + 1 => do
    let i := n - (r + 1)
    let a ← ptAt pts i
    let b ← ptAt pts ((i + 1) % n)
    let c ← ptAt pts ((i + 2) % n)
    let c2 ← crossP a b c
    if c2 = 0 then return false
    noStraightLoop pts n r

/-- `isStrictlyConvex` (src/validate.h 1224-1232). -/
def isStrictlyConvex (pts : List Pt) : Out Bool := do
  let b ← isConvex pts
  if !b then return false
  noStraightLoop pts pts.length pts.length

/-- The loop of `isCCW` (src/validate.h 1311). -/
def areaLoop : Int → Pt → List Pt → Out Int
  | area, _, [] => .ok area
  | area, p, q :: ps => do
    let c ← crossO p q
    let area ← chk (area + c)
    areaLoop area q ps

/-- `isCCW` (src/validate.h 1306-1313). -/
def isCCW (pts : List Pt) : Out Bool := do
  assertBounds pts
  match pts with
  | [] => return false
  | [_] => return false
  | p :: q :: ps => do
    let last ← ptAt (p :: q :: ps) (ps.length + 1)
    let c ← crossO last p
    let area ← areaLoop c p (q :: ps)
    return decide (area > 0)

end ICPC
