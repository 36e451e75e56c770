import Verif.Model.RandSeq
import Verif.Model.Geo

/-!
# `Random::convex` (src/validate.h 1831-1877) and `details::cyclicSort` (src/validate.h 1182-1194)

Three parts are parameters: `std::sort` and `std::partition`, whose results are not determined by the standard, and
`Random::binomial`, which computes with floating point numbers (src/validate.h 1487-1542).
-/

namespace ICPC

open Rand (lift)

/-- `details::left` (src/validate.h 1183-1186). -/
def leftHalf (p : Pt) : Bool := if p.1 = 0 then decide (p.2 < 0) else decide (p.1 < 0)

/-- The comparator of `details::cyclicSort` (src/validate.h 1190-1192); `left(a) > left(b)` compares `bool`s. -/
def cyclicLess (a b : Pt) : Out Bool := do
  if leftHalf a ≠ leftHalf b then return leftHalf a && !leftHalf b
  let c ← crossO a b
  return decide (c > 0)

/-- The value of the comparator where it is defined. -/
def lessValue (a b : Pt) : Bool :=
  match cyclicLess a b with
  | .ok t => t
  | .error _ => false

/-- `details::cyclicSort` (src/validate.h 1188-1193).  Which pairs are compared is not specified, so the behaviour
counts as undefined if any comparison of two elements is. -/
def cyclicSort (sort : (Pt → Pt → Bool) → List Pt → List Pt) (dirs : List Pt) : Out (List Pt) :=
  if dirs.all fun a => dirs.all fun b => (cyclicLess a b).isOk then .ok (sort lessValue dirs) else .error .ub

/-- The x- and y-differences (src/validate.h 1839-1846). -/
def convexDraw (binom : Int → Rand Int) (n dim : Int) : Rand (List Int × List Int) := do
  let l ← binom (n - 2)
  let left := 1 + l
  let d ← binom (n - 2)
  let down := 1 + d
  let x ← partition (2 * dim - 2) left 0
  let y ← partition (2 * dim - 2) down 0
  let x' ← partition (2 * dim - 2) (n - left) 0
  let y' ← partition (2 * dim - 2) (n - down) 0
  pure (x.map (fun z => -z) ++ x', y.map (fun z => -z) ++ y')

/-- `shuffle(x.begin() + k, x.end())` (src/validate.h 1850). -/
def shuffleBack (k : Nat) (l : List Int) : Rand (List Int) := do
  let t ← shuffle (l.drop k)
  pure (l.take k ++ t)

/-- `if (c) shuffle(y.begin(), y.begin() + k)` (src/validate.h 1851). -/
def shuffleFront (c : Bool) (k : Nat) (l : List Int) : Rand (List Int) :=
  if c then do
    let t ← shuffle (l.take k)
    pure (t ++ l.drop k)
  else pure l

/-- The directions of the edges (src/validate.h 1847-1856); `none` for `continue`. -/
def convexDirs (part : (Int → Bool) → List Int → List Int) (n : Int) (x y : List Int) : Rand (Option (List Pt)) :=
  let px := part (fun z => decide (z = 0)) x
  let py := part (fun z => decide (z ≠ 0)) y
  let kx := px.countP fun z => decide (z = 0)
  let ky := py.countP fun z => decide (z ≠ 0)
  if (kx : Int) + ((py.length - ky : Nat) : Int) > n then pure none
  else do
    let sx ← shuffleBack kx px
    let sy ← shuffleFront (decide (kx ≠ 0)) ky py
    pure (some (sx.zip sy))

/-- The points after the first one, before the translation (src/validate.h 1862-1869). -/
def convexWalk : Pt → List Pt → Out (List Pt)
  | _, [] => .ok []
  | p, d :: ds => do
    let x ← chk (p.1 + d.1)
    let y ← chk (p.2 + d.2)
    let rest ← convexWalk (x, y) ds
    .ok ((x, y) :: rest)

/-- The translation (src/validate.h 1871-1874). -/
def convexShift (sx sy : Int) : List Pt → Out (List Pt)
  | [] => .ok []
  | p :: ps => do
    let x ← chk (p.1 + sx)
    let y ← chk (p.2 + sy)
    let rest ← convexShift sx sy ps
    .ok ((x, y) :: rest)

/-- From the directions to the polygon (src/validate.h 1857-1875). -/
def convexPlace (sort : (Pt → Pt → Bool) → List Pt → List Pt) (dim : Int) (dirs : List Pt) : Out (List Pt) := do
  let ds ← cyclicSort sort dirs
  let w ← convexWalk (0, 0) ds
  let maxX := (w.map Prod.fst).foldl max 0
  let maxY := (w.map Prod.snd).foldl max 0
  let sx ← chk (dim - 1 - maxX)
  let sy ← chk (dim - 1 - maxY)
  convexShift sx sy ((0, 0) :: w).dropLast

/-- The `while` loop of `Random::convex` (src/validate.h 1838-1876); at most `fuel` iterations are followed. -/
def convexLoop (part : (Int → Bool) → List Int → List Int) (sort : (Pt → Pt → Bool) → List Pt → List Pt)
    (binom : Int → Rand Int) (n dim : Int) : Nat → Rand (List Pt)
  | 0 => lift (.error .fuel)
  | fuel + 1 => do
    let xy ← convexDraw binom n dim
    let dirs ← convexDirs part n xy.1 xy.2
    match dirs with
    | none => convexLoop part sort binom n dim fuel
    | some ds => lift (convexPlace sort dim ds)

/-- `Random::convex(n, dim)` (src/validate.h 1831-1877). -/
def convex (part : (Int → Bool) → List Int → List Int) (sort : (Pt → Pt → Bool) → List Pt → List Pt)
    (binom : Int → Rand Int) (fuel : Nat) (n dim : Int) : Rand (List Pt) := do
  lift (judgeAssert (decide (dim ≤ 0x3FFFFFFF)))
  lift (judgeAssert (decide (dim > 0)))
  lift (judgeAssert (decide (n ≤ 8 * dim - 8)))
  lift (judgeAssert (decide (n ≥ 3)))
  convexLoop part sort binom n dim fuel

end ICPC
