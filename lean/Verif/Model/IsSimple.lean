import Verif.Model.Geo
import Verif.Model.Sort
import Mathlib.Data.Prod.Lex
import Mathlib.Order.BooleanAlgebra.Defs
import Mathlib.Order.Lattice

/-!
# `isSimple`, the sweep line of Shamos and Hoey (src/validate.h 1150-1158, 1238-1304)

The `std::set` of segments is the list of its elements from first to last.  Its search tree is not modelled
node by node.  Instead the descent for an insertion takes, as a parameter, the pivot it compares with next: in
step `t` of the sweep, when the position is known to be between `lo` and `hi`, it compares with the element at
`shape t lo hi` (moved between `lo` and `hi - 1`).  Every binary search tree is such a `shape`, so what holds for
every `shape` holds for every way of balancing the tree.

The standard demands a strict weak ordering of the comparison of a `std::set` and leaves everything else
undefined.  For polygons that are not simple this code can violate that; the model then does what a search tree
does: descend, compare with the predecessor, insert.
-/

namespace ICPC

/-- `struct Segment` (src/validate.h 1241-1246). -/
structure Seg where
  l : Pt
  r : Pt
  id : Nat
  deriving DecidableEq, Repr

/-- `sign` (src/validate.h 1150-1153) for `Integer`. -/
def signI (x : Int) : Int := (if 0 < x then 1 else 0) - (if x < 0 then 1 else 0)

/-- `dist` (src/validate.h 1155-1158) for `std::size_t`. -/
def distN (a b : Nat) : Nat := if a > b then a - b else b - a

/-- `Segment::operator<` after its first line (src/validate.h 1249-1253).  The second `s` holds the truth value of
`cross(l, r, other.r) > 0`. -/
def segLtDirect (s o : Seg) : Out Bool := do
  let c ← crossP s.l s.r o.l
  if c ≠ 0 then return decide (c > 0)
  let d ← crossP s.l s.r o.r
  if d > 0 then return true
  return decide (s.l.2 < o.l.2)

/-- `Segment::operator<` (src/validate.h 1247-1254).  The inner call of line 1248 has the smaller left end on its
left, so it does not swap again. -/
def segLt (s o : Seg) : Out Bool :=
  if s.l.1 > o.l.1 then do
    let b ← segLtDirect o s
    return !b
  else segLtDirect s o

/-- `Segment::intersect` (src/validate.h 1256-1261). -/
def segIntersect (n : Nat) (s o : Seg) : Out Bool := do
  if distN s.id o.id = 1 ∨ distN s.id o.id = n - 1 then return false
  let a ← crossP s.l s.r o.l
  let b ← crossP s.l s.r o.r
  let u ← chk (signI a * b)
  if ¬ u ≤ 0 then return false
  let c ← crossP o.l o.r s.l
  let d ← crossP o.l o.r s.r
  let v ← chk (signI c * d)
  return decide (v ≤ 0)

/-- `std::tuple<Integer, Integer, bool, bool, std::size_t>`, ordered lexicographically (src/validate.h 1267):
`x`, `y`, `remove`, `swap`, `i`. -/
abbrev Ev := Int ×ₗ Int ×ₗ Bool ×ₗ Bool ×ₗ Nat

/-- A tuple. -/
def mkEv (x y : Int) (remove swap : Bool) (i : Nat) : Ev := toLex (x, toLex (y, toLex (remove, toLex (swap, i))))

/-- Whether the edge from `a` to `b` is swapped (src/validate.h 1269-1273). -/
def swapped (a b : Pt) : Bool := decide (a.1 > b.1) || (decide (a.1 = b.1) && decide (a.2 > b.2))

/-- The loop that lists the events (src/validate.h 1268-1277), for the given values of `i`. -/
def eventsLoop (pts : List Pt) : List Nat → Out (List Ev)
  | [] => .ok []
  | i :: is => do
    let a ← ptAt pts i
    let b ← ptAt pts ((i + 1) % pts.length)
    let sw := swapped a b
    let l := if sw then b else a
    let r := if sw then a else b
    let rest ← eventsLoop pts is
    return mkEv l.1 l.2 false sw i :: mkEv r.1 r.2 true sw i :: rest

/-- The element at position `k` of the set. -/
def segAt (A : List Seg) (k : Nat) : Out Seg :=
  match A[k]? with
  | some s => .ok s
  | none => .error .ub

/-- The descent of `std::set::emplace` (src/validate.h 1293): the position before the first element that is not
reached by going right.  `fuel` is the number of elements. -/
def descend (pick : Nat → Nat → Nat) (s : Seg) (A : List Seg) : Nat → Nat → Nat → Out Nat
  | 0, lo, _ => .ok lo
  | f + 1, lo, hi =>
    if lo < hi then do
      let m := max lo (min (pick lo hi) (hi - 1))
      let o ← segAt A m
      let b ← segLt s o
      if b then descend pick s A f lo m else descend pick s A f (m + 1) hi
    else .ok lo

/-- Whether `std::set::emplace` inserts at the position `k` it found: there is no element before it, or the
comparison puts that element before the new one (src/validate.h 1293-1294). -/
def fitsAfter (A : List Seg) (k : Nat) (s : Seg) : Out Bool :=
  if k = 0 then .ok true
  else do
    let o ← segAt A (k - 1)
    segLt o s

/-- `it->intersect(*std::prev(it), n)` if `it`, at position `k`, is neither `begin()` nor `end()` (src/validate.h
1286 and 1295). -/
def hitsPrev (n : Nat) (A : List Seg) (k : Nat) : Out Bool :=
  if k ≠ 0 ∧ k < A.length then do
    let s ← segAt A k
    let o ← segAt A (k - 1)
    segIntersect n s o
  else .ok false

/-- `it->intersect(*next(it), n)` if `next(it)` is not `end()` (src/validate.h 1296). -/
def hitsNext (n : Nat) (A : List Seg) (k : Nat) : Out Bool :=
  if k + 1 < A.length then do
    let s ← segAt A k
    let o ← segAt A (k + 1)
    segIntersect n s o
  else .ok false

/-- Step `t` of the sweep if `remove` is set (src/validate.h 1285-1288); `none` is `return false`.  The iterator
`where[i]` is found by the `id`; an iterator that was never set would be undefined behaviour. -/
def sweepRemove (n : Nat) (i : Nat) (A : List Seg) : Out (Option (List Seg)) :=
  match A.findIdx? (fun s => s.id == i) with
  | none => .error .ub
  | some k => do
    let A' := A.eraseIdx k
    let bad ← hitsPrev n A' k
    return if bad then none else some A'

/-- Step `t` of the sweep if `remove` is not set (src/validate.h 1290-1297); `none` is `return false`. -/
def sweepInsert (pick : Nat → Nat → Nat) (pts : List Pt) (sw : Bool) (i : Nat) (A : List Seg) :
    Out (Option (List Seg)) := do
  let a ← ptAt pts i
  let b ← ptAt pts ((i + 1) % pts.length)
  let s : Seg := ⟨if sw then b else a, if sw then a else b, i⟩
  let k ← descend pick s A A.length 0 A.length
  let inserted ← fitsAfter A k s
  if !inserted then return none
  let A' := A.insertIdx k s
  let bad ← hitsPrev pts.length A' k
  if bad then return none
  let bad2 ← hitsNext pts.length A' k
  return if bad2 then none else some A'

/-- Step `t` of the sweep (src/validate.h 1284-1298), for the tuple `e` of `x`, `y`, `remove`, `swap` and `i`. -/
def sweepStep (shape : Nat → Nat → Nat → Nat) (pts : List Pt) (t : Nat) (e : Ev) (A : List Seg) :
    Out (Option (List Seg)) :=
  let e₁ := ofLex (ofLex (ofLex e).2).2
  let e₂ := ofLex e₁.2
  if e₁.1 then sweepRemove pts.length e₂.2 A else sweepInsert (shape t) pts e₂.1 e₂.2 A

/-- The loop over the events (src/validate.h 1283-1300) from step `t` on. -/
def sweep (shape : Nat → Nat → Nat → Nat) (pts : List Pt) : Nat → List Ev → List Seg → Out Bool
  | _, [], _ => .ok true
  | t, e :: es, A => do
    let res ← sweepStep shape pts t e A
    match res with
    | none => .ok false
    | some A' => sweep shape pts (t + 1) es A'

/-- `isSimple` (src/validate.h 1238-1300). -/
def isSimple (shape : Nat → Nat → Nat → Nat) (pts : List Pt) : Out Bool := do
  assertBounds pts
  if pts.length < 3 then return false
  let events ← eventsLoop pts (List.range pts.length)
  sweep shape pts 0 (stdSort events) []

end ICPC
