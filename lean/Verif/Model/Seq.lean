import Verif.Model.Basic
import Verif.Model.Sort

/-!
# Sequence predicates (src/validate.h 556-688)

Ranges given by iterators are lists.  `std::sort` on a totally ordered type is `stdSort`
(see Model.Sort).
-/

namespace ICPC

/-- Loop of `isPerm(first, last, offset)` (src/validate.h 566-572), `T = Integer`.
`x - offset` is a signed subtraction; `seen[..]` is an indexed access (`ub` if out of bounds). -/
def isPermLoop (offset : Int) (count : Nat) : List Int → List Bool → Out (Boolean Int)
  | [], _ => .ok { value := true }
  | x :: xs, seen =>
    if x < offset then .ok { value := false, reason := some x }
    else do
      let d ← chk (x - offset)
      if d ≥ (count : Int) then .ok { value := false, reason := some x }
      else match seen[d.toNat]? with
        | none => .error .ub
        | some true => .ok { value := false, reason := some x }
        | some false => isPermLoop offset count xs (seen.set d.toNat true)

/-- `isPerm(first, last, offset)` (src/validate.h 559-575). -/
def isPerm (xs : List Int) (offset : Int) : Out (Boolean Int) :=
  isPermLoop offset xs.length xs (List.replicate xs.length false)

/-- Loop of `isPerm(A, B)` over the two sorted vectors (src/validate.h 589-591). -/
def firstDiff {α : Type} [DecidableEq α] : List α → List α → Boolean α
  | a :: as, b :: bs => if a ≠ b then { value := false, reason := some a } else firstDiff as bs
  | _, _ => { value := true }

/-- `isPerm(firstA, lastA, firstB, lastB)` (src/validate.h 581-593). -/
def isPermOf {α : Type} [LinearOrder α] (a b : List α) : Boolean α :=
  if a.length ≠ b.length then { value := false }
  else firstDiff (stdSort a) (stdSort b)

/-- Loop of `anyAdjacent` (src/validate.h 603-607); `i` is the loop counter. -/
def anyAdjacentLoop {α : Type} (p : α → α → Bool) : List α → Int → Boolean Int
  | x :: y :: rest, i =>
    if p x y then { value := true, reason := some i } else anyAdjacentLoop p (y :: rest) (i + 1)
  | _, _ => { value := false }

/-- `anyAdjacent(first, last, p)` (src/validate.h 600-614). -/
def anyAdjacent {α : Type} (p : α → α → Bool) (xs : List α) : Boolean Int :=
  anyAdjacentLoop p xs 1

/-- `noneAdjacent(first, last, p)` (src/validate.h 616-625). -/
def noneAdjacent {α : Type} (p : α → α → Bool) (xs : List α) : Boolean Int :=
  let res := anyAdjacent p xs
  { res with value := !res.value }

/-- `allAdjacent(first, last, p)`, iterator overload (src/validate.h 627-630). -/
def allAdjacent {α : Type} (p : α → α → Bool) (xs : List α) : Boolean Int :=
  noneAdjacent (fun x y => !p x y) xs

/-- `allAdjacent(c, p)`, container overload (src/validate.h 631-634); it forwards to `noneAdjacent`
with the predicate `p` itself. -/
def allAdjacentContainer {α : Type} (p : α → α → Bool) (xs : List α) : Boolean Int :=
  noneAdjacent p xs

/-- `areIncreasing` (src/validate.h 636-644). -/
def areIncreasing {α : Type} [LinearOrder α] (xs : List α) : Boolean Int :=
  allAdjacent (fun x y => decide (x < y)) xs

/-- `areNonDecreasing` (src/validate.h 646-654). -/
def areNonDecreasing {α : Type} [LinearOrder α] (xs : List α) : Boolean Int :=
  allAdjacent (fun x y => decide (x ≤ y)) xs

/-- `areDecreasing` (src/validate.h 656-664). -/
def areDecreasing {α : Type} [LinearOrder α] (xs : List α) : Boolean Int :=
  allAdjacent (fun x y => decide (x > y)) xs

/-- `areNonIncreasing` (src/validate.h 666-674). -/
def areNonIncreasing {α : Type} [LinearOrder α] (xs : List α) : Boolean Int :=
  allAdjacent (fun x y => decide (x ≥ y)) xs

/-- `areDistinct` (src/validate.h 676-688); `tmp[*v]` is an indexed access. -/
def areDistinct {α : Type} [LinearOrder α] (xs : List α) : Out (Boolean α) :=
  let tmp := stdSort xs
  let r := anyAdjacent (fun x y => decide (x = y)) tmp
  match r.reason with
  | some v => match tmp[v.toNat]? with
    | some t => .ok { value := !r.value, reason := some t }
    | none => .error .ub
  | none => .ok { value := !r.value }

end ICPC
