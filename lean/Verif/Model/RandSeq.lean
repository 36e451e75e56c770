import Verif.Model.Rand
import Verif.Model.Primes
import Verif.Model.Sort

/-!
# Random sequences (src/validate.h 1423-1428, 1551-1828)

Functions of `namespace Random` that use the engine through `Random::integer` and `Random::bit` only.
-/

namespace ICPC

open Rand (lift)

/-- `swap(first[i], first[j])`; undefined if an index is out of range. -/
def swapAt {α : Type} (l : List α) (i j : Nat) : Out (List α) :=
  match l[i]?, l[j]? with
  | some a, some b => .ok ((l.set i b).set j a)
  | _, _ => .error .ub

/-- Loop of `Random::shuffle` (src/validate.h 1650-1652), starting at index `i`. -/
def shuffleLoop {α : Type} : Nat → List α → Rand (List α)
  | 0, l => pure l
  | i + 1, l => do
    let j ← integer 0 ((i : Int) + 2)
    let l' ← lift (swapAt l (i + 1) j.toNat)
    shuffleLoop i l'

/-- `Random::shuffle(first, last)` (src/validate.h 1646-1653).  For an empty range `n-1` is negative and the
loop does not run. -/
def shuffle {α : Type} (l : List α) : Rand (List α) := shuffleLoop (l.length - 1) l

/-- `Random::shuffle` of a `std::pair` or `std::complex` (src/validate.h 1660-1670). -/
def shufflePair {α : Type} (p : α × α) : Rand (α × α) := do
  let b ← bit
  pure (if b then (p.2, p.1) else p)

/-- `Random::select(first, last)` (src/validate.h 1609-1614). -/
def select {α : Type} (l : List α) : Rand α := do
  lift (judgeAssert (decide (0 < l.length)))
  let i ← integer 0 l.length
  match l[i.toNat]? with
  | some a => pure a
  | none => lift (.error .ub)

/-- `Random::select` of a `std::pair` or `std::complex` (src/validate.h 1636-1644). -/
def selectPair {α : Type} (p : α × α) : Rand α := do
  let b ← bit
  pure (if b then p.1 else p.2)

/-- `Random::rotate(first, last)` (src/validate.h 1672-1677): the rotated range and the rotation. -/
def rotate {α : Type} (l : List α) : Rand (List α × Int) := do
  let r ← integer 0 l.length
  pure (l.drop r.toNat ++ l.take r.toNat, r)

/-- A `std::map<Integer, Integer>` that is only searched and assigned to. -/
abbrev IntMap := Int → Option Int

/-- Loop of `Random::distinct` (src/validate.h 1692-1700) with `n` iterations to go. -/
def distinctLoop (lower upper : Int) : Nat → Int → IntMap → Rand (List Int)
  | 0, _, _ => pure []
  | n + 1, i, used => do
    let ub ← lift (chk (upper - i))
    let x ← integer lower ub
    let y := (used x).getD x
    let last := upper - i - 1
    let moved := (used last).getD last
    let rest ← distinctLoop lower upper n (i + 1) (fun k => if k = x then some moved else used k)
    pure (y :: rest)

/-- `Random::distinct(count, lower, upper)` (src/validate.h 1687-1702). -/
def distinct (count lower upper : Int) : Rand (List Int) := do
  lift (judgeAssert (decide (count ≥ 0)))
  let s ← lift (chk (lower + count))
  lift (judgeAssert (decide (s ≤ upper)))
  distinctLoop lower upper count.toNat 0 (fun _ => none)

/-- `Random::perm(count, offset)` (src/validate.h 1707-1712). -/
@[irreducible] def permOf (count offset : Int) : Rand (List Int) := do
  lift (judgeAssert (decide (count ≥ 0)))
  let e ← lift (chk (offset + count))
  let r ← lift (range offset e 1)
  shuffle r

/-- `std::accumulate(cycles.begin(), cycles.end(), 0_int)` (src/validate.h 1715). -/
def accumulate : Int → List Int → Out Int
  | s, [] => .ok s
  | s, x :: xs => do
    let t ← chk (s + x)
    accumulate t xs

/-- `res[p[j]] = p[j'] + offset` (src/validate.h 1721, 1723). -/
def assignCycle (p : List Int) (offset : Int) (j j' : Int) (res : List Int) : Out (List Int) :=
  match p[j.toNat]?, p[j'.toNat]? with
  | some a, some b => do
    let v ← chk (b + offset)
    if 0 ≤ a ∧ a.toNat < res.length then .ok (res.set a.toNat v) else .error .ub
  | _, _ => .error .ub

/-- The inner loop of `Random::perm(cycles)` (src/validate.h 1720-1722) with `n` iterations to go. -/
def cycleInner (p : List Int) (offset : Int) : Nat → Int → List Int → Out (List Int)
  | 0, _, res => .ok res
  | n + 1, j, res => do
    let res' ← assignCycle p offset j (j + 1) res
    cycleInner p offset n (j + 1) res'

/-- The outer loop of `Random::perm(cycles)` (src/validate.h 1718-1724). -/
def cycleOuter (p : List Int) (offset : Int) : List Int → Int → List Int → Out (List Int)
  | [], _, res => .ok res
  | c :: cs, tmp, res => do
    judgeAssert (decide (c > 0))
    let res1 ← cycleInner p offset (c - 1).toNat tmp res
    let res2 ← assignCycle p offset (tmp + c - 1) tmp res1
    cycleOuter p offset cs (tmp + c) res2

/-- `Random::perm(cycles, offset)` (src/validate.h 1714-1726). -/
def permCycles (cycles : List Int) (offset : Int) : Rand (List Int) := do
  let s ← lift (accumulate 0 cycles)
  let p ← permOf s 0
  lift (cycleOuter p offset cycles 0 (List.replicate p.length 0))

/-- `std::swap(tmp[k], res[k])` for the fixpoints (src/validate.h 1732-1735). -/
def fixLoop (count offset : Int) : List Int → List Int → List Int → Out (List Int × List Int)
  | [], tmp, res => .ok (tmp, res)
  | x :: xs, tmp, res => do
    let e ← chk (offset + count)
    judgeAssert (decide (offset ≤ x ∧ x < e))
    let k := (x - offset).toNat
    match tmp[k]?, res[k]? with
    | some a, some b => fixLoop count offset xs (tmp.set k b) (res.set k a)
    | _, _ => .error .ub

/-- `for (; x < 0; i++) x = tmp[i];` (src/validate.h 1739): skips negative entries of the rest of `tmp`. -/
def nextNonNeg : List Int → Out (Int × List Int)
  | [] => .error .ub
  | t :: ts => if t < 0 then nextNonNeg ts else .ok (t, ts)

/-- Loop filling the gaps of `res` (src/validate.h 1737-1741); the first list is `tmp` from index `i` on. -/
def fillLoop (offset : Int) : List Int → List Int → Out (List Int)
  | _, [] => .ok []
  | tmp, x :: xs =>
    if x < 0 then do
      let (y, tmp') ← nextNonNeg tmp
      let v ← chk (y + offset)
      let rest ← fillLoop offset tmp' xs
      .ok (v :: rest)
    else do
      let v ← chk (x + offset)
      let rest ← fillLoop offset tmp xs
      .ok (v :: rest)

/-- `Random::perm(count, fix, offset)` (src/validate.h 1728-1743). -/
def permFix (count : Int) (fix : List Int) (offset : Int) : Rand (List Int) := do
  lift (judgeAssert (decide (count ≥ 0)))
  let tmp ← lift (rangeUpper count)
  let (tmp, res) ← lift (fixLoop count offset fix tmp (List.replicate count.toNat (-1)))
  let tmp ← shuffle tmp
  lift (fillLoop offset tmp res)

/-- Loop of `Random::multiple` (src/validate.h 1747). -/
def multipleLoop (lower upper : Int) : Nat → Rand (List Int)
  | 0 => pure []
  | n + 1 => do
    let x ← integer lower upper
    let rest ← multipleLoop lower upper n
    pure (x :: rest)

/-- `Random::multiple(count, lower, upper)` (src/validate.h 1745-1749).  A negative `count` makes the
constructor of `std::vector` throw. -/
def multiple (count lower upper : Int) : Rand (List Int) :=
  if count < 0 then lift (.error .throw) else multipleLoop lower upper count.toNat

/-- `Random::increasing` (src/validate.h 1754-1758). -/
def increasing (count lower upper : Int) : Rand (List Int) := do
  let res ← distinct count lower upper
  pure (stdSort res)

/-- `Random::decreasing` (src/validate.h 1763-1767); sorting with `std::greater` is the reverse of sorting
with `std::less` on integers. -/
def decreasing (count lower upper : Int) : Rand (List Int) := do
  let res ← distinct count lower upper
  pure (stdSort res).reverse

/-- `Random::nonDecreasing` (src/validate.h 1772-1776). -/
def nonDecreasing (count lower upper : Int) : Rand (List Int) := do
  let res ← multiple count lower upper
  pure (stdSort res)

/-- `Random::nonIncreasing` (src/validate.h 1781-1785). -/
def nonIncreasing (count lower upper : Int) : Rand (List Int) := do
  let res ← multiple count lower upper
  pure (stdSort res).reverse

/-- The last loop of `Random::partition` (src/validate.h 1797-1801). -/
def partitionLoop (min : Int) : Int → List Int → Out (List Int)
  | _, [] => .ok []
  | last, x :: xs => do
    let d ← chk (x - last)
    let last' ← chk (last + d)
    let v ← chk (d + (min - 1))
    let rest ← partitionLoop min last' xs
    .ok (v :: rest)

/-- `Random::partition(n, k, min)` (src/validate.h 1790-1803). -/
def partition (n k min : Int) : Rand (List Int) := do
  lift (judgeAssert (decide (n > 0)))
  lift (judgeAssert (decide (k > 0)))
  lift (judgeAssert (decide (min ≤ 0 ∨ k ≤ n.tdiv min)))
  let m1 ← lift (chk (min - 1))
  let d ← lift (chk (m1 * k))
  let n' ← lift (chk (n - d))
  let res ← increasing (k - 1) 1 n'
  lift (partitionLoop min 0 (res ++ [n']))

/-- Loop of `Random::string` (src/validate.h 1809). -/
def stringLoop {α : Type} (alphabet : List α) : Nat → Rand (List α)
  | 0 => pure []
  | n + 1 => do
    let c ← select alphabet
    let rest ← stringLoop alphabet n
    pure (c :: rest)

/-- `Random::string(n, alphabet)` (src/validate.h 1805-1811). -/
def randomString (n : Int) (alphabet : List Char) : Rand (List Char) := do
  lift (judgeAssert (decide (0 ≤ n ∧ n ≤ 0xFFFFFFFF)))
  lift (judgeAssert (decide (alphabet ≠ [])))
  stringLoop alphabet n.toNat

/-- Loop of `Random::bracketSequence` (src/validate.h 1816-1825) with `r` positions to go, `i = 2 * n - r`. -/
def bracketLoop (n : Int) (opn cls : Char) : Nat → Int → Rand (List Char)
  | 0, _ => pure []
  | r + 1, diff => do
    let i := 2 * n - ((r : Int) + 1)
    let opened := (i + diff).tdiv 2
    let total ← lift (chk ((2 * n - i) * (diff + 1)))
    let good ← lift (chk ((n - opened) * (diff + 2)))
    let x ← integer 0 total
    if x < good then do
      let rest ← bracketLoop n opn cls r (diff + 1)
      pure (opn :: rest)
    else do
      let rest ← bracketLoop n opn cls r (diff - 1)
      pure (cls :: rest)

/-- `Random::bracketSequence(n, open, close)` (src/validate.h 1813-1827). -/
def bracketSequence (n : Int) (opn cls : Char) : Rand (List Char) := do
  lift (judgeAssert (decide (0 ≤ n ∧ n ≤ 0x7FFFFFFF)))
  bracketLoop n opn cls (2 * n).toNat 0

/-- `details::prefixSum` (src/validate.h 1334-1341). -/
def prefixSum : Int → List Int → List Int
  | _, [] => []
  | s, x :: xs => (x + s) :: prefixSum (x + s) xs

/-- `std::upper_bound(is.begin(), is.end(), v) - is.begin()` on a sorted range. -/
def upperBound (v : Int) (is : List Int) : Nat := (is.takeWhile fun x => decide (x ≤ v)).length

/-- `Random::discrete<I, Is...>()` (src/validate.h 1423-1428).  The weights are template arguments: negative
ones and sums that overflow do not compile. -/
def discrete (w : Int) (ws : List Int) : Rand Int := do
  let is := prefixSum 0 (w :: ws)
  let x ← integer 0 (is.getLast?.getD 0)
  pure (upperBound x is)

/-- Loop of `Random::maximum` for small `n` (src/validate.h 1556). -/
def maximumLoop (lower upper : Int) : Nat → Int → Rand Int
  | 0, res => pure res
  | n + 1, res => do
    let x ← integer lower upper
    maximumLoop lower upper n (max res x)

/-- `Random::maximum(lower, upper, n)` (src/validate.h 1551-1564).  `scaled w` stands for the floating point
expression `static_cast<UInteger>(w * exp2(log2(real()) / n))` of the branch for large `n`, which is not modelled. -/
def maximum (scaled : Nat → Rand Nat) (lower upper n : Int) : Rand Int := do
  lift (judgeAssert (decide (n > 0)))
  lift (judgeAssert (decide (lower < upper)))
  if n < 5 then maximumLoop lower upper n.toNat lower
  else do
    let res ← scaled (rangeWidth lower upper)
    pure (min (upper - 1) (toI64 ((res + toU64 lower) % 2 ^ 64)))

/-- `Random::minimum(lower, upper, n)` (src/validate.h 1569-1571). -/
def minimum (scaled : Nat → Rand Nat) (lower upper n : Int) : Rand Int := do
  let u1 ← lift (chk (upper - 1))
  let w ← lift (chk (upper - lower))
  let m ← maximum scaled 0 w n
  lift (chk (u1 - m))

/-- `Random::minmax(lower, upper, n)` (src/validate.h 1576-1583). -/
def minmax (scaled : Nat → Rand Nat) (lower upper n : Int) : Rand Int := do
  lift (judgeAssert (decide (n ≠ 0)))
  if n > 0 then maximum scaled lower upper n
  else do
    let n' ← lift (chk (-n))
    minimum scaled lower upper n'

/-- Loop of `Random::prime` (src/validate.h 1593-1596) with at most `n` iterations to go. -/
def primeLoop (i128 : Bool) (sampleL sampleU : Int) : Nat → Rand (Option Int)
  | 0 => pure none
  | n + 1 => do
    let x ← integer sampleL sampleU
    -- `2*x | 1`
    let res := max 2 (2 * x + 1)
    if isPrime i128 res then pure (some res) else primeLoop i128 sampleL sampleU n

/-- `Random::prime(lower, upper)` (src/validate.h 1588-1600).  `4 * (upper - lower)` is evaluated before every
iteration; the loop ends at the smaller of this number and `PRIME_TRIALS` (src/validate.h 1327). -/
def randomPrime (i128 : Bool) (lower upper : Int) : Rand Int := do
  lift (judgeAssert (decide (lower < upper)))
  let sampleL := if lower ≤ 2 then 0 else lower.tdiv 2
  let sampleU := upper.tdiv 2
  let r ← if sampleL < sampleU then do
      let d ← lift (chk (upper - lower))
      let t ← lift (chk (4 * d))
      primeLoop i128 sampleL sampleU (min 6400 t).toNat
    else pure none
  match r with
  | some p => pure p
  | none => lift (.error .throw)

end ICPC
