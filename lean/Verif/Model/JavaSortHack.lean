import Mathlib.Data.List.Sort
import Mathlib.Logic.Function.Basic
import Verif.Model.RandSeq

/-!
# `HackedSort` (archive/javaSortHack.cpp 7-146)

The two vectors of length `n` are functions of the index; reading and writing outside of `0, ..., n - 1` is undefined. The
parameter `leftmost` of `hackedSort` is never used and left out. Sums of indices do not overflow, since a vector has fewer
than `2 ^ 61` elements.
-/

namespace ICPC.Archive

open Rand

/-- The members `data`, `p`, `MIN_VALUE`, `MAX_VALUE` (archive/javaSortHack.cpp 11, 24-25). -/
structure Hack where
  data : Int → Int
  p : Int → Int
  mn : Int
  mx : Int

/-- `NO_VALUE` (archive/javaSortHack.cpp 7). -/
def NO_VALUE : Int := -1

/-- `INSERTION_SORT_THRESHOLD` (archive/javaSortHack.cpp 8). -/
def INSERTION_SORT_THRESHOLD : Int := 47

/-- `f[i]` -/
def rd (n : Nat) (f : Int → Int) (i : Int) : Out Int := if 0 ≤ i ∧ i < n then .ok (f i) else .error .ub

/-- `f[i] = v` -/
def wr (n : Nat) (f : Int → Int) (i v : Int) : Out (Int → Int) := if 0 ≤ i ∧ i < n then .ok (Function.update f i v) else .error .ub

/-- `myLess` (archive/javaSortHack.cpp 27-32). -/
def myLess (mn mx a b : Int) : Bool :=
  if a ≠ NO_VALUE ∧ b ≠ NO_VALUE then decide (a < b)
  else if a = NO_VALUE then decide (b > mx)
  else if b = NO_VALUE then decide (a < mn)
  else false

/-- `myGreater` (archive/javaSortHack.cpp 34-39). -/
def myGreater (mn mx a b : Int) : Bool :=
  if a ≠ NO_VALUE ∧ b ≠ NO_VALUE then decide (a > b)
  else if a = NO_VALUE then decide (b < mn)
  else if b = NO_VALUE then decide (a > mx)
  else false

/-- `if (data[i] == NO_VALUE) data[i] = MIN_VALUE++` (archive/javaSortHack.cpp 45, 59, 60). -/
def useMin (n : Nat) (i : Int) (st : Hack) : Out Hack := do
  let v ← rd n st.data i
  if v = NO_VALUE then do
    let mn ← chk (st.mn + 1)
    let d ← wr n st.data i st.mn
    .ok { st with data := d, mn := mn }
  else .ok st

/-- `if (data[i] == NO_VALUE) data[i] = MAX_VALUE--` (archive/javaSortHack.cpp 62, 63). -/
def useMax (n : Nat) (i : Int) (st : Hack) : Out Hack := do
  let v ← rd n st.data i
  if v = NO_VALUE then do
    let mx ← chk (st.mx - 1)
    let d ← wr n st.data i st.mx
    .ok { st with data := d, mx := mx }
  else .ok st

/-- `std::swap` of `data[i]`, `data[j]` and of `p[i]`, `p[j]`. -/
def swapBoth (n : Nat) (i j : Int) (st : Hack) : Out Hack := do
  let a ← rd n st.data i
  let b ← rd n st.data j
  let d ← wr n st.data i b
  let d ← wr n d j a
  let pa ← rd n st.p i
  let pb ← rd n st.p j
  let q ← wr n st.p i pb
  let q ← wr n q j pa
  .ok { st with data := d, p := q }

/-- `for (Integer i = right; i >= left; i--) ...` (archive/javaSortHack.cpp 44-46); the number counts the iterations. -/
def fillDown (n : Nat) : Nat → Int → Hack → Out Hack
  | 0, _, st => .ok st
  | m + 1, i, st => do
    let st ← useMin n i st
    fillDown n m (i - 1) st

/-- The elements with indices from `left` to `right`. -/
def segment (f : Int → Int) (left right : Int) : List Int := (List.range (right - left + 1).toNat).map fun k : Nat => f (left + k)

/-- The elements from `left` on are replaced. -/
def setSegment (f : Int → Int) (left : Int) (l : List Int) : Int → Int := fun i =>
  if left ≤ i ∧ i < left + l.length then l.getD (i - left).toNat 0 else f i

/-- `for (Integer j = i; j > 0 && myLess(data[e[j]], data[e[j - 1]]); j--) ...` (archive/javaSortHack.cpp 66-69). -/
def insertLoop (n : Nat) (e : Nat → Int) : Nat → Hack → Out Hack
  | 0, st => .ok st
  | j + 1, st => do
    let a ← rd n st.data (e (j + 1))
    let b ← rd n st.data (e j)
    if myLess st.mn st.mx a b then do
      let st ← swapBoth n (e (j + 1)) (e j) st
      insertLoop n e j st
    else .ok st

/-- `while (myLess(data[++less], pivot1)) {}` and `while (myGreater(data[--great], pivot2)) {}` (archive/javaSortHack.cpp
85-86); the index moves by `step` and has been moved once already.  `n + 1` steps leave the vector. -/
def skip (n : Nat) (f : Int → Int) (test : Int → Bool) (step : Int) : Nat → Int → Out Int
  | 0, _ => .error .fuel
  | k + 1, i => do
    let v ← rd n f i
    if test v then skip n f test step k (i + step) else .ok i

/-- `while (test(data[great])) if (great-- == k) goto outer;` (archive/javaSortHack.cpp 94-96, 128-130); the second result
tells whether the jump is taken. -/
def lowerGreat (n : Nat) (f : Int → Int) (test : Int → Bool) (k : Int) : Nat → Int → Out (Int × Bool)
  | 0, _ => .error .fuel
  | m + 1, g => do
    let v ← rd n f g
    if test v then
      if g = k then .ok (g - 1, true) else lowerGreat n f test k m (g - 1)
    else .ok (g, false)

/-- The two loops `for (Integer k = less - 1; ++k <= great; )` (archive/javaSortHack.cpp 88-106, 122-140), which differ only
in the tests. -/
def partLoop (n : Nat) (small large : Int → Bool) : Nat → Int → Int → Int → Hack → Out (Int × Int × Hack)
  | 0, _, _, _, _ => .error .fuel
  | f + 1, k, less, great, st =>
    if k ≤ great then do
      let v ← rd n st.data k
      if small v then do
        let st ← swapBoth n k less st
        partLoop n small large f (k + 1) (less + 1) great st
      else if large v then do
        let (great, jump) ← lowerGreat n st.data large k (n + 1) great
        if jump then .ok (less, great, st) else do
          let st ← swapBoth n k great st
          let v ← rd n st.data k
          if small v then do
            let st ← swapBoth n k less st
            partLoop n small large f (k + 1) (less + 1) (great - 1) st
          else partLoop n small large f (k + 1) less (great - 1) st
      else partLoop n small large f (k + 1) less great st
    else .ok (less, great, st)

/-- `seventh` (archive/javaSortHack.cpp 51). -/
def seventh (length : Int) : Int := length / 8 + length / 64 + 1

/-- The array `e` (archive/javaSortHack.cpp 52-57). -/
def probes (left right : Int) : Nat → Int
  | 0 => (left + right) / 2 - seventh (right - left + 1) - seventh (right - left + 1)
  | 1 => (left + right) / 2 - seventh (right - left + 1)
  | 2 => (left + right) / 2
  | 3 => (left + right) / 2 + seventh (right - left + 1)
  | _ => (left + right) / 2 + seventh (right - left + 1) + seventh (right - left + 1)

/-- Values for four of the five elements (archive/javaSortHack.cpp 59-63). -/
def fillFive (n : Nat) (e : Nat → Int) (st : Hack) : Out Hack := do
  let st ← useMin n (e 4) st
  let st ← useMin n (e 3) st
  let st ← useMax n (e 0) st
  useMax n (e 1) st

/-- The five elements are sorted (archive/javaSortHack.cpp 65-70). -/
def sortFive (n : Nat) (e : Nat → Int) (st : Hack) : Out Hack := do
  let st ← insertLoop n e 1 st
  let st ← insertLoop n e 2 st
  let st ← insertLoop n e 3 st
  insertLoop n e 4 st

/-- The elements at the ends of the segment take the places of the pivots (archive/javaSortHack.cpp 80-83). -/
def takePivots (n : Nat) (e : Nat → Int) (left right : Int) (st : Hack) : Out Hack := do
  let a ← rd n st.data left
  let d ← wr n st.data (e 1) a
  let a ← rd n d right
  let d ← wr n d (e 3) a
  let a ← rd n st.p left
  let q ← wr n st.p (e 1) a
  let a ← rd n q right
  let q ← wr n q (e 3) a
  .ok { st with data := d, p := q }

/-- The partition (archive/javaSortHack.cpp 72-73, 85-107); `less`, `great` and the vectors. -/
def partition (n : Nat) (left right pivot1 pivot2 : Int) (st : Hack) : Out (Int × Int × Hack) := do
  let less ← skip n st.data (fun v => myLess st.mn st.mx v pivot1) 1 (n + 1) (left + 1)
  let great ← skip n st.data (fun v => myGreater st.mn st.mx v pivot2) (-1) (n + 1) (right - 1)
  partLoop n (fun v => myLess st.mn st.mx v pivot1) (fun v => myGreater st.mn st.mx v pivot2) (n + 1) less less great st

/-- The pivots are moved between the parts (archive/javaSortHack.cpp 109-116). -/
def placePivots (n : Nat) (left right less great pivot1 pivot2 ppivot1 ppivot2 : Int) (st : Hack) : Out Hack := do
  let a ← rd n st.data (less - 1)
  let d ← wr n st.data left a
  let a ← rd n st.p (less - 1)
  let q ← wr n st.p left a
  let d ← wr n d (less - 1) pivot1
  let q ← wr n q (less - 1) ppivot1
  let a ← rd n d (great + 1)
  let d ← wr n d right a
  let a ← rd n q (great + 1)
  let q ← wr n q right a
  let d ← wr n d (great + 1) pivot2
  let q ← wr n q (great + 1) ppivot2
  .ok { st with data := d, p := q }

/-- The part of `hackedSort` before the first recursive call (archive/javaSortHack.cpp 59-116): `less`, `great`, `pivot1`,
`pivot2` and the vectors. -/
def level (n : Nat) (left right : Int) (st : Hack) : Out (Int × Int × Int × Int × Hack) := do
  let e := probes left right
  let st ← fillFive n e st
  let st ← sortFive n e st
  let pivot1 ← rd n st.data (e 1)
  let pivot2 ← rd n st.data (e 3)
  let ppivot1 ← rd n st.p (e 1)
  let ppivot2 ← rd n st.p (e 3)
  let st ← takePivots n e left right st
  let (less, great, st) ← partition n left right pivot1 pivot2 st
  let st ← placePivots n left right less great pivot1 pivot2 ppivot1 ppivot2 st
  .ok (less, great, pivot1, pivot2, st)

/-- The case of short segments (archive/javaSortHack.cpp 44-49). -/
def short (n : Nat) (left right : Int) (st : Hack) : Rand Hack := do
  let st ← lift (fillDown n (right - left + 1).toNat right st)
  let d := setSegment st.data left ((segment st.data left right).insertionSort (· ≤ ·))
  let s ← shuffle (segment st.p left right)
  pure { st with data := d, p := setSegment st.p left s }

/-- `hackedSort` (archive/javaSortHack.cpp 41-144); the first number bounds the depth of the recursion. -/
def hackedSort (n : Nat) : Nat → Int → Int → Hack → Rand Hack
  | 0, _, _, _ => lift (.error .fuel)
  | f + 1, left, right, st =>
    if right - left + 1 < INSERTION_SORT_THRESHOLD then short n left right st else do
      let (less, great, pivot1, pivot2, st) ← lift (level n left right st)
      let st ← hackedSort n f left (less - 2) st
      let st ← hackedSort n f (great + 2) right st
      let e := probes left right
      let (less, great, st) ← lift (if less < e 0 ∧ e 4 < great then
          partLoop n (fun v => decide (v = pivot1)) (fun v => decide (v = pivot2)) (n + 1) less less great st
        else .ok (less, great, st))
      hackedSort n f less great st

/-- `tmp[p[i]] = data[i]` for all `i` (archive/javaSortHack.cpp 16-19). -/
def unshuffle (n : Nat) (st : Hack) : Nat → (Int → Int) → Out (Int → Int)
  | 0, tmp => .ok tmp
  | k + 1, tmp => do
    let tmp ← unshuffle n st k tmp
    let i ← rd n st.p k
    let v ← rd n st.data k
    wr n tmp i v

/-- The member `data` after the construction of `HackedSort(n, mi)` (archive/javaSortHack.cpp 13-21).  The constructor of
`std::vector` throws for a negative length.  The recursion is at most `n + 1` deep (see C103). -/
def javaSortHack (n mi : Int) : Rand (List Int) := do
  lift (judgeAssert (decide (0 ≤ n)))
  let mx ← lift (chk (mi + n))
  let st ← hackedSort n.toNat (n.toNat + 1) 0 (n - 1) ⟨fun _ => NO_VALUE, fun i => i, mi, mx⟩
  let tmp ← lift (unshuffle n.toNat st n.toNat fun _ => 0)
  pure (segment tmp 0 (n - 1))

end ICPC.Archive
