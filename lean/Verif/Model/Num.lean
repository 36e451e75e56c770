import Verif.Model.Basic

/-!
# Number utilities (src/validate.h 778-807, 998-1114, 1150-1160)

`UInteger` values are `Nat` below 2^64, with the wrap-around written out.  C++ `/` and `%` on signed
operands are `Int.tdiv` and `Int.tmod` (truncation).
-/

namespace ICPC

/-- `std::bitset<64>(x).count()`. -/
def popcount64 (x : Nat) : Nat := (List.range 64).countP fun i => x.testBit i

/-- Loop of `thueMorse` (src/validate.h 782-784): index `i + lower` is a `UInteger`. -/
def thueMorseLoop (lower : Nat) (n : Nat) : List Int :=
  (List.range n).map fun i => ((popcount64 ((i + lower) % 2 ^ 64) % 2 : Nat) : Int)

/-- `thueMorse(lower, upper)` (src/validate.h 778-786). -/
def thueMorse (lower upper : Int) : Out (List Int) := do
  judgeAssert (decide (lower < upper))
  judgeAssert (decide (lower ≥ 0))
  let n ← chk (upper - lower)
  .ok (thueMorseLoop (toU64 lower) n.toNat)

/-- `thueMorse(upper)` (src/validate.h 788-790). -/
def thueMorseUpper (upper : Int) : Out (List Int) := thueMorse 0 upper

/-- Loop of `range` (src/validate.h 799-801): `prev` is `res[i-1]`, `n` entries are still to be computed. -/
def rangeLoop (step : Int) : Nat → Int → Out (List Int)
  | 0, _ => .ok []
  | n + 1, prev => do
    let x ← chk (prev + step)
    let rest ← rangeLoop step n x
    .ok (x :: rest)

/-- `UInteger n = to - from; if (step < 0) n = 0 - n;` (src/validate.h 796-797), modulo 2^64. -/
def rangeDistance (frm to step : Int) : Nat :=
  let n : Nat := (toU64 to + 2 ^ 64 - toU64 frm) % 2 ^ 64
  if step < 0 then (2 ^ 64 - n) % 2 ^ 64 else n

/-- `1 + (n - 1) / std::abs(step)` in unsigned arithmetic (src/validate.h 798). -/
def rangeSize (n a : Nat) : Nat := (1 + ((n + 2 ^ 64 - 1) % 2 ^ 64) / a) % 2 ^ 64

/-- `range(from, to, step)` (src/validate.h 792-803).  `std::abs` of the smallest value is undefined.
The memory limit of `std::vector` is not modelled. -/
def range (frm to step : Int) : Out (List Int) := do
  judgeAssert (decide (step ≠ 0))
  if step > 0 ∧ to ≤ frm then return []
  if step < 0 ∧ frm ≤ to then return []
  let n := rangeDistance frm to step
  let a ← chk (step.natAbs : Int)
  let size := rangeSize n (toU64 a)
  if size = 0 then return []
  let rest ← rangeLoop step (size - 1) frm
  return frm :: rest

/-- `range(upper)` (src/validate.h 805-807). -/
def rangeUpper (upper : Int) : Out (List Int) := range 0 upper 1

/-- Loop of the fallback version of `details::mulMod` (src/validate.h 1011-1016). -/
def mulModLoop (lhs rhs mod res : Nat) : Nat :=
  if 0 < rhs then
    mulModLoop (((lhs + lhs) % 2 ^ 64) % mod) (rhs / 2) mod
      (if rhs % 2 = 1 then ((lhs + res) % 2 ^ 64) % mod else res)
  else res
termination_by rhs

/-- `details::mulMod` (src/validate.h 1005-1018); `i128` tells whether `__SIZEOF_INT128__` is defined. -/
def detailsMulMod (i128 : Bool) (lhs rhs mod : Nat) : Nat :=
  if i128 then ((lhs * rhs % 2 ^ 128) % mod) % 2 ^ 64 else mulModLoop lhs rhs mod 0

/-- The two loops of `details::powMod` (src/validate.h 1023-1035). -/
def powModLoop (i128 : Bool) (base exp mod res : Nat) : Nat :=
  if 0 < exp then
    if mod ≤ 0x100000000 then
      powModLoop i128 ((base * base % 2 ^ 64) % mod) (exp / 2) mod
        (if exp % 2 = 1 then (base * res % 2 ^ 64) % mod else res)
    else
      powModLoop i128 (detailsMulMod i128 base base mod) (exp / 2) mod
        (if exp % 2 = 1 then detailsMulMod i128 base res mod else res)
  else res
termination_by exp

/-- `details::powMod` (src/validate.h 1020-1037). -/
def detailsPowMod (i128 : Bool) (base exp mod : Nat) : Nat := powModLoop i128 base exp mod 1

/-- `details::extendedEuclid` (src/validate.h 1039-1052); returns `(gcd, x, y)`. -/
def extendedEuclid (a b : Int) : Out (Int × Int × Int) :=
  if a = 0 then .ok (b, 0, 1)
  else do
    let (d, x1, y1) ← extendedEuclid (b.tmod a) a
    let q ← chk (b.tdiv a)
    let p ← chk (q * x1)
    let x ← chk (y1 - p)
    .ok (d, x, x1)
termination_by a.natAbs
decreasing_by
  have h : a ≠ 0 := by assumption
  rw [Int.natAbs_tmod]
  exact Nat.mod_lt _ (by omega)

/-- `applyMod` (src/validate.h 1054-1058); only called with `mod > 0` here, where nothing can overflow. -/
def applyMod (x mod : Int) : Int :=
  let x := x.tmod mod
  if x < 0 then x + mod else x

/-- `mulMod` (src/validate.h 1060-1066). -/
def mulMod (i128 : Bool) (lhs rhs mod : Int) : Out Int := do
  judgeAssert (decide (mod > 0))
  .ok (toI64 (detailsMulMod i128 (toU64 (applyMod lhs mod)) (toU64 (applyMod rhs mod)) (toU64 mod)))

/-- `powMod` (src/validate.h 1068-1075). -/
def powMod (i128 : Bool) (base exp mod : Int) : Out Int := do
  judgeAssert (decide (mod > 0))
  judgeAssert (decide (exp ≥ 0))
  .ok (toI64 (detailsPowMod i128 (toU64 (applyMod base mod)) (toU64 exp) (toU64 mod)))

/-- `multInv` (src/validate.h 1077-1084). -/
def multInv (n mod : Int) : Out Int := do
  judgeAssert (decide (mod > 0))
  let (g, x, _) ← extendedEuclid n mod
  if g ≠ 1 then .ok (-1) else .ok (applyMod x mod)

/-- `details::TRIAL_PRIMES` (src/validate.h 998-1001). -/
def TRIAL_PRIMES : List Int :=
  [ 2,  3,  5,  7, 11, 13, 17, 19, 23,  29,  31,  37,  41,  43,  47,  53,
   59, 61, 67, 71, 73, 79, 83, 89, 97, 101, 103, 107, 109, 113, 127, 131]

/-- `details::MILLER_RABIN_WITNESS` (src/validate.h 1002). -/
def MILLER_RABIN_WITNESS : List Nat := [2, 325, 9375, 28178, 450775, 9780504, 1795265022]

/-- Trial division (src/validate.h 1087-1091): `some b` if the function returns `b` here. -/
def trialLoop (n : Int) : List Int → Option Bool
  | [] => none
  | p :: ps => if n ≤ p ∨ n.tmod p = 0 then some (decide (n = p)) else trialLoop n ps

/-- `while (d % 2 == 0) { d /= 2; j++; }` (src/validate.h 1099-1102); `d > 0` at the only call. -/
def splitTwos (d j : Nat) : Nat × Nat :=
  if 0 < d ∧ d % 2 = 0 then splitTwos (d / 2) (j + 1) else (d, j)
termination_by d
decreasing_by omega

/-- Inner loop of Miller-Rabin (src/validate.h 1107-1110), `k` = remaining iterations. -/
def mrSquare (i128 : Bool) (un : Nat) : Nat → Nat → Nat
  | 0, v => v
  | k + 1, v =>
    let v := detailsMulMod i128 v v un
    if v = un - 1 ∨ v ≤ 1 then v else mrSquare i128 un k v

/-- Outer loop of Miller-Rabin (src/validate.h 1103-1112). -/
def mrLoop (i128 : Bool) (un d j : Nat) : List Nat → Bool
  | [] => true
  | a :: as =>
    if a % un = 0 then mrLoop i128 un d j as
    else
      let v := detailsPowMod i128 a d un
      if v = 1 ∨ v = un - 1 then mrLoop i128 un d j as
      else if mrSquare i128 un (j - 1) v ≠ un - 1 then false
      else mrLoop i128 un d j as

/-- `isPrime` (src/validate.h 1086-1114).  `TRIAL_PRIMES.back() + 1 = 132`. -/
def isPrime (i128 : Bool) (n : Int) : Bool :=
  match trialLoop n TRIAL_PRIMES with
  | some b => b
  | none =>
    let un := toU64 n
    if detailsPowMod i128 132 (un - 1) un ≠ 1 then false
    else
      let (d, j) := splitTwos (un - 1) 0
      mrLoop i128 un d j MILLER_RABIN_WITNESS

/-- `sign` (src/validate.h 1150-1153). -/
def sign (x : Int) : Int := (if 0 < x then 1 else 0) - (if x < 0 then 1 else 0)

/-- `dist` (src/validate.h 1155-1158) on `Integer`. -/
def dist (a b : Int) : Out Int := if a > b then chk (a - b) else chk (b - a)

end ICPC
