import Verif.Model.Num

/-!
# `primes` (src/validate.h 1116-1148)

After src/validate.h 1118-1119 every number in the function is non-negative, so the loops are over `Nat`;
an addition whose result does not fit into `Integer` and an index outside of a `std::vector<bool>` are
undefined behaviour.
-/

namespace ICPC

/-- `v[i] = true` on a `std::vector<bool>`. -/
def setBit (v : List Bool) (i : Nat) : Out (List Bool) :=
  if i < v.length then .ok (v.set i true) else .error .ub

/-- `v[i]` on a `std::vector<bool>`. -/
def getBit (v : List Bool) (i : Nat) : Out Bool :=
  match v[i]? with
  | some b => .ok b
  | none => .error .ub

/-- `for (; j < stop; j += step) v[(j - base) / 2] = true;` (src/validate.h 1126-1128 with `base = 0` and
1131-1133 with `base = lower`).  The guard `0 < step` always holds there (`step = 2 * i`). -/
def markLoop (step stop base j : Nat) (v : List Bool) : Out (List Bool) :=
  if _h : j < stop ∧ 0 < step then
    match setBit v ((j - base) / 2) with
    | .error e => .error e
    | .ok v' => if j + step < 2 ^ 63 then markLoop step stop base (j + step) v' else .error .ub
  else .ok v
termination_by stop - j

/-- `lowest` (src/validate.h 1129-1130). -/
def lowestMultiple (lower i : Nat) : Out Nat :=
  let l := lower - lower % (2 * i) + i
  if l < 2 ^ 63 then
    if l < lower then (if l + 2 * i < 2 ^ 63 then .ok (l + 2 * i) else .error .ub) else .ok l
  else .error .ub

/-- The sieve loop (src/validate.h 1124-1135). -/
def sieveLoop (lower upper count i : Nat) (notPrime segment : List Bool) : Out (List Bool) :=
  if i < count then do
    let b ← getBit notPrime (i / 2)
    if b then sieveLoop lower upper count (i + 2) notPrime segment
    else do
      let notPrime' ← markLoop (2 * i) count 0 (i * i) notPrime
      let lowest ← lowestMultiple lower i
      let segment' ← markLoop (2 * i) upper lower (max (i * i) lowest) segment
      sieveLoop lower upper count (i + 2) notPrime' segment'
  else .ok segment
termination_by count - i

/-- The output loop (src/validate.h 1138-1142). -/
def collectLoop (i128 : Bool) (lower upper count : Nat) (segment : List Bool) (i : Nat) : Out (List Int) :=
  if i < upper then do
    let b ← getBit segment ((i - lower) / 2)
    if i + 2 < 2 ^ 63 then do
      let rest ← collectLoop i128 lower upper count segment (i + 2)
      if !b && (decide (i < count * count) || isPrime i128 i) then .ok ((i : Int) :: rest) else .ok rest
    else .error .ub
  else .ok []
termination_by upper - i

/-- The body of `primes` after clamping the bounds (src/validate.h 1120-1143). -/
def primesClamped (i128 : Bool) (lower upper : Nat) : Out (List Int) := do
  let count := min 0x3FFFFFFF (upper - lower)
  let cache := (count + 1) / 2
  let segment ← sieveLoop lower upper count 3 (List.replicate cache false) (List.replicate cache false)
  let rest ← collectLoop i128 lower upper count segment (lower ||| 1)
  .ok (if lower ≤ 2 ∧ 2 < upper then 2 :: rest else rest)

/-- `primes(lower, upper)` (src/validate.h 1116-1144).  `i128` says whether the compiler has `__int128`
(used by `isPrime`). -/
def primes (i128 : Bool) (lower upper : Int) : Out (List Int) := do
  judgeAssert (decide (lower < upper))
  primesClamped i128 (max 2 lower).toNat (max 2 upper).toNat

/-- `primes(upper)` (src/validate.h 1146-1148). -/
def primesUpper (i128 : Bool) (upper : Int) : Out (List Int) := primes i128 0 upper

end ICPC
