import Verif.Model.RandSeq
import Mathlib.Data.Rat.Defs
import Mathlib.Algebra.Field.Rat

/-!
# `Random::real` (src/validate.h 1393-1403) and `Random::nonCollinearPoints` (src/validate.h 1879-1915)
-/

namespace ICPC

open Rand (lift)

/-- Number of trailing zero bits of a word, 64 for the word 0: `bitset<64>(~x & (x-1)).count()`
(src/validate.h 1400), as the population count of the 64 low bits. -/
def trailingZeros (x : Nat) : Nat := popcount64 ((2 ^ 64 - 1 - x) &&& ((x + 2 ^ 64 - 1) % 2 ^ 64))

/-- The `do` loop of `Random::real` (src/validate.h 1397-1401): the number subtracted from the exponent. -/
def exponentLoop : List Nat → Option (Nat × List Nat)
  | [] => none
  | x :: ws =>
    if x = 0 then (exponentLoop ws).map fun p => (trailingZeros 0 + p.1, p.2)
    else some (trailingZeros x, ws)

/-- Conversion of a word of at least `2^63` to `double` (53 bits, round to nearest, ties to even), which
`std::ldexp` performs on an integer argument (src/validate.h 1402). -/
def toDouble (m : Nat) : Nat :=
  let q := m / 2 ^ 11
  let r := m % 2 ^ 11
  2 ^ 11 * (if r > 2 ^ 10 ∨ (r = 2 ^ 10 ∧ q % 2 = 1) then q + 1 else q)

/-- `Random::real()` (src/validate.h 1393-1403) on engine words.  The scaling by a power of two is exact; the
underflow of `double`, which needs more than 15 zero words in a row, is not modelled. -/
def realWords : List Nat → Option (ℚ × List Nat)
  | [] => none
  | w :: ws => (exponentLoop ws).map fun p => ((toDouble (w ||| 2 ^ 63) : ℚ) / 2 ^ (64 + p.1), p.2)

/-- What `Random::nonCollinearPoints` draws. -/
structure NCParams where
  p : Int
  rotA : Int
  rotB : Int
  a : Int
  b : Int
  c : Int
  dx : Int
  dy : Int
  xs : List Int

/-- `while (rotA == 0 and rotB == 0)` (src/validate.h 1886-1889); at most `n` iterations are followed. -/
def rotLoop (p : Int) : Nat → Rand (Int × Int)
  | 0 => lift (.error .fuel)
  | n + 1 => do
    let a ← integer 0 p
    let b ← integer 0 p
    if a = 0 ∧ b = 0 then rotLoop p n else pure (a, b)

/-- The random part of `Random::nonCollinearPoints` (src/validate.h 1880-1898). -/
def ncDraw (i128 : Bool) (fuel : Nat) (n dim : Int) : Rand NCParams := do
  lift (judgeAssert (decide (dim ≤ 0x1FFFFFFF)))
  lift (judgeAssert (decide (n ≥ 0)))
  lift (judgeAssert (decide (dim > n)))
  let p ← randomPrime i128 (dim - 1) (2 * dim + 2)
  let rot ← rotLoop p fuel
  let a ← integer 1 p
  let b ← integer 0 p
  let c ← integer 0 p
  let dx ← integer (-dim + 1) (dim - p)
  let dy ← integer (-dim + 1) (dim - p)
  let xs ← distinct n 0 p
  pure ⟨p, rot.1, rot.2, a, b, c, dx, dy, xs⟩

/-- `tmpY *= tmpX; tmpY += add; tmpY %= p;` (src/validate.h 1903-1905). -/
def hornerStep (p x y add : Int) : Out Int := do
  let t ← chk (y * x)
  let t ← chk (t + add)
  if p = 0 then .error .ub else .ok (t.tmod p)

/-- One point (src/validate.h 1901-1911). -/
def ncPoint (q : NCParams) (x : Int) : Out (Int × Int) := do
  let y ← hornerStep q.p x 0 q.a
  let y ← hornerStep q.p x y q.b
  let y ← hornerStep q.p x y q.c
  let u1 ← chk (x * q.rotA)
  let u2 ← chk (y * q.rotB)
  let u ← chk (u1 - u2)
  let v1 ← chk (x * q.rotB)
  let v2 ← chk (y * q.rotA)
  let v ← chk (v1 + v2)
  let px ← chk (applyMod u q.p + q.dx)
  let py ← chk (applyMod v q.p + q.dy)
  .ok (px, py)

/-- The loop over the drawn values (src/validate.h 1899-1913). -/
def ncPoints (q : NCParams) : List Int → Out (List (Int × Int))
  | [] => .ok []
  | x :: xs => do
    let pt ← ncPoint q x
    let rest ← ncPoints q xs
    .ok (pt :: rest)

/-- `Random::nonCollinearPoints(n, dim)` (src/validate.h 1879-1915). -/
def nonCollinearPoints (i128 : Bool) (fuel : Nat) (n dim : Int) : Rand (List (Int × Int)) := do
  let q ← ncDraw i128 fuel n dim
  lift (ncPoints q q.xs)

end ICPC
