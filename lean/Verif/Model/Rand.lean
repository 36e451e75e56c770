import Verif.Model.Num

/-!
# Random programs (src/validate.h 1318-1391)

The random engine produces 64-bit words (src/validate.h 1331-1332).  `integerWords` and `bitWord` are the
word-level models of `Random::integer` and `Random::bit`.  All other functions of `Random` that work on
integers use the engine only through these two, so they are modelled as programs (`Rand`) whose steps are
bounded draws and coin flips; `Rand.run` executes such a program on engine words.
-/

namespace ICPC

/-- `Random::bit` (src/validate.h 1349-1351) on one engine word. -/
def bitWord (x : Nat) : Bool := popcount64 x &&& 1 = 1

/-- The high word of the product of two 64-bit words without `__int128` (src/validate.h 1372-1383). -/
def mulHigh32 (x s : Nat) : Nat :=
  let x0 := x % 2 ^ 32
  let x1 := x / 2 ^ 32
  let y0 := s % 2 ^ 32
  let y1 := s / 2 ^ 32
  let p11 := x1 * y1 % 2 ^ 64
  let p01 := x0 * y1 % 2 ^ 64
  let p10 := x1 * y0 % 2 ^ 64
  let p00 := x0 * y0 % 2 ^ 64
  let mid := ((p10 + p00 / 2 ^ 32) % 2 ^ 64 + p01 % 2 ^ 32) % 2 ^ 64
  ((p11 + mid / 2 ^ 32) % 2 ^ 64 + p01 / 2 ^ 32) % 2 ^ 64

/-- The returned value of `Random::integer` for the accepted word `x` (src/validate.h 1368-1384). -/
def integerValue (i128 : Bool) (ul s x : Nat) : Int :=
  if i128 then toI64 ((x * s / 2 ^ 64 + ul) % 2 ^ 128) else toI64 ((mulHigh32 x s + ul) % 2 ^ 64)

/-- `while (x * s < t) x = randomNumberGenerator();` (src/validate.h 1366): `x` is the current word, the
list holds the words the engine produces next; `none` if they are used up. -/
def rejectLoop (s t : Nat) : Nat → List Nat → Option (Nat × List Nat)
  | x, [] => if x * s % 2 ^ 64 < t then none else some (x, [])
  | x, w :: ws => if x * s % 2 ^ 64 < t then rejectLoop s t w ws else some (x, w :: ws)

/-- `UInteger s = uu - ul` (src/validate.h 1358-1361). -/
def rangeWidth (lower upper : Int) : Nat := (toU64 upper + 2 ^ 64 - toU64 lower) % 2 ^ 64

/-- The threshold `(0 - s) % s` (src/validate.h 1365). -/
def rejectThreshold (s : Nat) : Nat := ((2 ^ 64 - s) % 2 ^ 64) % s

/-- The accepted engine word and the words after it (src/validate.h 1362-1367). -/
def acceptWord (s : Nat) : List Nat → Option (Nat × List Nat)
  | [] => none
  | x :: ws => if x * s % 2 ^ 64 < s then rejectLoop s (rejectThreshold s) x ws else some (x, ws)

/-- `Random::integer(lower, upper)` (src/validate.h 1356-1385) on a sequence of engine words; `none` if
they are used up. -/
def integerWords (i128 : Bool) (lower upper : Int) (words : List Nat) : Option (Out Int × List Nat) :=
  if lower < upper then
    (acceptWord (rangeWidth lower upper) words).map fun p =>
      (.ok (integerValue i128 (toU64 lower) (rangeWidth lower upper) p.1), p.2)
  else some (.error .throw, words)

/-- Programs over `Random::integer` and `Random::bit`. -/
inductive Rand (α : Type) where
  /-- the computation is over, with a value or not -/
  | done (o : Out α)
  /-- a call of `Random::integer(lower, upper)` with `lower < upper` -/
  | draw (lower upper : Int) (k : Int → Rand α)
  /-- a call of `Random::bit()` -/
  | coin (k : Bool → Rand α)

namespace Rand

def bind {α β : Type} (r : Rand α) (f : α → Rand β) : Rand β :=
  match r with
  | .done (.ok a) => f a
  | .done (.error e) => .done (.error e)
  | .draw l u k => .draw l u fun v => (k v).bind f
  | .coin k => .coin fun v => (k v).bind f

instance : Monad Rand where
  pure a := .done (.ok a)
  bind := bind

/-- A deterministic part of a random program. -/
def lift {α : Type} (o : Out α) : Rand α := .done o

/-- Execution on a sequence of engine words; `none` if they are used up. -/
def run {α : Type} (i128 : Bool) : Rand α → List Nat → Option (Out α × List Nat)
  | .done o, ws => some (o, ws)
  | .draw l u k, ws =>
    match integerWords i128 l u ws with
    | none => none
    | some (.error e, ws) => some (.error e, ws)
    | some (.ok v, ws) => run i128 (k v) ws
  | .coin k, ws =>
    match ws with
    | [] => none
    | w :: ws => run i128 (k (bitWord w)) ws

end Rand

/-- `Random::integer(lower, upper)` as a step of a program (src/validate.h 1356-1357): it throws if the
range is empty, otherwise one value of the range is drawn.  Bounds that are not representable are the result
of an overflow in the caller. -/
@[irreducible] def integer (lower upper : Int) : Rand Int :=
  if I64 lower ∧ I64 upper then
    if lower < upper then .draw lower upper fun v => .done (.ok v) else .done (.error .throw)
  else .done (.error .ub)

/-- `Random::bit()` (src/validate.h 1349-1351) as a step of a program. -/
def bit : Rand Bool := .coin fun b => .done (.ok b)

end ICPC
