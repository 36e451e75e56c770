import Verif.Model.Basic
import Mathlib.Data.Int.Log
import Mathlib.Data.Rat.Floor

/-!
# Comparison of real numbers (src/validate.h 896-917, 2808-2828)

`Real` is `long double` (src/validate.h 66).  Its numbers are those of a binary floating point format: a precision, a
smallest and a largest exponent (for the 80 bit format of x86 these are 64, -16445 and 16320, for IEEE 754 binary64
they are 53, -1074 and 971).  The operations are those of IEEE 754 with rounding to nearest, ties to even: the exact
result is rounded, results that are too large become infinite.  The sign of a zero is not represented; the functions
below only use it for the sign of a quotient of which they take the absolute value.
-/

namespace ICPC.Fp

/-- A binary floating point format: the finite numbers are `m * 2 ^ e` with `|m| < 2 ^ p` and `emin ≤ e ≤ emax`. -/
structure Format where
  p : ℕ
  emin : ℤ
  emax : ℤ
  one_le_p : 1 ≤ p
  emin_le : emin ≤ emax

/-- Values of type `Real` (src/validate.h 66); `neg` is the sign bit. -/
inductive Flt where
  | nan (neg : Bool)
  | inf (neg : Bool)
  | fin (q : ℚ)
  deriving DecidableEq

/-- Round to the nearest integer, ties to even. -/
def rne (x : ℚ) : ℤ :=
  if Int.fract x < 1 / 2 then ⌊x⌋
  else if 1 / 2 < Int.fract x then ⌊x⌋ + 1
  else if ⌊x⌋ % 2 = 0 then ⌊x⌋ else ⌊x⌋ + 1

/-- The exponent of the last binary digit that the format has for a number of magnitude `a`. -/
def expo (F : Format) (a : ℚ) : ℤ := max F.emin (Int.log 2 a - F.p + 1)

/-- The magnitude `a` rounded as if there was no largest exponent. -/
def roundMag (F : Format) (a : ℚ) : ℚ := rne (a / 2 ^ expo F a) * 2 ^ expo F a

/-- The exact result `x` of an operation rounded to the format. -/
def round (F : Format) (x : ℚ) : Flt :=
  if roundMag F |x| < 2 ^ (F.emax + F.p) then
    .fin (if x < 0 then -roundMag F |x| else roundMag F |x|)
  else .inf (x < 0)

/-- `a - b` of IEEE 754. -/
def sub (F : Format) : Flt → Flt → Flt
  | .nan s, _ => .nan s
  | _, .nan s => .nan s
  | .inf s, .inf t => if s = t then .nan false else .inf s
  | .inf s, .fin _ => .inf s
  | .fin _, .inf s => .inf (!s)
  | .fin a, .fin b => round F (a - b)

/-- `a / b` of IEEE 754, the sign of a zero divisor taken as positive. -/
def div (F : Format) : Flt → Flt → Flt
  | .nan s, _ => .nan s
  | _, .nan s => .nan s
  | .inf _, .inf _ => .nan false
  | .inf s, .fin b => .inf (s ^^ decide (b < 0))
  | .fin _, .inf _ => .fin 0
  | .fin a, .fin b => if b = 0 then (if a = 0 then .nan false else .inf (a < 0)) else round F (a / b)

/-- `std::abs`. -/
def abs : Flt → Flt
  | .nan _ => .nan false
  | .inf _ => .inf false
  | .fin q => .fin |q|

/-- `a <= b`, and `b >= a`. -/
def le : Flt → Flt → Bool
  | .nan _, _ => false
  | _, .nan _ => false
  | .inf true, _ => true
  | _, .inf false => true
  | .inf false, _ => false
  | _, .inf true => false
  | .fin a, .fin b => decide (a ≤ b)

/-- `std::isfinite`. -/
def isfinite : Flt → Bool
  | .fin _ => true
  | _ => false

/-- `std::isnan`. -/
def isnan : Flt → Bool
  | .nan _ => true
  | _ => false

/-- `std::isinf`. -/
def isinf : Flt → Bool
  | .inf _ => true
  | _ => false

/-- `std::signbit`, see the remark on zeros. -/
def signbit : Flt → Bool
  | .nan s => s
  | .inf s => s
  | .fin q => decide (q < 0)

/-- `details::floatEqual` (src/validate.h 898-917). -/
def floatEqual (F : Format) (given expected floatAbsTol floatRelTol : Flt) : Out Bool := do
  judgeAssert (le (.fin 0) floatAbsTol)
  judgeAssert (le (.fin 0) floatRelTol)
  if isfinite given && isfinite expected then
    let absDiff := abs (sub F given expected)
    let relDiff := abs (div F (sub F given expected) expected)
    .ok (le absDiff floatAbsTol || le relDiff floatRelTol)
  else if isnan given && isnan expected then .ok true
  else if isinf given && isinf expected then .ok (signbit given == signbit expected)
  else .ok false

/-- `floatLess` (src/validate.h 2816-2821 and the same function of the other validators); `or` only evaluates its
second operand if the first one is false. -/
def floatLess (F : Format) (given expected floatAbsTol floatRelTol : Flt) : Out Bool :=
  if le given expected then .ok true else floatEqual F given expected floatAbsTol floatRelTol

/-- `floatGreater` (src/validate.h 2823-2828). -/
def floatGreater (F : Format) (given expected floatAbsTol floatRelTol : Flt) : Out Bool :=
  if le expected given then .ok true else floatEqual F given expected floatAbsTol floatRelTol

end ICPC.Fp
