import Verif.Model.Float
import Verif.Model.Stream
import Verif.Model.Output

/-!
# Real numbers as text (src/validate.h 952-959, 987-992, 244-252)

`std::from_chars` and `std::ostream << Real` are modelled as the C++ standard describes them with correct rounding to
nearest, ties to even (in both directions), as in libstdc++ on top of glibc.  `DOUBLE_FALLBACK` is not defined.  The format of
`Real` is a parameter.
-/

namespace ICPC.Fp

/-- The optional exponent in the pattern of `std::from_chars`: its value and the rest.  An `e` without digits is not part of
the number. -/
def takeExponent : List Char → Int × List Char
  | [] => (0, [])
  | c :: s =>
    if c = 'e' ∨ c = 'E' then
      let t := if s.head? = some '+' ∨ s.head? = some '-' then s.tail else s
      let ds := t.takeWhile isDigitC
      if ds.isEmpty then (0, c :: s)
      else (if s.head? = some '-' then -(digitsValue 0 ds : Int) else digitsValue 0 ds, t.dropWhile isDigitC)
    else (0, c :: s)

/-- The optional fraction in the pattern of `std::from_chars`: its digits and the rest. -/
def takeFraction : List Char → List Char × List Char
  | [] => ([], [])
  | c :: s => if c = '.' then (s.takeWhile isDigitC, s.dropWhile isDigitC) else ([], c :: s)

/-- `std::from_chars` for `Real` (general format, without infinities and NaN, which the regular expressions exclude): the value
and the rest; nothing if there is no digit, if the number is too large, or if it is not zero and its value would be. -/
def fromChars (F : Format) (s : List Char) : Option (Flt × List Char) :=
  let a := (stripMinus s).2.takeWhile isDigitC
  let f := takeFraction ((stripMinus s).2.dropWhile isDigitC)
  if a.isEmpty && f.1.isEmpty then none
  else
    let e := takeExponent f.2
    let q : ℚ := digitsValue 0 (a ++ f.1) * 10 ^ (e.1 - f.1.length)
    match round F (if (stripMinus s).1 then -q else q) with
    | .fin x => if x = 0 ∧ q ≠ 0 then none else some (.fin x, e.2)
    | _ => none

/-- `details::parse<Real>` (src/validate.h 952-959). -/
def parseReal (F : Format) (s : List Char) : Option Flt :=
  match fromChars F (stripPlus s) with
  | some (v, []) => some v
  | _ => none

/-- `isReal` (src/validate.h 987-992). -/
def isReal (F : Format) (s : List Char) : Boolean Flt :=
  if !REAL_REGEX.matches s then { value := false }
  else match parseReal F s with
    | none => { value := false }
    | some v => { value := true, reason := some v }

/-- `a < b`. -/
def lt (a b : Flt) : Bool := le a b && !le b a

/-- The operations of the input stream on `Real`, with the tolerances of the stream; `close` is only meaningful for
tolerances that are not negative (otherwise `floatEqual` throws). -/
def realOps (F : Format) (floatAbsTol floatRelTol : Flt) : RealOps Flt where
  parse := parseReal F
  close x y := match floatEqual F x y floatAbsTol floatRelTol with
    | .ok b => b
    | .error _ => false
  isNaN := isnan
  le := le
  lt := lt

/-- Zeros in front of a number up to a width. -/
def padLeft (width : ℕ) (ds : List Char) : List Char := List.replicate (width - ds.length) '0' ++ ds

/-- `std::ostream << Real` after `std::fixed` and `std::setprecision(prec)` for a finite number with sign bit `neg` and
magnitude `a`: the nearest number with that many decimals, ties to even. -/
def printFixed (prec : ℕ) (neg : Bool) (a : ℚ) : List Char :=
  let n := (rne (a * 10 ^ prec)).toNat
  (if neg then ['-'] else []) ++ Nat.toDigits 10 (n / 10 ^ prec) ++
    (if prec = 0 then [] else '.' :: padLeft prec (Nat.toDigits 10 (n % 10 ^ prec)))

/-- `DEFAULT_PRECISION` (src/validate.h 82). -/
def DEFAULT_PRECISION : ℕ := 6

/-- `DEFAULT_EPS` (src/validate.h 83). -/
def DEFAULT_EPS (F : Format) : Flt := round F (1 / 10 ^ 6)

/-- `OutputStream << Real` with the format flags set in `OutputStream::init` (src/validate.h 248-252). -/
def printReal : Flt → List Char
  | .nan neg => (if neg then ['-'] else []) ++ ['n', 'a', 'n']
  | .inf neg => (if neg then ['-'] else []) ++ ['i', 'n', 'f']
  | .fin q => printFixed DEFAULT_PRECISION (decide (q < 0)) |q|

/-- A sequence of digits without the zeros at its end. -/
def stripZeros (ds : List Char) : List Char := (ds.reverse.dropWhile (· = '0')).reverse

/-- The digits after the point, and the point if there are any. -/
def fraction (ds : List Char) : List Char := if (stripZeros ds).isEmpty then [] else '.' :: stripZeros ds

/-- The six significant digits of a positive number as a natural number, and the exponent of the first one. -/
def significant (a : ℚ) : ℤ × ℤ :=
  let m := rne (a / 10 ^ (Int.log 10 a - 5))
  if m = 10 ^ 6 then (10 ^ 5, Int.log 10 a + 1) else (m, Int.log 10 a)

/-- `std::ostream << Real` with the default format flags, which is `%Lg`, for a finite number with sign bit `neg` and
magnitude `a`. -/
def printGeneral (neg : Bool) (a : ℚ) : List Char :=
  (if neg then ['-'] else []) ++
  if a = 0 then ['0']
  else
    let ds := Nat.toDigits 10 (significant a).1.toNat
    let x := (significant a).2
    if -4 ≤ x ∧ x < 6 then
      if 0 ≤ x then ds.take (x.toNat + 1) ++ fraction (ds.drop (x.toNat + 1))
      else '0' :: fraction (List.replicate (-x - 1).toNat '0' ++ ds)
    else ds.take 1 ++ fraction (ds.drop 1) ++ ['e', if x < 0 then '-' else '+'] ++ padLeft 2 (Nat.toDigits 10 x.natAbs)

/-- `std::ostream << Real` in `attribute` (src/visualizer_svg.h 168-173) and for the points (467, 517). -/
def attributeText (q : ℚ) : List Char := printGeneral (decide (q < 0)) |q|

/-- `std::to_string(Real)`, which is `%Lf`, in the view box (src/visualizer_svg.h 322-325). -/
def toStringText (q : ℚ) : List Char := printFixed 6 (decide (q < 0)) |q|

end ICPC.Fp
