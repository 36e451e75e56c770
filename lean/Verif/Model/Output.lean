import Verif.Model.Basic

/-!
# The output stream (src/validate.h 244-427)

`OutVal` is the shape of a value that is written: things that `std::ostream` prints itself, pairs, tuples and
containers.  Integers are printed in decimal notation.  `std::ostream` itself is not modelled; the result
is the text that is appended. `TempWriter`, which delays the call, is in `Model/Writer`.  Real numbers are in
`Model/RealText`.
-/

namespace ICPC

/-- Values that can be written. -/
inductive OutVal where
  /-- a character or a string -/
  | text (t : List Char)
  | int (v : Int)
  | pair (a b : OutVal)
  | tuple (l : List OutVal)
  | container (l : List OutVal)

/-- `std::ostream << Integer`. -/
def printInt (v : Int) : List Char := (if v < 0 then ['-'] else []) ++ Nat.toDigits 10 v.natAbs

/-- `NOSEP` (src/validate.h 118). -/
def NOSEP : Char := Char.ofNat 0

/-- `DEFAULT_SEPARATOR` (src/validate.h 134). -/
def DEFAULT_SEPARATOR : Char := ' '

/-- `OutputStream::join(first, last, separator)` (src/validate.h 302-308) for printed elements; `isFirst` is
`it == first`. -/
def joinLoop (separator : Char) : Bool → List (List Char) → List Char
  | _, [] => []
  | isFirst, x :: l =>
    (if !isFirst && separator != NOSEP then [separator] else []) ++ x ++ joinLoop separator false l

/-- `OutputStream::join(first, last, separator)` (src/validate.h 302-308). -/
def joinRange (separator : Char) (l : List (List Char)) : List Char := joinLoop separator true l

/-- The fold of `OutputStream::join(tuple, indices, separator)` (src/validate.h 297), starting at index `i`. -/
def joinTupleLoop (separator : Char) : Nat → List (List Char) → List Char
  | _, [] => []
  | i, x :: l => (if i = 0 then [] else [separator]) ++ x ++ joinTupleLoop separator (i + 1) l

/-- `OutputStream::join(tuple, indices, separator)` (src/validate.h 294-300). -/
def joinTuple (separator : Char) (l : List (List Char)) : List Char :=
  if separator ≠ NOSEP then joinTupleLoop separator 0 l else l.flatten

mutual

/-- `OutputStream::operator<<` (src/validate.h 268-287). -/
def write : OutVal → List Char
  | .text t => t
  | .int v => printInt v
  | .pair a b => write a ++ [DEFAULT_SEPARATOR] ++ write b
  | .tuple l => joinTuple DEFAULT_SEPARATOR (writeAll l)
  | .container l => joinRange DEFAULT_SEPARATOR (writeAll l)

/-- The texts of the elements of a tuple or container. -/
def writeAll : List OutVal → List (List Char)
  | [] => []
  | x :: l => write x :: writeAll l

end

end ICPC
