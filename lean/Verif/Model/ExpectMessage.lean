import Verif.Model.FailMessage
import Verif.Model.Chars

/-!
# The message of `InputStream::expectString` (src/validate.h 2614-2642)
-/

namespace ICPC.ExpectMessage

open FailMessage (TEXT_ELLIPSIS substr)

/-- `PREFIX` and `WINDOW` (src/validate.h 2620-2621). -/
def PREFIX : Nat := 10
def WINDOW : Nat := 5

/-- The local function `format` (src/validate.h 2619-2631): what is shown of the string `s` if the strings differ at `pos`.
`std::string_view::substr` throws if its first argument is too large. -/
def format (pos : Nat) (s : List Char) : Out (List Char) :=
  if s.length ≤ PREFIX + WINDOW + TEXT_ELLIPSIS.length * 2 then .ok s
  else if pos ≤ PREFIX + TEXT_ELLIPSIS.length + WINDOW / 2 ∨ s.length ≤ pos then
    .ok (s.take (PREFIX + TEXT_ELLIPSIS.length + WINDOW) ++ TEXT_ELLIPSIS)
  else if pos + TEXT_ELLIPSIS.length + WINDOW / 2 > s.length then do
    let t ← substr s (pos - WINDOW / 2)
    .ok (s.take PREFIX ++ TEXT_ELLIPSIS ++ t)
  else do
    let t ← substr s (pos - WINDOW / 2)
    .ok (s.take PREFIX ++ TEXT_ELLIPSIS ++ t.take WINDOW ++ TEXT_ELLIPSIS)

/-- The message (src/validate.h 2617-2640), nothing if the strings are equal.  The position of an unequal pair is always there
(otherwise reading it is undefined). -/
def message (defaultLower caseSensitive : Bool) (expected seen : List Char) : Out (Option (List Char)) :=
  let eq := stringEqual defaultLower seen expected caseSensitive
  if !eq.value then
    match eq.reason with
    | none => .error .ub
    | some pos => do
      let e ← format pos expected
      let s ← format pos seen
      .ok (some ("Expected \"".toList ++ e ++ "\" but got \"".toList ++ s ++ "\"!".toList ++
        if pos > 5 then " (different at position: ".toList ++ Nat.toDigits 10 (pos + 1) ++ ")".toList else []))
  else .ok none

end ICPC.ExpectMessage
