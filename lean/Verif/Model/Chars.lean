import Verif.Model.Basic

/-!
# Character functions and string comparison (src/validate.h 691-776, 919-951)

A `char` is a Lean `Char` (byte `b` = code point `b`); strings are `List Char`.
The arithmetic `c += 'a' - 'A'` adds 32 to the code.
-/

namespace ICPC

/-- `isLower(char)` (src/validate.h 692-694). -/
def isLowerC (c : Char) : Bool := decide ('a' ≤ c) && decide (c ≤ 'z')

/-- `isUpper(char)` (src/validate.h 696-698). -/
def isUpperC (c : Char) : Bool := decide ('A' ≤ c) && decide (c ≤ 'Z')

/-- `isLetter(char)` (src/validate.h 700-702). -/
def isLetterC (c : Char) : Bool := isLowerC c || isUpperC c

/-- `isDigit(char)` (src/validate.h 704-706). -/
def isDigitC (c : Char) : Bool := decide ('0' ≤ c) && decide (c ≤ '9')

/-- `toLower(char)` (src/validate.h 708-711). -/
def toLowerC (c : Char) : Char := if isUpperC c then Char.ofNat (c.toNat + 32) else c

/-- `toUpper(char)` (src/validate.h 725-728). -/
def toUpperC (c : Char) : Char := if isLowerC c then Char.ofNat (c.toNat - 32) else c

/-- `LOWER_VOWELS` (src/validate.h 104, 106). -/
def LOWER_VOWELS : List Char := ['a', 'e', 'i', 'o', 'u']

/-- `isVowel(char)` (src/validate.h 713-719). -/
def isVowelC (c : Char) : Bool := LOWER_VOWELS.any (fun x => toLowerC c == x)

/-- `isConsonant(char)` (src/validate.h 721-723). -/
def isConsonantC (c : Char) : Bool := isLetterC c && !isVowelC c

/-- `toDefaultCase(char)` (src/validate.h 730-733); `defaultLower` is the compile time switch
`DEFAULT_CASE_LOWER` (src/validate.h 81, true by default). -/
def toDefaultCaseC (defaultLower : Bool) (c : Char) : Char :=
  if defaultLower then toLowerC c else toUpperC c

/-- `toLower(std::string&)` (src/validate.h 735-737). -/
def toLowerS (s : List Char) : List Char := s.map toLowerC

/-- `toUpper(std::string&)` (src/validate.h 739-741). -/
def toUpperS (s : List Char) : List Char := s.map toUpperC

/-- `toDefaultCase(std::string&)` (src/validate.h 743-746). -/
def toDefaultCaseS (defaultLower : Bool) (s : List Char) : List Char :=
  if defaultLower then toLowerS s else toUpperS s

/-- The loops of `isUpper/isLetter/isDigit/isVowel/isConsonant(std::string_view)`
(src/validate.h 753-776): report the first offending character. -/
def allChars (p : Char → Bool) : List Char → Boolean Char
  | [] => { value := true }
  | c :: cs => if !p c then { value := false, reason := some c } else allChars p cs

/-- `isLower(std::string_view)` (src/validate.h 748-751) returns a plain `bool`. -/
def isLowerS : List Char → Bool
  | [] => true
  | c :: cs => if !isLowerC c then false else isLowerS cs

def isUpperS (s : List Char) : Boolean Char := allChars isUpperC s
def isLetterS (s : List Char) : Boolean Char := allChars isLetterC s
def isDigitS (s : List Char) : Boolean Char := allChars isDigitC s
def isVowelS (s : List Char) : Boolean Char := allChars isVowelC s
def isConsonantS (s : List Char) : Boolean Char := allChars isConsonantC s

/-- `details::stringEqual` (src/validate.h 919-937); `i` is the loop index. -/
def stringEqualLoop (defaultLower caseSensitive : Bool) : List Char → List Char → Nat → Boolean Nat
  | a :: as, b :: bs, i =>
    let aa := if !caseSensitive then toDefaultCaseC defaultLower a else a
    let bb := if !caseSensitive then toDefaultCaseC defaultLower b else b
    if aa ≠ bb then { value := false, reason := some i }
    else stringEqualLoop defaultLower caseSensitive as bs (i + 1)
  | [], [], _ => { value := true }
  | _, _, i => { value := false, reason := some i }

/-- `details::stringEqual` (src/validate.h 919-937). -/
def stringEqual (defaultLower : Bool) (a b : List Char) (caseSensitive : Bool) : Boolean Nat :=
  stringEqualLoop defaultLower caseSensitive a b 0

/-- `details::isToken` (src/validate.h 939-950). -/
def isToken (a : List Char) : Bool :=
  if a.isEmpty then false
  else a.all fun c => !(c == ' ' || c == '\n' || c == '\r' || c == '\t' || c == Char.ofNat 12 || c == Char.ofNat 11)

end ICPC
