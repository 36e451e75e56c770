import Verif.Model.Chars
import Verif.Model.RandSeq

/-!
# The alphabets (src/validate.h 102-115)

`std::string_view::substr(pos, len)` is `take len` after `drop pos`.
-/

namespace ICPC

/-- `LETTER` (src/validate.h 102). -/
def LETTER : List Char := "ABCDEFGHIJKLMNOPQRSTUVWXYZabcdefghijklmnopqrstuvwxyz".toList

/-- `UPPER` (src/validate.h 103). -/
def UPPER : List Char := LETTER.take 26

/-- `LOWER` (src/validate.h 104). -/
def LOWER : List Char := LETTER.drop 26

/-- `VOWEL` (src/validate.h 105). -/
def VOWEL : List Char := "AEIOUaeiou".toList

/-- `UPPER_VOWELS` (src/validate.h 106); `LOWER_VOWELS` is in `Model/Chars`. -/
def UPPER_VOWELS : List Char := VOWEL.take 5

/-- `CONSONANT` (src/validate.h 108). -/
def CONSONANT : List Char := "BCDFGHJKLMNPQRSTVWXYZbcdfghjklmnpqrstvwxyz".toList

/-- `UPPER_CONSONANT` (src/validate.h 109). -/
def UPPER_CONSONANT : List Char := CONSONANT.take (26 - 5)

/-- `LOWER_CONSONANT` (src/validate.h 110). -/
def LOWER_CONSONANT : List Char := CONSONANT.drop (26 - 5)

/-- `ALPHA_NUMERIC` (src/validate.h 111). -/
def ALPHA_NUMERIC : List Char := "0123456789ABCDEFGHIJKLMNOPQRSTUVWXYZabcdefghijklmnopqrstuvwxyz".toList

/-- `UPPER_ALPHA_NUMERIC` (src/validate.h 112). -/
def UPPER_ALPHA_NUMERIC : List Char := ALPHA_NUMERIC.take (10 + 26)

/-- `LOWER_ALPHA_NUMERIC` (src/validate.h 113). -/
def LOWER_ALPHA_NUMERIC : List Char := "0123456789abcdefghijklmnopqrstuvwxyz".toList

/-- `DIGITS` (src/validate.h 114). -/
def DIGITS : List Char := ALPHA_NUMERIC.take 10

/-- `BRACKETS` (src/validate.h 115). -/
def BRACKETS : List Char := "()[]{}<>".toList

/-- `Random::string(n)`: the default argument (src/validate.h 1805). -/
def randomStringDefault (n : Int) : Rand (List Char) := randomString n LOWER

end ICPC
