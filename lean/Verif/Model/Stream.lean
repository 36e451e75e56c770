import Verif.Model.Regex
import Verif.Model.Chars

/-!
# The input stream (src/validate.h 952-992, 2256-2722)

An input is the list of bytes that are still to be read; a read function returns its value and the rest of the
input.  The end of the list is the end of the file; the state bits of `std::istream` only repeat this information.
`InputStream::fail` (src/validate.h 2665-2722) prints a message about the position and ends the program with the exit
code of `onFail`; the message is in `Model/FailMessage`.  Numbers of type `Real` are of an arbitrary type with arbitrary
operations (`RealOps`).
-/

namespace ICPC

/-- `std::isspace` of the classic locale: space, `\t`, `\n`, `\v`, `\f`, `\r`. -/
def isSpaceC (c : Char) : Bool := c == ' ' || (decide (9 ≤ c.toNat) && decide (c.toNat ≤ 13))

/-- `std::isgraph` of the classic locale. -/
def isGraphC (c : Char) : Bool := decide (33 ≤ c.toNat) && decide (c.toNat ≤ 126)

/-- The fields of an `InputStream` (src/validate.h 2257-2263) and the compile time switch `DEFAULT_CASE_LOWER`. -/
structure StreamCfg where
  spaceSensitive : Bool
  caseSensitive : Bool
  defaultLower : Bool
  onFail : Nat

namespace Stream

variable (cfg : StreamCfg)

/-- `InputStream::fail` (src/validate.h 2665-2722), also `*out << onFail` (src/validate.h 206-209). -/
def fail {α : Type} : Out α := .error (.exit cfg.onFail)

/-- `*in >> std::ws`. -/
def skipWs (s : List Char) : List Char := s.dropWhile isSpaceC

/-- `InputStream::eof` (src/validate.h 2318-2326). -/
def eof (s : List Char) : Out (List Char) :=
  let s := if !cfg.spaceSensitive then skipWs s else s
  if s.isEmpty then .ok s else fail cfg

/-- `InputStream::noteof` (src/validate.h 2328-2334). -/
def noteof (s : List Char) : Out (List Char) :=
  let s := if !cfg.spaceSensitive then skipWs s else s
  if s.isEmpty then fail cfg else .ok s

/-- `in->get()` compared with a character (src/validate.h 2339, 2349). -/
def getExpect (c : Char) : List Char → Out (List Char)
  | [] => fail cfg
  | x :: s => if x ≠ c then fail cfg else .ok s

/-- `InputStream::space` (src/validate.h 2336-2344). -/
def space (s : List Char) : Out (List Char) :=
  if cfg.spaceSensitive then do
    let s ← noteof cfg s
    getExpect cfg ' ' s
  else .ok s

/-- `InputStream::newline` (src/validate.h 2346-2354). -/
def newline (s : List Char) : Out (List Char) :=
  if cfg.spaceSensitive then do
    let s ← noteof cfg s
    getExpect cfg '\n' s
  else .ok s

/-- `InputStream::checkSeparator` (src/validate.h 2364-2369): the call between two elements. -/
def checkSeparator (separator : Char) : Out (List Char → Out (List Char)) :=
  if separator = ' ' then .ok (space cfg)
  else if separator = '\n' then .ok (newline cfg)
  else .error .throw

/-- The first character is not admitted at the start of a token (src/validate.h 2384). -/
def badStart : List Char → Bool
  | [] => true
  | c :: _ => !isGraphC c

/-- `*in >> res` for a `std::string`: skips white space unless the stream has `noskipws` (src/validate.h 2265-2268),
then takes all characters up to the next white space. -/
def extract (s : List Char) : List Char × List Char :=
  let s := if cfg.spaceSensitive then s else skipWs s
  (s.takeWhile fun c => !isSpaceC c, s.dropWhile fun c => !isSpaceC c)

/-- `InputStream::string()` (src/validate.h 2382-2396). -/
def string (s : List Char) : Out (List Char × List Char) := do
  let s ← noteof cfg s
  if cfg.spaceSensitive && badStart s then fail cfg
  else
    let (res, rest) := extract cfg s
    if res.isEmpty then fail cfg
    else .ok (if !cfg.caseSensitive then toDefaultCaseS cfg.defaultLower res else res, rest)

/-- `InputStream::string(lower, upper)` (src/validate.h 2398-2406). -/
def stringBounded (lower upper : Int) (s : List Char) : Out (List Char × List Char) := do
  let (t, rest) ← string cfg s
  if (t.length : Int) < lower ∨ (t.length : Int) ≥ upper then fail cfg else .ok (t, rest)

/-- `InputStream::string(pattern)` (src/validate.h 2357-2362, 2414-2418). -/
def stringRe (pattern : Re) (s : List Char) : Out (List Char × List Char) := do
  let (t, rest) ← string cfg s
  if !pattern.matches t then fail cfg else .ok (t, rest)

/-- `InputStream::string(pattern, lower, upper)` (src/validate.h 2420-2424). -/
def stringReBounded (pattern : Re) (lower upper : Int) (s : List Char) : Out (List Char × List Char) := do
  let (t, rest) ← stringBounded cfg lower upper s
  if !pattern.matches t then fail cfg else .ok (t, rest)

/-- The loop of `strings`, `integers`, `reals` and `realsStrict` (src/validate.h 2432-2441, 2491-2500, 2539-2548,
2593-2602) with `n` elements to go. -/
def manyLoop {α : Type} (sep : List Char → Out (List Char)) (one : List Char → Out (α × List Char)) : Nat → List Char → Out (List α × List Char)
  | 0, s => .ok ([], s)
  | 1, s => do
    let (a, s) ← one s
    .ok ([a], s)
  | n + 2, s => do
    let (a, s) ← one s
    let s ← sep s
    let (as, s) ← manyLoop sep one (n + 1) s
    .ok (a :: as, s)

/-- `strings`, `integers`, `reals`, `realsStrict` (see `manyLoop`); a negative `count` makes the constructor of
`std::vector` throw. -/
def many {α : Type} (one : List Char → Out (α × List Char)) (count : Int) (separator : Char) (s : List Char) : Out (List α × List Char) := do
  let sep ← checkSeparator cfg separator
  if count < 0 then .error .throw else manyLoop sep one count.toNat s

end Stream

/-- The value of a digit. -/
def digitValue (c : Char) : Nat := c.toNat - 48

/-- The value of a sequence of digits, continuing from `acc`. -/
def digitsValue (acc : Nat) (ds : List Char) : Nat := ds.foldl (fun a c => 10 * a + digitValue c) acc

/-- The minus sign in front of a number. -/
def stripMinus : List Char → Bool × List Char
  | [] => (false, [])
  | c :: t => if c = '-' then (true, t) else (false, c :: t)

/-- `std::from_chars` for `Integer`: an optional minus sign and the longest sequence of digits; nothing if there is no
digit or the value is not representable.  Returns the value and the rest. -/
def fromChars (s : List Char) : Option (Int × List Char) :=
  let ds := (stripMinus s).2.takeWhile isDigitC
  let rest := (stripMinus s).2.dropWhile isDigitC
  if ds.isEmpty then none
  else
    let v : Int := if (stripMinus s).1 then -(digitsValue 0 ds : Int) else digitsValue 0 ds
    if I64 v then some (v, rest) else none

/-- `if (!s.empty() && s[0] == '+') begin++` (src/validate.h 956). -/
def stripPlus : List Char → List Char
  | [] => []
  | c :: t => if c = '+' then t else c :: t

/-- `details::parse<Integer>` (src/validate.h 952-959). -/
def parseInteger (s : List Char) : Option Int :=
  match fromChars (stripPlus s) with
  | some (v, []) => some v
  | _ => none

/-- `isInteger` (src/validate.h 980-985). -/
def isInteger (s : List Char) : Boolean Int :=
  if !INTEGER_REGEX.matches s then { value := false }
  else match parseInteger s with
    | none => { value := false }
    | some v => { value := true, reason := some v }

/-- The operations on `Real` that the stream uses: `details::parse<Real>` (src/validate.h 953-972), comparison with
tolerances (src/validate.h 898-917), and `<`. -/
structure RealOps (R : Type) where
  parse : List Char → Option R
  /-- `details::floatEqual(x, y, floatAbsTol, floatRelTol)` -/
  close : R → R → Bool
  isNaN : R → Bool
  le : R → R → Bool
  lt : R → R → Bool

namespace Stream

variable (cfg : StreamCfg)

/-- `InputStream::parse` (src/validate.h 2371-2379). -/
def parseToken {α : Type} (parse : List Char → Option α) (t rest : List Char) : Out (α × List Char) :=
  match parse t with
  | some v => .ok (v, rest)
  | none => fail cfg

/-- `InputStream::integer()` (src/validate.h 2472-2474). -/
def integer (s : List Char) : Out (Int × List Char) := do
  let (t, rest) ← stringRe cfg INTEGER_REGEX s
  parseToken cfg parseInteger t rest

/-- `InputStream::integer(lower, upper)` (src/validate.h 2476-2483). -/
def integerBounded (lower upper : Int) (s : List Char) : Out (Int × List Char) := do
  let (v, rest) ← integer cfg s
  if v < lower ∨ v ≥ upper then fail cfg else .ok (v, rest)

/-- `InputStream::real()` (src/validate.h 2518-2520). -/
def real {R : Type} (ops : RealOps R) (s : List Char) : Out (R × List Char) := do
  let (t, rest) ← stringRe cfg REAL_REGEX s
  parseToken cfg ops.parse t rest

/-- `InputStream::real(lower, upper)` (src/validate.h 2522-2531). -/
def realBounded {R : Type} (ops : RealOps R) (lower upper : R) (s : List Char) : Out (R × List Char) := do
  let (v, rest) ← real cfg ops s
  if ops.close v lower then .ok (v, rest)
  else if ops.close v upper then .ok (v, rest)
  else if ops.isNaN v || !ops.le lower v || !ops.lt v upper then fail cfg
  else .ok (v, rest)

/-- The number of characters after the first `.` (src/validate.h 2566-2567). -/
def decimals (t : List Char) : Nat :=
  match t.dropWhile (fun c => c != '.') with
  | [] => 0
  | _ :: ds => ds.length

/-- `InputStream::realStrict` (src/validate.h 2564-2585). -/
def realStrict {R : Type} (ops : RealOps R) (lower upper : R) (minDecimals maxDecimals : Int) (s : List Char) : Out (R × List Char) := do
  let (t, rest) ← stringRe cfg STRICT_REAL_REGEX s
  if (decimals t : Int) < minDecimals ∨ (decimals t : Int) ≥ maxDecimals then fail cfg
  else do
    let (v, rest) ← parseToken cfg ops.parse t rest
    if ops.isNaN v || !ops.le lower v || !ops.lt v upper then fail cfg
    else .ok (v, rest)

/-- `InputStream::expectString` (src/validate.h 2614-2642). -/
def expectString (expected : List Char) (s : List Char) : Out (List Char) := do
  judgeAssert (isToken expected)
  let (seen, rest) ← string cfg s
  if !(stringEqual cfg.defaultLower seen expected cfg.caseSensitive).value then fail cfg else .ok rest

/-- `InputStream::expectInt` (src/validate.h 2644-2650). -/
def expectInt (expected : Int) (s : List Char) : Out (List Char) := do
  let (seen, rest) ← integer cfg s
  if seen ≠ expected then fail cfg else .ok rest

/-- `InputStream::expectReal` (src/validate.h 2652-2663). -/
def expectReal {R : Type} (ops : RealOps R) (expected : R) (s : List Char) : Out (List Char) := do
  let (seen, rest) ← real cfg ops s
  if ops.close seen expected then fail cfg else .ok rest

end Stream

end ICPC
