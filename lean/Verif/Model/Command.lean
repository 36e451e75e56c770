import Verif.Model.Chars
import Verif.Model.Stream

/-!
# Command line arguments (src/validate.h 1923-2110)

`argv` is a list of strings (including the program name at position 0).  `int` and `Integer` counters are natural
numbers: `argc` is at most 2^31 - 1, so they cannot overflow.
-/

namespace ICPC

/-- `CommandParser::isCommand` (src/validate.h 2056-2058), `COMMAND_PREFIX` is `--` (line 136). -/
def isCommand (s : List Char) : Bool := decide (s.length > 2) && s.take 2 == ['-', '-']

/-- `CommandParser` (src/validate.h 2051-2054): the maps are association lists that are only searched. -/
structure CommandParser where
  raw : List (List Char)
  commands : List (List Char × Nat × Nat) := []
  tokens : List (List Char × Nat) := []

/-- `CommandParser::addCommand` (src/validate.h 2059-2062). -/
def addCommand (m : List (List Char × Nat × Nat)) (command : List Char) (first count : Nat) :
    Out (List (List Char × Nat × Nat)) := do
  judgeAssert (m.lookup command).isNone
  .ok (m ++ [(command, first, count)])

/-- `std::map::emplace`: does nothing if the key exists. -/
def emplaceToken (m : List (List Char × Nat)) (k : List Char) (v : Nat) : List (List Char × Nat) :=
  if (m.lookup k).isSome then m else m ++ [(k, v)]

/-- Loop of the constructor (src/validate.h 2071-2082) and the final `addCommand` (line 2083); `i` is the loop
counter. -/
def parserLoop : List (List Char) → Nat → List Char → Nat → Nat → List (List Char × Nat × Nat) →
    List (List Char × Nat) → Out (List (List Char × Nat × Nat) × List (List Char × Nat))
  | [], _, command, first, count, commands, tokens => do
    let commands ← addCommand commands command first count
    .ok (commands, tokens)
  | s :: rest, i, command, first, count, commands, tokens => do
    let tokens := emplaceToken tokens s (i + 1)
    if isCommand s then do
      let commands ← addCommand commands command first count
      parserLoop rest (i + 1) s (i + 1) 0 commands tokens
    else parserLoop rest (i + 1) command first (count + 1) commands tokens

/-- Constructor of `CommandParser` (src/validate.h 2066-2084), `EMPTY_COMMAND` is the empty string (line 135). -/
def parseArgs (argv : List (List Char)) : Out CommandParser := do
  let (commands, tokens) ← parserLoop argv 0 [] 0 0 [] []
  .ok { raw := argv, commands := commands, tokens := tokens }

/-- `Command` (src/validate.h 1978-1981). -/
structure Command where
  raw : List (List Char)
  first : Nat
  count : Nat
  found : Bool
  token : Option (List Char)

/-- The two constructors of `Command` (src/validate.h 2006-2012); `raw_[first_]` is out of bounds if there is no such
argument. -/
def Command.missing (raw : List (List Char)) : Command :=
  { raw := raw, first := 0, count := 0, found := false, token := none }

/-- The second constructor of `Command` (src/validate.h 2007-2012). -/
def Command.make (raw : List (List Char)) (first count : Nat) : Out Command :=
  if count = 0 then .ok { raw := raw, first := first, count := count, found := true, token := none }
  else match raw[first]? with
    | some t => .ok { raw := raw, first := first, count := count, found := true, token := some t }
    | none => .error .ub

/-- `CommandParser::operator[](std::string_view)` (src/validate.h 2095-2100). -/
def CommandParser.get (p : CommandParser) (command : List Char) : Out Command := do
  judgeAssert (isToken command)
  match p.commands.lookup command with
  | none => .ok (Command.missing p.raw)
  | some (first, count) => Command.make p.raw first count

/-- `CommandParser::getRaw(command)` (src/validate.h 2101-2106). -/
def CommandParser.getRaw (p : CommandParser) (command : List Char) : Out Command := do
  judgeAssert (isToken command)
  match p.tokens.lookup command with
  | none => .ok (Command.missing p.raw)
  | some first => Command.make p.raw first (p.raw.length - first)

/-- `Command::operator[]` (src/validate.h 2026-2029), the token of the parameter. -/
def Command.param (c : Command) (i : Int) : Out (Option (List Char)) :=
  if 0 ≤ i ∧ i < c.count then
    match c.raw[c.first + i.toNat]? with
    | some t => .ok (some t)
    | none => .error .ub
  else .ok none

/-- `Command::asStrings<-1>` (src/validate.h 1988-1996): all arguments. -/
def Command.asStrings (c : Command) : List (List Char) := (c.raw.drop c.first).take c.count

/-- `ParameterBase::asString(defaultValue)` (src/validate.h 1945-1947). -/
def asStringOr (token : Option (List Char)) (default : List Char) : List Char := token.getD default

/-- `ParameterBase::asInteger()` (src/validate.h 1949-1951); `std::optional::value` throws without a value. -/
def asInteger (token : Option (List Char)) : Out Int :=
  match token with
  | none => .error .throw
  | some t => match parseInteger t with
    | some v => .ok v
    | none => .error .throw

/-- `ParameterBase::asInteger(defaultValue)` (src/validate.h 1953-1955). -/
def asIntegerOr (token : Option (List Char)) (default : Int) : Out Int :=
  if token.isSome then asInteger token else .ok default

end ICPC
