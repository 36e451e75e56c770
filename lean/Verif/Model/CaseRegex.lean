import Verif.Model.Examples

/-!
# `caseSensitive.regex` (src/validate.h 2779-2790) and the example that uses it (example/outputValidator2.cpp)

`Pattern` is a regular expression after parsing: single characters, ranges, concatenation, alternatives and repetition. Negated classes, back references
and assertions are left out. With `icase` a character is compared in lower case, and a range contains a character if it contains its lower or its upper
case version.
-/

namespace ICPC

/-- Regular expressions as given to `std::regex`. -/
inductive Pattern where
  | empty
  | lit (c : Char)
  | range (a b : Char)
  | alt (p q : Pattern)
  | cat (p q : Pattern)
  | star (p : Pattern)

namespace Pattern

/-- `std::regex(p, f)` where `f` contains `icase` or not. -/
def compile (icase : Bool) : Pattern → Re
  | empty => .eps
  | lit c => .chr fun x => if icase then toLowerC x == toLowerC c else x == c
  | range a b => .chr fun x =>
    if icase then decide (a ≤ toLowerC x ∧ toLowerC x ≤ b) || decide (a ≤ toUpperC x ∧ toUpperC x ≤ b) else decide (a ≤ x ∧ x ≤ b)
  | alt p q => .alt (p.compile icase) (q.compile icase)
  | cat p q => .cat (p.compile icase) (q.compile icase)
  | star p => .star (p.compile icase)

/-- The pattern that is a word. -/
def word : List Char → Pattern
  | [] => empty
  | c :: w => cat (lit c) (word w)

end Pattern

/-- `SettingCaseSensitive::regex` (src/validate.h 2786-2789). -/
def settingRegex (caseSensitive : Bool) (p : Pattern) : Re := p.compile (!caseSensitive)

namespace Examples

open GraphIO (AC WA FAIL verdict)

def yes : List Char := "Yes".toList
def no : List Char := "No".toList

/-- `verify` (example/outputValidator2.cpp 11-13). -/
def verify (n : Int) : Bool := n == 6

/-- `caseSensitive.regex("Yes|No")` (example/outputValidator2.cpp 18). -/
def options (caseSensitive : Bool) : Re := settingRegex caseSensitive (.alt (.word yes) (.word no))

/-- The solution of the jury (example/outputValidator2.cpp 24-27). -/
def jurySolution (cfg : StreamCfg) (jury : List Char) : Out (List Char) := do
  let (n, jury) ← Stream.integer cfg jury
  if !verify n then .error (.exit FAIL) else .ok jury

/-- The solution of the team, which is read from `juryAns` (example/outputValidator2.cpp 31-35). -/
def teamSolution (juryCfg teamCfg : StreamCfg) (jury team : List Char) : Out (List Char) := do
  let (n, _) ← Stream.integer juryCfg jury
  let team ← Stream.newline teamCfg team
  if !verify n then .error (.exit WA) else .ok team

/-- example/outputValidator2.cpp 15-49 after `init`, with the semicolon that is missing in line 44. All streams and comparisons use the setting
`caseSensitive`, which is that of `juryAns`. -/
def outputValidator2 (juryCfg teamCfg : StreamCfg) (jury team : List Char) : Out Unit := do
  let same := fun a b => (stringEqual juryCfg.defaultLower a b juryCfg.caseSensitive).value
  let (j, jury) ← Stream.stringRe juryCfg (options juryCfg.caseSensitive) jury
  let (t, team) ← Stream.stringRe teamCfg (options juryCfg.caseSensitive) team
  let team ← Stream.newline teamCfg team
  let jury ← (if same j yes then jurySolution juryCfg jury else .ok jury)
  let team ← (if same t yes then teamSolution juryCfg teamCfg jury team else .ok team)
  let _ ← Stream.eof teamCfg team
  if same j t then verdict AC
  else if same t yes then verdict FAIL
  else if same j yes then verdict WA
  else verdict FAIL

end Examples

end ICPC
