import Verif.Model.Stream
import Verif.Model.Output

/-!
# Multipass problems (src/validate.h 2961-3009)

A directory is a map from file names to contents.  Opening the files is assumed to succeed if they exist (or are opened
for writing); what is written to `nextstate` is complete when the process ends.  `nextpass` and the exit code are not
part of the state that is handed over and not modelled.
-/

namespace ICPC

/-- The feedback directory `arguments[3]`: file name to content. -/
abbrev Dir := String → Option (List Char)

/-- Replacing (or removing) one file. -/
def Dir.put (d : Dir) (name : String) (content : Option (List Char)) : Dir := fun n => if n = name then content else d n

/-- `std::istream >> Integer` (line 2979): leading white space, an optional sign, digits.  A failed extraction stores 0
(or a limit, if the number is too large; here also 0, this file never contains such a number). -/
def readPass (content : List Char) : Int :=
  match fromChars (stripPlus (Stream.skipWs content)) with
  | some (v, _) => v
  | none => 0

/-- The globals of `Multipass` after `init`: the number of the pass, the file behind `prevstate` (if it was opened) and
the file behind `nextstate`. -/
structure Session where
  pass : Int
  prev : Option String
  next : String

/-- `Multipass::init` (src/validate.h 2972-2996). -/
def multipassInit (d : Dir) : Out (Session × Dir) := do
  let s ← (match d ".pass" with
    | some content => do
      let pass ← chk (readPass content + 1)
      -- `(pass & 1) != 0`
      let (next, prev) := if pass % 2 ≠ 0 then (".state1", ".state0") else (".state0", ".state1")
      judgeAssert (d prev).isSome
      .ok { pass := pass, prev := some prev, next := next }
    | none => .ok { pass := 0, prev := none, next := ".state0" } : Out Session)
  -- the old file is removed, then opened (and thus created) for writing; `.pass` is overwritten
  let d := (d.put s.next none).put s.next (some [])
  .ok (s, d.put ".pass" (some (printInt s.pass)))

/-- Writing to `nextstate`. -/
def Session.write (s : Session) (d : Dir) (text : List Char) : Dir := d.put s.next ((d s.next).map (· ++ text))

/-- The content of `prevstate`; an uninitialised stream throws (src/validate.h 2270-2272). -/
def Session.read (s : Session) (d : Dir) : Out (List Char) :=
  match s.prev with
  | none => .error .throw
  | some f => match d f with
    | some t => .ok t
    | none => .error .throw

/-- A run of all passes, in which pass `k` writes the pieces `ws[k]`. -/
def multipassRun : Dir → List (List (List Char)) → Out Dir
  | d, [] => .ok d
  | d, w :: ws => do
    let (s, d) ← multipassInit d
    multipassRun (w.foldl s.write d) ws

end ICPC
