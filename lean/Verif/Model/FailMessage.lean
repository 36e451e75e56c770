import Verif.Model.Stream

/-!
# The message of a failed input stream (src/validate.h 2665-2722)

The stream is seekable: `text` is the whole input and `originalPos` the number of characters that were consumed when the
stream failed.  What was written before (the reason) is not part of the message.  `tellg` fails once the end of the file was
met while reading, and sets the `failbit`.
-/

namespace ICPC.FailMessage

/-- The variables of the search (src/validate.h 2671-2675) and what is left of the input. -/
structure Search where
  line : Nat
  l : Nat
  r : Nat
  buffer : List Char
  extend : Bool
  rest : List Char

/-- `TEXT_ELLIPSIS` (src/validate.h 139). -/
def TEXT_ELLIPSIS : List Char := "[...]".toList

/-- The loop that finds the position (src/validate.h 2675-2698), with `todo` characters before `originalPos`.  Every iteration
consumes a character, so `originalPos` iterations suffice (first argument). -/
def search : Nat → Nat → Search → Search
  | 0, _, st => st
  | fuel + 1, todo, st =>
    if todo = 0 then st
    else match st.rest with
      | [] => st
      | c :: rest =>
        let l := st.buffer.length
        if isGraphC c then
          let tmp := (c :: rest).takeWhile fun c => !isSpaceC c
          let rest' := (c :: rest).dropWhile fun c => !isSpaceC c
          let buffer := st.buffer ++ tmp
          if rest'.isEmpty then { st with l := l, r := l, buffer := buffer, rest := [] }
          else search fuel (todo - tmp.length)
            { st with l := l, r := if todo ≤ tmp.length then buffer.length else l, buffer := buffer, rest := rest' }
        else if c = '\n' then
          if 1 < todo then search fuel (todo - 1) { st with line := st.line + 1, l := l, r := l, buffer := [], rest := rest }
          else { line := st.line + 1, l := l, r := l + 1, buffer := st.buffer ++ [' '], extend := false, rest := rest }
        else
          let buffer := st.buffer ++ [c]
          search fuel (todo - 1) { st with l := l, r := if todo ≤ 1 then buffer.length else l, buffer := buffer, rest := rest }

/-- The rest of the line (src/validate.h 2703-2705). -/
def extend (r : Nat) : List Char → List Char → List Char
  | [], buffer => buffer
  | c :: rest, buffer =>
    if (buffer.length < 80 ∨ buffer.length < r + 80) ∧ c ≠ '\n' then extend r rest (buffer ++ [c]) else buffer

/-- `std::string::substr(pos)`, which throws if `pos` is too large. -/
def substr (s : List Char) (pos : Nat) : Out (List Char) := if s.length < pos then .error .throw else .ok (s.drop pos)

/-- The beginning of the line is left out (src/validate.h 2707-2712). -/
def cutLeft (l r : Nat) (buffer : List Char) : Out (Nat × Nat × List Char) :=
  if r > 60 ∧ l > 20 then do
    let offset := min (l - 20) (r - 60)
    let s ← substr buffer (offset + TEXT_ELLIPSIS.length)
    .ok (l - offset, r - offset, TEXT_ELLIPSIS ++ s)
  else .ok (l, r, buffer)

/-- The end of the line is left out (src/validate.h 2713-2717). -/
def cutRight (r : Nat) (buffer : List Char) : Nat × List Char :=
  if buffer.length > 80 then
    let buffer := buffer.take (80 - TEXT_ELLIPSIS.length) ++ TEXT_ELLIPSIS
    (min r buffer.length, buffer)
  else (r, buffer)

/-- `std::string(r - l - 1, '~')`, which throws if the difference is negative. -/
def tildes (l r : Nat) : Out (List Char) := if r < l + 1 then .error .throw else .ok (List.replicate (r - l - 1) '~')

/-- `InputStream::fail` (src/validate.h 2665-2720): the text that is written before the program ends. -/
def message (text : List Char) (originalPos : Nat) : Out (List Char) :=
  let st := search originalPos originalPos { line := 1, l := 0, r := 0, buffer := [], extend := true, rest := text }
  if st.l ≠ st.r then do
    let head := " Line: ".toList ++ Nat.toDigits 10 st.line ++ ", Char: ".toList ++ Nat.toDigits 10 st.l ++ ['\n']
    let buffer := if st.extend then extend st.r st.rest st.buffer else st.buffer
    let (l, r, buffer) ← cutLeft st.l st.r buffer
    let (r, buffer) := cutRight r buffer
    let t ← tildes l r
    .ok (head ++ buffer ++ ['\n'] ++ List.replicate l ' ' ++ '^' :: t)
  else .ok []

end ICPC.FailMessage
