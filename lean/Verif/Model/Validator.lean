import Verif.Model.Stream

/-!
# Validators: programs that read an input stream

A validator is a C++ function that calls the read functions of `InputStream` and may use the values it got to decide
how to go on.  `Prog` is the type of all such programs: after each call the rest of the program is a function of the
values returned so far.
-/

namespace ICPC

/-- The values returned by the read functions. -/
inductive Val (R : Type) where
  | str (t : List Char)
  | int (v : Int)
  | real (x : R)

/-- The read functions that read one token (src/validate.h 2382-2424, 2472-2483, 2518-2531, 2564-2585). -/
inductive Tok (R : Type) where
  | string
  | stringBounded (lower upper : Int)
  | stringRe (pattern : Re)
  | stringReBounded (pattern : Re) (lower upper : Int)
  | integer
  | integerBounded (lower upper : Int)
  | real
  | realBounded (lower upper : R)
  | realStrict (lower upper : R) (minDecimals maxDecimals : Int)

/-- A return value as `Val`. -/
def wrap {α R : Type} (f : α → Val R) (x : Out (α × List Char)) : Out (Val R × List Char) := do
  let (a, rest) ← x
  .ok (f a, rest)

/-- Running a function that reads one token. -/
def Tok.run {R : Type} (cfg : StreamCfg) (ops : RealOps R) : Tok R → List Char → Out (Val R × List Char)
  | .string, s => wrap .str (Stream.string cfg s)
  | .stringBounded l u, s => wrap .str (Stream.stringBounded cfg l u s)
  | .stringRe p, s => wrap .str (Stream.stringRe cfg p s)
  | .stringReBounded p l u, s => wrap .str (Stream.stringReBounded cfg p l u s)
  | .integer, s => wrap .int (Stream.integer cfg s)
  | .integerBounded l u, s => wrap .int (Stream.integerBounded cfg l u s)
  | .real, s => wrap .real (Stream.real cfg ops s)
  | .realBounded l u, s => wrap .real (Stream.realBounded cfg ops l u s)
  | .realStrict l u mi ma, s => wrap .real (Stream.realStrict cfg ops l u mi ma s)

/-- The functions of `InputStream` (src/validate.h 2318-2663). -/
inductive Call (R : Type) where
  | tok (t : Tok R)
  /-- `strings`, `integers`, `reals`, `realsStrict` -/
  | many (t : Tok R) (count : Int) (separator : Char)
  | expectString (expected : List Char)
  | expectInt (expected : Int)
  | expectReal (expected : R)
  | space
  | newline
  | eof

/-- No return value. -/
def noVal {R : Type} (x : Out (List Char)) : Out (List (Val R) × List Char) := do
  let rest ← x
  .ok ([], rest)

/-- Running a function of `InputStream`; the values it returns and the rest of the input. -/
def Call.run {R : Type} (cfg : StreamCfg) (ops : RealOps R) : Call R → List Char → Out (List (Val R) × List Char)
  | .tok t, s => do
    let (v, rest) ← t.run cfg ops s
    .ok ([v], rest)
  | .many t n sep, s => Stream.many cfg (t.run cfg ops) n sep s
  | .expectString e, s => noVal (Stream.expectString cfg e s)
  | .expectInt e, s => noVal (Stream.expectInt cfg e s)
  | .expectReal e, s => noVal (Stream.expectReal cfg ops e s)
  | .space, s => noVal (Stream.space cfg s)
  | .newline, s => noVal (Stream.newline cfg s)
  | .eof, s => noVal (Stream.eof cfg s)

/-- A program that reads the input. -/
inductive Prog (R : Type) where
  /-- The program ends by itself: normally or with a verdict of its own. -/
  | done (result : Out Unit)
  | call (c : Call R) (k : List (Val R) → Prog R)

/-- Running a program: the values returned by its calls, in order, and the rest of the input. -/
def Prog.run {R : Type} (cfg : StreamCfg) (ops : RealOps R) : Prog R → List Char → Out (List (List (Val R)) × List Char)
  | .done r, s => do
    let _ ← r
    .ok ([], s)
  | .call c k, s => do
    let (v, s) ← c.run cfg ops s
    let (vs, s) ← (k v).run cfg ops s
    .ok (v :: vs, s)

end ICPC
