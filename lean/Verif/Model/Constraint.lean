import Verif.Model.Chars
import Verif.Model.Output

/-!
# Logging of constraints (src/validate.h 2115-2251)

Real numbers are an abstract type `R` with the operations of `BoundOps`.  The C++ types that occur as template
arguments are numbered: 0 is `Integer`, 1 is `Real`, all others are container types.
-/

namespace ICPC

/-- What `Bounds<T>` needs: the comparison used for the flags (src/validate.h 2130-2136), `operator<` (used by
`std::min` and `std::max`) and `operator<<` of an ostream. -/
structure BoundOps (T : Type) where
  hits : T → T → Bool
  lt : T → T → Bool
  print : T → List Char

/-- The operations for `Integer`. -/
def intBoundOps : BoundOps Int :=
  { hits := fun a b => a == b, lt := fun a b => decide (a < b), print := printInt }

/-- `std::min`. -/
def stdMin {T : Type} (o : BoundOps T) (a b : T) : T := if o.lt b a then b else a

/-- `std::max`. -/
def stdMax {T : Type} (o : BoundOps T) (a b : T) : T := if o.lt a b then b else a

/-- `Bounds<T>` (src/validate.h 2116-2119). -/
structure Bounds (T : Type) where
  hadMin : Bool
  hadMax : Bool
  min : T
  max : T
  lower : T
  upper : T

/-- `Bounds::update` (src/validate.h 2128-2140). -/
def Bounds.update {T : Type} (o : BoundOps T) (b : Bounds T) (lower upper value : T) : Bounds T :=
  { hadMin := b.hadMin || o.hits value lower
    hadMax := b.hadMax || o.hits value upper
    min := stdMin o b.min value
    max := stdMax o b.max value
    lower := stdMin o b.lower lower
    upper := stdMax o b.upper upper }

/-- Constructor of `Bounds` (src/validate.h 2121-2126). -/
def Bounds.make {T : Type} (o : BoundOps T) (lower upper value : T) : Bounds T :=
  Bounds.update o { hadMin := false, hadMax := false, min := value, max := value, lower := lower, upper := upper }
    lower upper value

/-- `bool` printed with `std::noboolalpha`. -/
def printBool (b : Bool) : List Char := if b then ['1'] else ['0']

/-- `operator<<` of `Bounds` (src/validate.h 2142-2146). -/
def Bounds.print {T : Type} (o : BoundOps T) (b : Bounds T) : List Char :=
  printBool b.hadMin ++ [' '] ++ printBool b.hadMax ++ [' '] ++ o.print b.min ++ [' '] ++ o.print b.max ++ [' '] ++
    o.print b.lower ++ [' '] ++ o.print b.upper

/-- The variant in `Constraint` (src/validate.h 2165-2169). -/
inductive AnyBound (R : Type) where
  | none
  | int (b : Bounds Int)
  | real (b : Bounds R)

/-- `Constraint` (src/validate.h 2163-2170). -/
structure Constraint (R : Type) where
  bound : AnyBound R := .none
  type : Option Nat := Option.none

/-- `Constraint::update<Integer, X>` (src/validate.h 2173-2183), `X` is the type with the given number; `std::get`
throws for the wrong alternative. -/
def Constraint.updateInt {R : Type} (X : Nat) (lower upper value : Int) (c : Constraint R) : Out (Constraint R) := do
  let upper ← chk (upper - 1)
  let c := if c.type.isNone then { bound := .int (Bounds.make intBoundOps lower upper value), type := some X } else c
  judgeAssert (decide (c.type = some X))
  match c.bound with
  | .int b => .ok { c with bound := .int (b.update intBoundOps lower upper value) }
  | _ => .error .throw

/-- `Constraint::update<Real>` (src/validate.h 2173-2183). -/
def Constraint.updateReal {R : Type} (o : BoundOps R) (lower upper value : R) (c : Constraint R) :
    Out (Constraint R) := do
  let c := if c.type.isNone then { bound := .real (Bounds.make o lower upper value), type := some 1 } else c
  judgeAssert (decide (c.type = some 1))
  match c.bound with
  | .real b => .ok { c with bound := .real (b.update o lower upper value) }
  | _ => .error .throw

/-- The three overloads of `Constraint::log` (src/validate.h 2192-2204); for containers the arguments are the number of
the container type and the size. -/
inductive Entry (R : Type) where
  | int (lower upper value : Int)
  | real (lower upper value : R)
  | container (type : Nat) (lower upper size : Int)

/-- `Constraint::log` (src/validate.h 2192-2204). -/
def Constraint.log {R : Type} (o : BoundOps R) (c : Constraint R) : Entry R → Out (Constraint R)
  | .int lower upper value => c.updateInt 0 lower upper value
  | .real lower upper value => c.updateReal o lower upper value
  | .container type lower upper size => c.updateInt (type + 2) lower upper size

/-- `ConstraintsLogger` (src/validate.h 2208-2211).  The map is a list of pairs in order of insertion; its own order
does not matter since `write` only stores the names at different positions of a vector. -/
structure Logger (R : Type) where
  byName : List (List Char × Nat) := []
  constraints : List (Constraint R) := []

/-- `ConstraintsLogger::operator[]` (src/validate.h 2222-2227): the new state and the position of the constraint. -/
def Logger.get {R : Type} (l : Logger R) (name : List Char) : Out (Logger R × Nat) := do
  judgeAssert (isToken name)
  match l.byName.lookup name with
  | some i => .ok (l, i)
  | none => .ok ({ byName := l.byName ++ [(name, l.constraints.length)], constraints := l.constraints ++ [{}] },
      l.constraints.length)

/-- What a validator does with the logger: `constraint[name]`, possibly followed by a call of `log`. -/
structure Event (R : Type) where
  name : List Char
  entry : Option (Entry R)

/-- One event. -/
def Logger.step {R : Type} (o : BoundOps R) (l : Logger R) (e : Event R) : Out (Logger R) := do
  let (l, i) ← l.get e.name
  match e.entry with
  | none => .ok l
  | some x =>
    match l.constraints[i]? with
    | none => .error .ub
    | some c => do
      let c ← c.log o x
      .ok { l with constraints := l.constraints.set i c }

/-- A whole history of events, starting with a fresh logger. -/
def Logger.run {R : Type} (o : BoundOps R) : Logger R → List (Event R) → Out (Logger R)
  | l, [] => .ok l
  | l, e :: es => do
    let l ← l.step o e
    l.run o es

/-- Lines 2241-2245 for one constraint (src/validate.h), without the end of the line; nothing if there is no type. -/
def Constraint.line {R : Type} (o : BoundOps R) (name : List Char) (c : Constraint R) : Option (List Char) :=
  if c.type.isSome then
    some ("LocationNotSupported:".toList ++ name ++ [' '] ++ name ++ [' '] ++
      match c.bound with
      | .none => []
      | .int b => b.print intBoundOps
      | .real b => b.print o)
  else none

/-- The names by position (src/validate.h 2235-2236). -/
def Logger.names {R : Type} (l : Logger R) : List (List Char) :=
  l.byName.foldl (fun names p => names.set p.2 p.1) (List.replicate l.byName.length [])

/-- `ConstraintsLogger::write` (src/validate.h 2229-2248): the lines of the file. -/
def Logger.lines {R : Type} (o : BoundOps R) (l : Logger R) : List (List Char) :=
  (l.names.zip l.constraints).filterMap fun p => p.2.line o p.1

end ICPC
