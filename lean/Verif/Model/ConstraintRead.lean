import Verif.Model.Constraint
import Verif.Model.Validator

/-!
# Reading with constraints (src/validate.h 2408-2412, 2426-2430, 2452-2455, 2467-2470, 2485-2489, 2511-2514, 2533-2537,
2559-2562, 2587-2591, 2609-2612)

The state is the `ConstraintsLogger` of the validator, a global variable (src/validate.h 2860).  Unlike the input it is
still needed when the program ends with a verdict, since `std::exit` runs its destructor.
-/

namespace ICPC

/-- The read functions with a parameter of type `Constraint&` that read one token. -/
inductive BTok (R : Type) where
  /-- src/validate.h 2408-2412 -/
  | string (lower upper : Int)
  /-- src/validate.h 2426-2430 -/
  | stringRe (pattern : Re) (lower upper : Int)
  /-- src/validate.h 2485-2489 -/
  | integer (lower upper : Int)
  /-- src/validate.h 2533-2537 -/
  | real (lower upper : R)
  /-- src/validate.h 2587-2591 -/
  | realStrict (lower upper : R) (minDecimals maxDecimals : Int)

/-- The function that is called to get the value (src/validate.h 2409, 2427, 2486, 2534, 2588). -/
def BTok.tok {R : Type} : BTok R → Tok R
  | .string l u => .stringBounded l u
  | .stringRe p l u => .stringReBounded p l u
  | .integer l u => .integerBounded l u
  | .real l u => .realBounded l u
  | .realStrict l u mi ma => .realStrict l u mi ma

/-- The arguments of `constraint.log` (src/validate.h 2410, 2428, 2487, 2535, 2589); `std::string` is the container type
number 0.  The value always has the type of the function. -/
def BTok.entry {R : Type} : BTok R → Val R → Option (Entry R)
  | .string l u, .str t => some (.container 0 l u t.length)
  | .stringRe _ l u, .str t => some (.container 0 l u t.length)
  | .integer l u, .int v => some (.int l u v)
  | .real l u, .real x => some (.real l u x)
  | .realStrict l u _ _, .real x => some (.real l u x)
  | _, _ => none

/-- A computation that may log; the log is kept however it ends. -/
abbrev LogM (R α : Type) := Logger R → Out α × Logger R

/-- Sequence of two computations. -/
def LogM.bind {R α β : Type} (x : LogM R α) (f : α → LogM R β) : LogM R β := fun l =>
  match x l with
  | (.ok a, l) => f a l
  | (.error e, l) => (.error e, l)

/-- A computation that does not log. -/
def LogM.lift {R α : Type} (x : Out α) : LogM R α := fun l => (x, l)

/-- `constraint[name]` and `constraint[name].log(...)`; if this throws, the log is taken to be unchanged. -/
def LogM.log {R : Type} (o : BoundOps R) (e : Event R) : LogM R Unit := fun l =>
  match l.step o e with
  | .ok l => (.ok (), l)
  | .error s => (.error s, l)

/-- The function reads a token and logs it (src/validate.h 2408-2412 and the others). -/
def BTok.run {R : Type} (cfg : StreamCfg) (ops : RealOps R) (o : BoundOps R) (t : BTok R) (name : List Char) (s : List Char) :
    LogM R (Val R × List Char) :=
  (LogM.lift (t.tok.run cfg ops s)).bind fun x =>
    match t.entry x.1 with
    | none => LogM.lift (.ok x)
    | some e => (LogM.log o ⟨name, some e⟩).bind fun _ => LogM.lift (.ok x)

/-- The loop of `strings`, `integers`, `reals` and `realsStrict` (src/validate.h 2432-2441, 2491-2500, 2539-2548,
2593-2602) with a constraint among the arguments and with `n` elements to go. -/
def LogM.manyLoop {R α : Type} (sep : List Char → Out (List Char)) (one : List Char → LogM R (α × List Char)) :
    Nat → List Char → LogM R (List α × List Char)
  | 0, s => LogM.lift (.ok ([], s))
  | 1, s => (one s).bind fun x => LogM.lift (.ok ([x.1], x.2))
  | n + 2, s => (one s).bind fun x => (LogM.lift (sep x.2)).bind fun s =>
      (LogM.manyLoop sep one (n + 1) s).bind fun y => LogM.lift (.ok (x.1 :: y.1, y.2))

/-- `strings`, `integers`, `reals`, `realsStrict` with a constraint (src/validate.h 2452-2455, 2467-2470, 2511-2514,
2559-2562, 2609-2612). -/
def BTok.many {R : Type} (cfg : StreamCfg) (ops : RealOps R) (o : BoundOps R) (t : BTok R) (count : Int) (separator : Char)
    (name : List Char) (s : List Char) : LogM R (List (Val R) × List Char) :=
  (LogM.lift (Stream.checkSeparator cfg separator)).bind fun sep =>
    if count < 0 then LogM.lift (.error .throw) else LogM.manyLoop sep (t.run cfg ops o name) count.toNat s

/-- A program that reads the input and uses constraints.  A reference `Constraint&` that is kept for later is the same
as another use of the name, since the constraints stay where they are (src/validate.h 2211, 2225). -/
inductive LProg (R : Type) where
  | done (result : Out Unit)
  /-- A call without constraint. -/
  | call (c : Call R) (k : List (Val R) → LProg R)
  /-- `constraint[name]`, evaluated before the call in which the constraint is used (src/validate.h 2222-2227). -/
  | mention (name : List Char) (k : LProg R)
  /-- A call with the argument `constraint[name]`. -/
  | read (t : BTok R) (name : List Char) (k : List (Val R) → LProg R)
  | readMany (t : BTok R) (count : Int) (separator : Char) (name : List Char) (k : List (Val R) → LProg R)

/-- Running a program: the values returned by its calls, in order, the rest of the input, and the log. -/
def LProg.run {R : Type} (cfg : StreamCfg) (ops : RealOps R) (o : BoundOps R) :
    LProg R → List Char → LogM R (List (List (Val R)) × List Char)
  | .done r, s => (LogM.lift r).bind fun _ => LogM.lift (.ok ([], s))
  | .call c k, s => (LogM.lift (c.run cfg ops s)).bind fun x =>
      ((k x.1).run cfg ops o x.2).bind fun y => LogM.lift (.ok (x.1 :: y.1, y.2))
  | .mention n k, s => (LogM.log o ⟨n, none⟩).bind fun _ => k.run cfg ops o s
  | .read t n k, s => (LogM.log o ⟨n, none⟩).bind fun _ => (t.run cfg ops o n s).bind fun x =>
      ((k [x.1]).run cfg ops o x.2).bind fun y => LogM.lift (.ok ([x.1] :: y.1, y.2))
  | .readMany t m sep n k, s => (LogM.log o ⟨n, none⟩).bind fun _ => (t.many cfg ops o m sep n s).bind fun x =>
      ((k x.1).run cfg ops o x.2).bind fun y => LogM.lift (.ok (x.1 :: y.1, y.2))

/-- `~ConstraintsLogger` (src/validate.h 2229-2250, file name given): the lines of the file when the program returns from
`main` or calls `std::exit` (src/validate.h 85-89); nothing is written when it ends by an exception. -/
def constraintsFile {R α : Type} (o : BoundOps R) : Out α × Logger R → Option (List (List Char))
  | (.ok _, l) => some (l.lines o)
  | (.error (.exit _), l) => some (l.lines o)
  | (.error _, _) => none

end ICPC
