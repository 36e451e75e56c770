import Verif.Model.Helpers
import Verif.Model.Output

/-!
# The objects made by `join` (src/validate.h 318-427)

`join` returns an object (`details::TempWriter`) that prints elements later. The memory is that of `Model/Helpers`; blocks are also used for arrays, for
the fields of tuples and for single variables. `pr` is the text of an element. `TempWriter::asString` and the conversion to `std::string` print to a
stream of their own and are not modelled separately. What is left in a container that is moved from is not described.
-/

namespace ICPC.Writer

open ICPC.Helpers

variable {α : Type}

/-- The closures in a `TempWriter`. -/
inductive TempWriter (α : Type) where
  /-- two iterators (or a view), captured by value -/
  | range (b i j : Nat) (sep : Char)
  /-- a container that owns its elements, captured by value -/
  | values (l : List α) (sep : Char)
  /-- a tuple with `n` fields in block `b`, captured by reference -/
  | tuple (b n : Nat) (sep : Char)
  /-- a tuple, captured by value -/
  | fields (l : List α) (sep : Char)
  /-- `JoinListCapture`: references to the arguments -/
  | refs (l : List (Nat × Nat)) (sep : Char)

/-- `join(first, last, separator)` (src/validate.h 362-367). -/
def joinIterators (b i j : Nat) (sep : Char) : TempWriter α := .range b i j sep

/-- `join(c, separator)` for containers (src/validate.h 369-386): lvalues are replaced by their iterators, rvalues are moved into the closure. A view that
is moved still refers to the same elements. -/
def joinContainer (rvalue : Bool) (m : Mem α) (a : Nat) (sep : Char) : Out (TempWriter α) := do
  let (b, i, j) ← bounds m a
  if rvalue then
    match m.obj a, m.heap b with
    | some (.vec _ _), some l => .ok (.values l sep)
    | _, _ => .ok (.range b i j sep)
  else .ok (joinIterators b i j sep)

/-- `join(c, separator)` for arrays other than those of characters (src/validate.h 369-386): the array in block `b`. -/
def joinArray (rvalue : Bool) (m : Mem α) (b : Nat) (sep : Char) : Out (TempWriter α) :=
  match m.heap b with
  | some l => .ok (if rvalue then .values l sep else joinIterators b 0 l.length sep)
  | none => .error .ub

/-- `join(c, separator)` for pairs, tuples and `std::array` (src/validate.h 388-399): the fields in block `b`. -/
def joinTupleLike (rvalue : Bool) (m : Mem α) (b : Nat) (sep : Char) : Out (TempWriter α) :=
  match m.heap b with
  | some l => .ok (if rvalue then .fields l sep else .tuple b l.length sep)
  | none => .error .ub

/-- `join(c, separator)` for arrays of characters (src/validate.h 401-415). -/
def joinChars (rvalue : Bool) (m : Mem α) (b : Nat) (sep : Char) : Out (TempWriter α) :=
  match m.heap b with
  | some l => .ok (if rvalue then .values l.dropLast sep else joinIterators b 0 (l.length - 1) sep)
  | none => .error .ub

/-- `join({...}, separator)` (src/validate.h 351-359, 423-427): the arguments are captured by `std::forward_as_tuple`, temporaries too. -/
def joinList (args : List (Nat × Nat)) (sep : Char) : TempWriter α := .refs args sep

/-- `OutputStream::join(first, last, separator)` (src/validate.h 302-308). -/
def printRange (pr : α → List Char) (m : Mem α) (b j : Nat) (sep : Char) : Nat → Nat → Bool → Out (List Char)
  | 0, _, _ => .error .fuel
  | fuel + 1, i, isFirst => do
    if ← differ m b i j then
      let x ← deref m b i
      let rest ← printRange pr m b j sep fuel (i + 1) false
      .ok ((if !isFirst && sep != NOSEP then [sep] else []) ++ pr x ++ rest)
    else .ok []

/-- The values behind references. -/
def derefAll (m : Mem α) : List (Nat × Nat) → Out (List α)
  | [] => .ok []
  | r :: l => do
    let x ← deref m r.1 r.2
    let xs ← derefAll m l
    .ok (x :: xs)

/-- `OutputStream << writer` (src/validate.h 343-346). -/
def print (pr : α → List Char) (fuel : Nat) (m : Mem α) : TempWriter α → Out (List Char)
  | .range b i j sep => printRange pr m b j sep fuel i true
  | .values l sep => .ok (joinRange sep (l.map pr))
  | .tuple b n sep => do
    let xs ← derefAll m ((List.range n).map fun k => (b, k))
    .ok (joinTuple sep (xs.map pr))
  | .fields l sep => .ok (joinTuple sep (l.map pr))
  | .refs args sep => do
    let xs ← derefAll m args
    .ok (joinTuple sep (xs.map pr))

end ICPC.Writer
