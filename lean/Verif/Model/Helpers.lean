import Verif.Model.Basic
import Mathlib.Logic.Function.Basic

/-!
# Helpers for containers (src/validate.h 433-532)

`append` and `asFunction` are about objects and references to them, so the containers are `std::vector`s in a memory of
blocks: an object has an address, a vector owns one block, and growing beyond the capacity moves the elements to a new
block and frees the old one.  A view (`std::span`, `std::string_view`) refers to a part of a block it does not own.
Simplified: one type of elements; constructing and copying elements cannot fail; allocation always succeeds.
-/

namespace ICPC.Helpers

/-- What is stored at an address: a vector with its block and capacity, or a view with block, offset and length. -/
inductive Obj where
  | vec (block cap : Nat)
  | view (block off len : Nat)
  deriving DecidableEq

/-- Blocks that are allocated have a list of constructed elements; blocks from `next` on were never allocated. -/
structure Mem (α : Type) where
  heap : Nat → Option (List α)
  next : Nat
  obj : Nat → Option Obj

variable {α : Type}

/-- `*it` for an iterator to element `i` of block `b`. -/
def deref (m : Mem α) (b i : Nat) : Out α :=
  match m.heap b with
  | some l => match l[i]? with
    | some x => .ok x
    | none => .error .ub
  | none => .error .ub

/-- `it != end`: iterators into a freed block are invalid, also for comparisons. -/
def differ (m : Mem α) (b i j : Nat) : Out Bool :=
  match m.heap b with
  | some _ => .ok (decide (i ≠ j))
  | none => .error .ub

/-- `c1.emplace(c1.end(), e)` for the vector at address `a`; `grow` is the new capacity, which the library chooses. -/
def emplaceEnd (grow : Nat → Nat) (m : Mem α) (a : Nat) (e : α) : Out (Mem α) :=
  match m.obj a with
  | some (.vec b cap) =>
    match m.heap b with
    | some l =>
      if l.length < cap then .ok { m with heap := Function.update m.heap b (some (l ++ [e])) }
      else .ok {
        heap := Function.update (Function.update m.heap b none) m.next (some (l ++ [e]))
        next := m.next + 1
        obj := Function.update m.obj a (some (.vec m.next (grow cap))) }
    | none => .error .ub
  | _ => .error .ub

/-- `begin()` and `end()`: block, first index, index behind the last element. -/
def bounds (m : Mem α) (a : Nat) : Out (Nat × Nat × Nat) :=
  match m.obj a with
  | some (.vec b _) => match m.heap b with
    | some l => .ok (b, 0, l.length)
    | none => .error .ub
  | some (.view b off len) => match m.heap b with
    | some _ => .ok (b, off, off + len)
    | none => .error .ub
  | none => .error .ub

/-- `for (auto&& e : c2) c1.emplace(c1.end(), e);`: the bounds are taken once; `fuel` bounds the number of iterations. -/
def appendLoop (grow : Nat → Nat) (a b stop : Nat) : Nat → Nat → Mem α → Out (Mem α)
  | 0, _, _ => .error .fuel
  | fuel + 1, i, m => do
    if ← differ m b i stop then
      let e ← deref m b i
      let m ← emplaceEnd grow m a e
      appendLoop grow a b stop fuel (i + 1) m
    else .ok m

/-- `append(c1, c2)` (src/validate.h 452-463) for the objects at the addresses `a1` and `a2`. -/
def append (grow : Nat → Nat) (fuel : Nat) (a1 a2 : Nat) (m : Mem α) : Out (Mem α) := do
  if a1 ≠ a2 then
    let (b, i, j) ← bounds m a2
    appendLoop grow a1 b j fuel i m
  else
    let (b, i, j) ← bounds m a2
    match m.heap b with
    | some l =>
      -- `C2 tmp = c2;`
      let tmp := m.next
      let m := { m with heap := Function.update m.heap tmp (some ((l.take j).drop i)), next := m.next + 1 }
      let m ← appendLoop grow a1 tmp (j - i) fuel 0 m
      -- `tmp` is destroyed
      .ok { m with heap := Function.update m.heap tmp none }
    | none => .error .ub

/-- `append(c1, c2)` for an array `c2` (src/validate.h 465-468); an array is none of the vectors. -/
def appendArray (grow : Nat → Nat) (a : Nat) : List α → Mem α → Out (Mem α)
  | [], m => .ok m
  | e :: l, m => do
    let m ← emplaceEnd grow m a e
    appendArray grow a l m

/-- The result of `asFunction`: a copy of the elements, or a reference. -/
inductive Fun (α : Type) where
  | copy (l : List α)
  | ref (a : Nat)

/-- `c[i]` for the object at address `a`. -/
def index (m : Mem α) (a i : Nat) : Out α := do
  let (b, lo, hi) ← bounds m a
  if lo + i < hi then deref m b (lo + i) else .error .ub

/-- `asFunction(c)` (src/validate.h 470-477): rvalues are captured by copy, lvalues by reference. -/
def asFunction (rvalue : Bool) (m : Mem α) (a : Nat) : Out (Fun α) := do
  if rvalue then
    let (b, lo, hi) ← bounds m a
    match m.heap b with
    | some l => .ok (.copy ((l.take hi).drop lo))
    | none => .error .ub
  else .ok (.ref a)

/-- `asFunction({...})` (src/validate.h 479-483). -/
def asFunctionList (l : List α) : Fun α := .copy l

/-- A call of the function. -/
def Fun.call (m : Mem α) : Fun α → Nat → Out α
  | .copy l, i => match l[i]? with
    | some x => .ok x
    | none => .error .ub
  | .ref a, i => index m a i

/-- `shorter` and `longer` (src/validate.h 484-496). -/
def shorter (a b : List α) : Bool := decide (a.length < b.length)
@[inherit_doc shorter] def longer (a b : List α) : Bool := decide (b.length < a.length)

/-- The type of containers nested `d` times. -/
def Nested (α : Type) : Nat → Type
  | 0 => α
  | d + 1 => List (Nested α d)

/-- `details::flatAppend` (src/validate.h 505-520): elements of the wanted type are appended, containers are descended. -/
def flatAppend : (d : Nat) → Nested α d → List α → List α
  | 0, (c : α), res => res ++ [c]
  | d + 1, c, res => List.foldl (fun r v => flatAppend d v r) res c

/-- `flatten<R>(c)` (src/validate.h 523-528); the depth is the one of the type of `c` above `R`. -/
def flatten (d : Nat) (c : Nested α d) : List α := flatAppend d c []

/-- `details::invertCompare` (src/validate.h 435-440). -/
def invertCompare (less : α → α → Bool) (a b : α) : Bool := less b a

/-- A use of `std::priority_queue<T, std::vector<T>, Compare>`: `top` is the choice of the library; all elements are
taken out by `top` and `pop`. -/
def drain [DecidableEq α] (top : (α → α → Bool) → List α → α) (less : α → α → Bool) : Nat → List α → List α
  | 0, _ => []
  | n + 1, l => top less l :: drain top less n (l.erase (top less l))

/-- All elements of a `MaxPQ` (src/validate.h 444-445). -/
def drainMax [DecidableEq α] (top : (α → α → Bool) → List α → α) (less : α → α → Bool) (l : List α) : List α :=
  drain top less l.length l

/-- All elements of a `MinPQ` (src/validate.h 442-443). -/
def drainMin [DecidableEq α] (top : (α → α → Bool) → List α → α) (less : α → α → Bool) (l : List α) : List α :=
  drain top (invertCompare less) l.length l

end ICPC.Helpers
