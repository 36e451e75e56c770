import Verif.Spec.Command

/-!
# Settings from the command line
-/

namespace ICPC.Spec

/-- `v` is the argument after the first occurrence of `flag`. -/
def ValueOf (argv : List (List Char)) (flag v : List Char) : Prop := ∃ pre rest, argv = pre ++ flag :: v :: rest ∧ flag ∉ pre

/-- `new` is the value of the first flag of the list that has a value, and `old` if there is none. -/
def FirstValue {R : Type} (parse : List Char → Option R) (argv : List (List Char)) : List (List Char) → R → R → Prop
  | [], old, new => new = old
  | flag :: more, old, new =>
    (∃ v, ValueOf argv flag v ∧ parse v = some new) ∨ ((¬ ∃ v, ValueOf argv flag v) ∧ FirstValue parse argv more old new)

/-- The seed on the command line: the argument after `--seed`, an integer that fits in 64 bits. -/
def SeedIs (argv : List (List Char)) (readInt : List Char → Option Int) (x : Int) : Prop :=
  ∃ v, ValueOf argv "--seed".toList v ∧ ¬ IsCmd v ∧ readInt v = some x

end ICPC.Spec
