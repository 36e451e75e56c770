import Verif.Model.Constraint
import Verif.Spec.Stream
import Mathlib.Order.Bounds.Basic
import Mathlib.Order.Lattice

/-!
# What the constraint log should contain

Only the vocabulary of events (`Event`, `Entry`) is taken from the model.
-/

namespace ICPC.Spec

variable {R : Type}

/-- The integer entries under a name as (declared lower bound, largest allowed value, observed value); containers count
with their size. -/
def intEntry : Entry R → Option (Int × Int × Int)
  | .int lower upper value => some (lower, upper - 1, value)
  | .container _ lower upper size => some (lower, upper - 1, size)
  | .real _ _ _ => none

/-- The real entries. -/
def realEntry : Entry R → Option (R × R × R)
  | .real lower upper value => some (lower, upper, value)
  | _ => none

/-- All entries logged under a name. -/
def entriesOf (h : List (Event R)) (n : List Char) : List (Entry R) :=
  h.filterMap fun e => if e.name = n then e.entry else none

/-- `0` / `1`. -/
def Flag (p : Prop) (t : List Char) : Prop := (p ∧ t = ['1']) ∨ (¬ p ∧ t = ['0'])

/-- The six columns for a list of entries: were a lower and an upper bound attained, smallest and largest value,
smallest lower and largest upper bound. -/
def Columns {T : Type} [LinearOrder T] (hits : T → T → Prop) (print : T → List Char) (es : List (T × T × T))
    (text : List Char) : Prop :=
  ∃ f g vmin vmax lmin umax,
    text = f ++ [' '] ++ g ++ [' '] ++ print vmin ++ [' '] ++ print vmax ++ [' '] ++ print lmin ++ [' '] ++ print umax ∧
    Flag (∃ e ∈ es, hits e.2.2 e.1) f ∧ Flag (∃ e ∈ es, hits e.2.2 e.2.1) g ∧
    IsLeast {v | ∃ e ∈ es, v = e.2.2} vmin ∧ IsGreatest {v | ∃ e ∈ es, v = e.2.2} vmax ∧
    IsLeast {v | ∃ e ∈ es, v = e.1} lmin ∧ IsGreatest {v | ∃ e ∈ es, v = e.2.1} umax

/-- The line for a name. -/
def LineFor [LinearOrder R] (hits : R → R → Prop) (print : R → List Char) (h : List (Event R)) (n line : List Char) :
    Prop :=
  ∃ text, line = "LocationNotSupported:".toList ++ n ++ [' '] ++ n ++ [' '] ++ text ∧
    (((entriesOf h n).filterMap realEntry = [] ∧
        Columns (fun a b => a = b) decimal ((entriesOf h n).filterMap intEntry) text) ∨
      ((entriesOf h n).filterMap intEntry = [] ∧ Columns hits print ((entriesOf h n).filterMap realEntry) text))

/-- The type an entry is logged with. -/
inductive Kind where
  | integer
  | real
  | container (type : Nat)
  deriving DecidableEq

/-- The type an entry is logged with. -/
def kind : Entry R → Kind
  | .int _ _ _ => .integer
  | .real _ _ _ => .real
  | .container t _ _ _ => .container t

/-- Histories without misuse: names are tokens, no upper bound is the smallest integer, and the type of a name never
changes. -/
def Proper (h : List (Event R)) : Prop :=
  (∀ e ∈ h, e.name ≠ [] ∧ ∀ c ∈ e.name, ¬ White c) ∧
  (∀ e ∈ h, ∀ x, e.entry = some x → ∀ p, intEntry x = some p → -(2 ^ 63) ≤ p.2.1 ∧ p.2.1 < 2 ^ 63) ∧
  (∀ n, ∀ x ∈ entriesOf h n, ∀ y ∈ entriesOf h n, kind x = kind y)

/-- The operations behave like a linear order and a given relation. -/
structure GoodOps {T : Type} [LinearOrder T] (o : BoundOps T) (hits : T → T → Prop) : Prop where
  lt : ∀ a b, o.lt a b = true ↔ a < b
  hits : ∀ a b, o.hits a b = true ↔ hits a b

end ICPC.Spec
