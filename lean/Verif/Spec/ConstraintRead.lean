import Verif.Model.ConstraintRead
import Verif.Spec.Constraint
import Mathlib.Data.List.Forall2

/-!
# What reading with constraints should do
-/

namespace ICPC.Spec

variable {R : Type}

/-- The program that makes the same calls without constraints. -/
def without : LProg R → Prog R
  | .done r => .done r
  | .call c k => .call c fun v => without (k v)
  | .mention _ k => without k
  | .read (.string l u) _ k => .call (.tok (.stringBounded l u)) fun v => without (k v)
  | .read (.stringRe p l u) _ k => .call (.tok (.stringReBounded p l u)) fun v => without (k v)
  | .read (.integer l u) _ k => .call (.tok (.integerBounded l u)) fun v => without (k v)
  | .read (.real l u) _ k => .call (.tok (.realBounded l u)) fun v => without (k v)
  | .read (.realStrict l u mi ma) _ k => .call (.tok (.realStrict l u mi ma)) fun v => without (k v)
  | .readMany (.string l u) n sep _ k => .call (.many (.stringBounded l u) n sep) fun v => without (k v)
  | .readMany (.stringRe p l u) n sep _ k => .call (.many (.stringReBounded p l u) n sep) fun v => without (k v)
  | .readMany (.integer l u) n sep _ k => .call (.many (.integerBounded l u) n sep) fun v => without (k v)
  | .readMany (.real l u) n sep _ k => .call (.many (.realBounded l u) n sep) fun v => without (k v)
  | .readMany (.realStrict l u mi ma) n sep _ k => .call (.many (.realStrict l u mi ma) n sep) fun v => without (k v)

/-- What has to be logged for a value: the bounds of the call with the value, or with the length of a string. -/
def logged : BTok R → Val R → Option (Entry R)
  | .string lower upper, .str t => some (.container 0 lower upper t.length)
  | .stringRe _ lower upper, .str t => some (.container 0 lower upper t.length)
  | .integer lower upper, .int v => some (.int lower upper v)
  | .real lower upper, .real x => some (.real lower upper x)
  | .realStrict lower upper _ _, .real x => some (.real lower upper x)
  | _, _ => none

/-- The entries for the values of a call under a name. -/
def loggedAll (t : BTok R) (n : List Char) (vs : List (Val R)) : List (Event R) :=
  vs.filterMap fun v => (logged t v).map fun x => ⟨n, some x⟩

/-- The uses of names that belong to the values that a program got. -/
def events : LProg R → List (List (Val R)) → List (Event R)
  | .done _, _ => []
  | .mention n k, vs => ⟨n, none⟩ :: events k vs
  | .call _ _, [] => []
  | .call _ k, v :: vs => events (k v) vs
  | .read _ _ _, [] => []
  | .read t n k, v :: vs => ⟨n, none⟩ :: (loggedAll t n v ++ events (k v) vs)
  | .readMany _ _ _ _ _, [] => []
  | .readMany t _ _ n k, v :: vs => ⟨n, none⟩ :: (loggedAll t n v ++ events (k v) vs)

/-- The second program does the same as the first, but stops earlier (or not): before a call, after the name of the
constraint was looked up, or after some elements of a list. -/
inductive Trunc : LProg R → LProg R → Prop
  | stop (p) : Trunc p (.done (.ok ()))
  | done (r) : Trunc (.done r) (.done r)
  | call {c k k'} : (∀ v, Trunc (k v) (k' v)) → Trunc (.call c k) (.call c k')
  | mention {n k k'} : Trunc k k' → Trunc (.mention n k) (.mention n k')
  | read {t n k k'} : (∀ v, Trunc (k v) (k' v)) → Trunc (.read t n k) (.read t n k')
  | readMany {t m sep n k k'} : (∀ v, Trunc (k v) (k' v)) → Trunc (.readMany t m sep n k) (.readMany t m sep n k')
  | name (t n k) : Trunc (.read t n k) (.mention n (.done (.ok ())))
  | nameMany (t m sep n k) : Trunc (.readMany t m sep n k) (.mention n (.done (.ok ())))
  | part {t m m' sep n k} : 0 ≤ m' → m' ≤ m → Trunc (.readMany t m sep n k) (.readMany t m' sep n fun _ => .done (.ok ()))

/-- The lines for a history: one for each name under which something was logged, in order of the first use of the names. -/
def LinesFor [LinearOrder R] (hits : R → R → Prop) (print : R → List Char) (h : List (Event R)) (lines : List (List Char)) :
    Prop :=
  ∃ ns : List (List Char), ns.Nodup ∧ (∀ n, n ∈ ns ↔ entriesOf h n ≠ []) ∧
    ns.Pairwise (fun a b => (h.map Event.name).idxOf a < (h.map Event.name).idxOf b) ∧
    List.Forall₂ (LineFor hits print h) ns lines

/-- The program looks names up and logs without misuse, as far as it gets on the input. -/
def NoMisuse (cfg : StreamCfg) (ops : RealOps R) (p : LProg R) (s : List Char) : Prop :=
  ∀ q vs rest, Trunc p q → (without q).run cfg ops s = .ok (vs, rest) → Proper (events q vs)

end ICPC.Spec
