import Verif.Model.Lifetime

/-!
# Which programs use the image of a visualizer for drawing only, and what they draw (C107)
-/

namespace ICPC.Spec

open Life

variable {P : Type}

/-- `image` (address 0) is only drawn to or written, and other images have other files than `p`. -/
def Tidy (p : Life.Path) : Act P → Prop
  | .make x name => x ≠ 0 ∧ name ≠ some p
  | .copy x y => x ≠ 0 ∧ y ≠ 0
  | .assign x y => x ≠ 0 ∧ y ≠ 0
  | .move x y junk _ => x ≠ 0 ∧ y ≠ 0 ∧ junk ≠ p
  | .edit _ _ => True
  | .write _ => True
  | .drop x => x ≠ 0

/-- What is drawn to `image`, one after the other. -/
def drawn : List (Act P) → P → Out P
  | [], q => .ok q
  | .edit x f :: l, q => if x = 0 then f q >>= drawn l else drawn l q
  | _ :: l, q => drawn l q

/-- The names that images get in an action. -/
def named : Act P → List Life.Path
  | .make _ (some n) => [n]
  | .move _ _ junk _ => [junk]
  | _ => []

end ICPC.Spec
