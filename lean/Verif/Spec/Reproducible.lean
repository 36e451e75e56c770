import Verif.Spec.Convex
import Verif.Model.Rand
import Mathlib.Data.List.Rotate

/-!
# The same random program on two machines
-/

namespace ICPC.Spec

/-- For the same words of the engine the two programs end with the same result and use the same number of words, the first
on a compiler with `__int128`, the second on one without. -/
def SameRuns {α : Type} (r r' : Rand α) : Prop :=
  ∀ words : List Nat, (∀ w ∈ words, w < 2 ^ 64) → r.run true words = r'.run false words

/-- The vectors from the corners of a closed polygon to the next ones. -/
def edges (pts : List (Int × Int)) : List (Int × Int) :=
  List.zipWith (fun q p => (q.1 - p.1, q.2 - p.2)) (pts.rotate 1) pts

example : edges [(0, 0), (5, 1), (2, 7)] = [(5, 1), (-3, 6), (-2, -7)] := by decide

end ICPC.Spec
