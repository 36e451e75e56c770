import Verif.Spec.RealText
import Verif.Model.RandGeo

/-!
# Successive values of `real()`
-/

namespace ICPC.Spec.Fp

/-- The values of `k` calls of `real()` on the words `ws`, and the words that are left. -/
inductive Draws : ℕ → List Nat → List ℚ → List Nat → Prop
  | nil (ws : List Nat) : Draws 0 ws [] ws
  | cons {k : ℕ} {ws ws' rest : List Nat} {x : ℚ} {xs : List ℚ} :
      realWords ws = some (x, ws') → Draws k ws' xs rest → Draws (k + 1) ws (x :: xs) rest

end ICPC.Spec.Fp
