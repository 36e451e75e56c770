import Mathlib.Data.Int.ModEq
import Mathlib.Data.Nat.Prime.Basic

/-!
# Specifications for the number utilities.
-/

namespace ICPC.Spec

/-- The Thue-Morse sequence by its defining recursion `t(0)=0, t(2n)=t(n), t(2n+1)=1-t(n)`. -/
def thueMorseBit (n : Nat) : Nat :=
  if n = 0 then 0 else if n % 2 = 0 then thueMorseBit (n / 2) else 1 - thueMorseBit (n / 2)
termination_by n
decreasing_by all_goals omega

/-- `xs` is the arithmetic progression `a, a+d, a+2d, ...` -/
def IsProgression (a d : Int) (xs : List Int) : Prop :=
  ∀ i (h : i < xs.length), xs[i] = a + (i : Int) * d

/-- `x` lies strictly before `stop` in the direction of `step`. -/
def Before (step x stop : Int) : Prop := (0 < step ∧ x < stop) ∨ (step < 0 ∧ stop < x)

end ICPC.Spec
