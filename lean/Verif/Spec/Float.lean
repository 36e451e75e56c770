import Verif.Model.Float

/-!
# When two real numbers count as equal

The specification of `floatEqual` in exact arithmetic.
-/

namespace ICPC.Spec.Fp

open ICPC.Fp (Format Flt)

/-- The finite numbers of a format. -/
def Rep (F : Format) (x : ℚ) : Prop :=
  ∃ m e : ℤ, |m| < 2 ^ F.p ∧ F.emin ≤ e ∧ e ≤ F.emax ∧ x = m * 2 ^ e

/-- The values of a format. -/
def Value (F : Format) : Flt → Prop
  | .fin q => Rep F q
  | _ => True

/-- Half the distance of `1` and the next larger number of the format: the largest relative error of rounding. -/
def unit (F : Format) : ℚ := 2 ^ (-(F.p : ℤ))

/-- A tolerance: a non negative number or plus infinity. -/
def Tolerance : Flt → Prop
  | .fin t => 0 ≤ t
  | .inf neg => neg = false
  | .nan _ => False

/-- The number `x` is at most the tolerance. -/
def Within (x : ℚ) : Flt → Prop
  | .fin t => x ≤ t
  | .inf neg => neg = false
  | .nan _ => False

/-- The error `x` relative to the number `e` is at most the tolerance. -/
def WithinRel (x e : ℚ) : Flt → Prop
  | .fin t => x ≤ t * |e|
  | .inf neg => neg = false
  | .nan _ => False

end ICPC.Spec.Fp
