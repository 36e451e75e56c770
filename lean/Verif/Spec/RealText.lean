import Verif.Spec.Float
import Verif.Spec.Stream

/-!
# Decimal notation of real numbers

Nothing here refers to the model.
-/

namespace ICPC.Spec.Fp

open ICPC.Fp (Format Flt)

/-- A sequence of decimal digits. -/
def Digits (ds : List Char) : Prop := ∀ c ∈ ds, '0' ≤ c ∧ c ≤ '9'

/-- The number that a sequence of digits stands for in positional notation. -/
def positional : List Char → ℕ
  | [] => 0
  | c :: ds => (c.toNat - '0'.toNat) * 10 ^ ds.length + positional ds

/-- An optional sign and its value. -/
def Sign (t : List Char) (s : ℤ) : Prop := (t = [] ∧ s = 1) ∨ (t = ['+'] ∧ s = 1) ∨ (t = ['-'] ∧ s = -1)

/-- An optional exponent and its value. -/
def Exponent (t : List Char) (e : ℤ) : Prop :=
  (t = [] ∧ e = 0) ∨ ∃ E sign s ds, t = E :: (sign ++ ds) ∧ (E = 'e' ∨ E = 'E') ∧ Sign sign s ∧ ds ≠ [] ∧ Digits ds ∧ e = s * positional ds

/-- The text `t` is a decimal notation of the number `q`: an optional sign, digits, optionally a point and further digits (at
least one digit altogether), optionally an exponent. -/
def Denotes (t : List Char) (q : ℚ) : Prop :=
  ∃ (sign a point b ex : List Char) (s e : ℤ), t = sign ++ (a ++ (point ++ (b ++ ex))) ∧ Sign sign s ∧ Digits a ∧ Digits b ∧
    a ++ b ≠ [] ∧ (point = ['.'] ∨ (point = [] ∧ b = [])) ∧ Exponent ex e ∧
    q = s * (positional (a ++ b) * 10 ^ (e - b.length))

/-- `x` is a number of the format and none is nearer to `q`. -/
def Nearest (F : Format) (q x : ℚ) : Prop := Rep F x ∧ ∀ y, Rep F y → |x - q| ≤ |y - q|

/-- Numbers for which there is a value: not beyond the middle between the largest number of the format and the next one
there would be, and zero or larger than half the smallest positive number. -/
def InRange (F : Format) (q : ℚ) : Prop :=
  |q| < (2 ^ F.p - 1 / 2) * 2 ^ F.emax ∧ (q = 0 ∨ 2 ^ (F.emin - 1) < |q|)

end ICPC.Spec.Fp
