import Verif.Model.Basic
import Mathlib.Analysis.SpecialFunctions.Log.Basic
import Mathlib.Analysis.SpecialFunctions.Trigonometric.Basic
import Mathlib.Algebra.Order.Floor.Ring
import Mathlib.Analysis.SpecialFunctions.Gamma.Basic

/-!
# The continuous distributions in exact arithmetic (src/validate.h 1430-1549)

These functions compute with `Real`, a floating point type.  Here `Real` is the field of real numbers: sums, products, quotients, `std::log`,
`std::log1p`, `std::sqrt`, `std::cos` and `std::sin` are exact, there are no infinities and no NaN, so the assertions about them are absent.
Each call of `real()` takes the next element of an infinite sequence.  `real()` itself, with its bits, is modelled in `Verif.Model.Rand`.
-/

namespace ICPC.Ideal

open Classical

/-- A program that calls `real()`; the state is the sequence of the values still to come. -/
abbrev Draw (α : Type) := StateT (ℕ → ℝ) (Except Stop) α

/-- The next value of `real()`. -/
def real : Draw ℝ := fun ω => .ok (ω 0, fun k => ω (k + 1))

/-- A computation without random numbers. -/
def lift {α : Type} (x : Out α) : Draw α := fun ω => x.map fun a => (a, ω)

/-- A condition that must hold, `judgeAssert`. -/
noncomputable def require (c : Prop) : Draw Unit := lift (judgeAssert (decide c))

/-- `normal(mean, stddev)` (src/validate.h 1430-1436). -/
noncomputable def normal (mean stddev : ℝ) : Draw ℝ := do
  require (stddev ≥ 0)
  let u1 ← real
  let u2 ← real
  let res := √(-2 * Real.log u1) * Real.cos (2 * Real.pi * u2)
  return √stddev * res + mean

/-- The loop of `normal(lower, upper, mean, stddev)` (src/validate.h 1443-1454); at most `fuel` iterations are followed. -/
noncomputable def normalLoop (lower upper mean stddev : ℝ) : ℕ → Draw ℝ
  | 0 => lift (.error .fuel)
  | fuel + 1 => do
    let u1 ← real
    let u2 ← real
    let res := √(-2 * Real.log u1) * Real.cos (2 * Real.pi * u2)
    let res := √stddev * res + mean
    if lower ≤ res ∧ res < upper then return res
    else
      let res := √(-2 * Real.log u1) * Real.sin (2 * Real.pi * u2)
      let res := √stddev * res + mean
      if lower ≤ res ∧ res < upper then return res
      else normalLoop lower upper mean stddev fuel

/-- `normal(lower, upper, mean, stddev)` (src/validate.h 1437-1455). -/
noncomputable def normalIn (fuel : ℕ) (lower upper mean stddev : ℝ) : Draw ℝ := do
  require (lower < upper)
  require (stddev ≥ 0)
  normalLoop lower upper mean stddev fuel

/-- `exponential(lambda)` (src/validate.h 1457-1460). -/
noncomputable def exponential (lambda : ℝ) : Draw ℝ := do
  require (lambda > 0)
  let u ← real
  return -Real.log u / lambda

/-- The loop of `exponential(lower, upper, lambda)` (src/validate.h 1466-1469). -/
noncomputable def exponentialLoop (lower upper lambda : ℝ) : ℕ → Draw ℝ
  | 0 => lift (.error .fuel)
  | fuel + 1 => do
    let u ← real
    let res := lower - Real.log u / lambda
    if res < upper then return res
    else exponentialLoop lower upper lambda fuel

/-- `exponential(lower, upper, lambda)` (src/validate.h 1461-1470). -/
noncomputable def exponentialIn (fuel : ℕ) (lower upper lambda : ℝ) : Draw ℝ := do
  require (lower < upper)
  require (lambda > 0)
  exponentialLoop lower upper lambda fuel

/-- `std::llround(std::floor(std::log(u) / lg))`; the quotient by zero is an infinity or a NaN, for which as for values that do not fit
`std::llround` is not defined. -/
noncomputable def gap (u lg : ℝ) : Out Int := if lg = 0 then .error .ub else chk ⌊Real.log u / lg⌋

/-- `geometric(p)` (src/validate.h 1472-1475). -/
noncomputable def geometric (p : ℝ) : Draw Int := do
  require (0 ≤ p ∧ p < 1)
  let u ← real
  lift (gap u (Real.log (1 - p)))

/-- The loop of `geometric(lower, upper, p)` (src/validate.h 1479-1484). -/
noncomputable def geometricLoop (lower upper : Int) (p : ℝ) : ℕ → Draw Int
  | 0 => lift (.error .fuel)
  | fuel + 1 => do
    let u ← real
    let g ← lift (gap u (Real.log (1 - p)))
    let res ← lift (chk (lower + g))
    if res < upper then return res
    else geometricLoop lower upper p fuel

/-- `geometric(lower, upper, p)` (src/validate.h 1476-1485). -/
noncomputable def geometricIn (fuel : ℕ) (lower upper : Int) (p : ℝ) : Draw Int := do
  require (lower < upper)
  require (0 ≤ p ∧ p < 1)
  geometricLoop lower upper p fuel

/-- The loop of `binomial(n, p)` for small `p * n` (src/validate.h 1499-1503). -/
noncomputable def bgLoop (n : Int) (swap : Bool) (lg : ℝ) : ℕ → Int → Int → Draw Int
  | 0, _, _ => lift (.error .fuel)
  | fuel + 1, y, res => do
    let u ← real
    let g ← lift (gap u lg)
    let g ← lift (chk (g + 1))
    let y ← lift (chk (y + g))
    if y > n then return if swap then n - res else res
    else bgLoop n swap lg fuel y (res + 1)

/-- A quotient of two `Real`s; without infinities it is not defined for a zero divisor. -/
noncomputable def quot (x y : ℝ) : Out ℝ := if y = 0 then .error .ub else .ok (x / y)

/-- `std::lgamma`. -/
noncomputable def lgamma (x : ℝ) : ℝ := Real.log (Real.Gamma x)

/-- The last test of the loop for large `p * n` (src/validate.h 1531-1538), with the values that are computed once. -/
def btrsLate (n res : Int) (p q spq a b us v : ℝ) : Prop :=
  let alpha := (2.83 + 5.1 / b) * spq
  let lpq := Real.log (p / q)
  let m : ℝ := ⌊((n : ℝ) + 1) * p⌋
  let h := lgamma (m + 1) + lgamma (n - m + 1)
  Real.log (v * (alpha / (a / (us * us) + b))) ≤ h - lgamma (res + 1) - lgamma (n - res + 1) + (res - m) * lpq

/-- The loop of `binomial(n, p)` for large `p * n` (src/validate.h 1518-1541).  The sums `n + 1`, `res + 1` and `n - res + 1` are sums of integers;
where the first does not overflow, the others do not. -/
noncomputable def btrsLoop (n : Int) (swap : Bool) (p q spq a b c vr : ℝ) : ℕ → Draw Int
  | 0 => lift (.error .fuel)
  | fuel + 1 => do
    let x ← real
    let u := x - 1 / 2
    let us := 1 / 2 - |u|
    let d ← lift (quot (2 * a) us)
    let res ← lift (chk ⌊(d + b) * u + c⌋)
    if res < 0 ∨ res > n then btrsLoop n swap p q spq a b c vr fuel
    else do
      let v ← real
      if us ≥ 0.07 ∧ v ≤ vr then return if swap then n - res else res
      else do
        let _ ← lift (chk (n + 1))
        if btrsLate n res p q spq a b us v then return if swap then n - res else res
        else btrsLoop n swap p q spq a b c vr fuel

/-- The branch of `binomial(n, p)` for large `p * n` (src/validate.h 1505-1541). -/
noncomputable def btrs (fuel : ℕ) (n : Int) (p : ℝ) (swap : Bool) : Draw Int :=
  let q := 1 - p
  let spq := √(n * p * q)
  let b := 1.15 + 2.53 * spq
  let a := -0.0873 + 0.0248 * b + 0.01 * p
  let c := n * p + 0.5
  let vr := 0.92 - 4.2 / b
  btrsLoop n swap p q spq a b c vr fuel

/-- `binomial(n, p)` (src/validate.h 1487-1542). -/
noncomputable def binomial (fuel : ℕ) (n : Int) (p : ℝ) : Draw Int := do
  require (n ≥ 0)
  require (0 ≤ p ∧ p ≤ 1)
  let swap := decide (p > 1 / 2)
  let p := min p (1 - p)
  if p * n < 10 then
    if Real.log (1 - p) ≥ 0 then return if swap then n else 0
    else bgLoop n swap (Real.log (1 - p)) fuel 0 0
  else btrs fuel n p swap

/-- The loop of `binomial(lower, upper, n, p)` (src/validate.h 1545-1548). -/
noncomputable def binomialLoop (lower upper n : Int) (p : ℝ) : ℕ → Draw Int
  | 0 => lift (.error .fuel)
  | fuel + 1 => do
    let res ← binomial fuel n p
    if lower ≤ res ∧ res < upper then return res
    else binomialLoop lower upper n p fuel

/-- `binomial(lower, upper, n, p)` (src/validate.h 1543-1549). -/
noncomputable def binomialIn (fuel : ℕ) (lower upper n : Int) (p : ℝ) : Draw Int := do
  require (lower < upper)
  binomialLoop lower upper n p fuel

end ICPC.Ideal
