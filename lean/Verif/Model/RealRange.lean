import Verif.Model.RealText
import Verif.Model.RandGeo

/-!
# `Random::real` with bounds (src/validate.h 1404-1421)

`Real` is a binary floating point format with rounding to nearest, as in `Verif.Model.Float`.  The value of `real()` is a
`double`, which every format for `Real` contains (src/validate.h 66).
-/

namespace ICPC.Fp

/-- `a * b` of IEEE 754 without the sign of zeros. -/
def mul (F : Format) : Flt → Flt → Flt
  | .nan s, _ => .nan s
  | _, .nan s => .nan s
  | .inf s, .inf t => .inf (s ^^ t)
  | .inf s, .fin b => if b = 0 then .nan false else .inf (s ^^ decide (b < 0))
  | .fin a, .inf t => if a = 0 then .nan false else .inf (t ^^ decide (a < 0))
  | .fin a, .fin b => round F (a * b)

/-- `a + b` of IEEE 754 without the sign of zeros. -/
def add (F : Format) : Flt → Flt → Flt
  | .nan s, _ => .nan s
  | _, .nan s => .nan s
  | .inf s, .inf t => if s = t then .inf s else .nan false
  | .inf s, .fin _ => .inf s
  | .fin _, .inf t => .inf t
  | .fin a, .fin b => round F (a + b)

/-- The loop of `real(upper)` (src/validate.h 1407-1410) on engine words: nothing if they are used up; at most `fuel`
iterations are followed. -/
def realUpperLoop (F : Format) (upper : Flt) : ℕ → List Nat → Option (Out Flt × List Nat)
  | 0, ws => some (.error .fuel, ws)
  | fuel + 1, ws =>
    match realWords ws with
    | none => none
    | some (x, ws) =>
      let res := mul F (.fin x) upper
      if le (.fin 0) res && lt res upper then some (.ok res, ws) else realUpperLoop F upper fuel ws

/-- `real(upper)` (src/validate.h 1404-1411). -/
def realUpper (F : Format) (fuel : ℕ) (upper : Flt) (ws : List Nat) : Option (Out Flt × List Nat) :=
  if !isfinite upper then some (.error .throw, ws)
  else if !lt (.fin 0) upper then some (.error .throw, ws)
  else realUpperLoop F upper fuel ws

/-- The loop of `real(lower, upper)` (src/validate.h 1416-1420). -/
def realRangeLoop (F : Format) (lower upper : Flt) : ℕ → List Nat → Option (Out Flt × List Nat)
  | 0, ws => some (.error .fuel, ws)
  | fuel + 1, ws =>
    match realWords ws with
    | none => none
    | some (x, ws) =>
      let res := add F (mul F lower (sub F (.fin 1) (.fin x))) (mul F upper (.fin x))
      if le lower res && lt res upper then some (.ok res, ws) else realRangeLoop F lower upper fuel ws

/-- `real(lower, upper)` (src/validate.h 1412-1421). -/
def realRange (F : Format) (fuel : ℕ) (lower upper : Flt) (ws : List Nat) : Option (Out Flt × List Nat) :=
  if !isfinite lower then some (.error .throw, ws)
  else if !isfinite upper then some (.error .throw, ws)
  else if !lt lower upper then some (.error .throw, ws)
  else realRangeLoop F lower upper fuel ws

end ICPC.Fp
