import Verif.Model.FloatDist
import Verif.Model.WordFn

/-!
# `normal` in floating point on engine words (src/validate.h 1430-1455)

`std::log`, `std::sqrt`, `std::cos` and `std::sin` are arbitrary functions on the values of the format; what is known about them is in
`Verif.Spec.FloatNormal`.
-/

namespace ICPC.Fp

/-- `Random::details::PI` (src/validate.h 1328). -/
def PI (F : Format) : Flt := round F (3141592653589793238462643383279502884 / 10 ^ 36)

/-- `std::sqrt(-2.0_real * std::log(u1)) * std::cos(2.0_real * details::PI * u2)` (src/validate.h 1434, 1448), and with `std::sin`
instead of `std::cos` (src/validate.h 1451). -/
def boxMuller (F : Format) (log sqrt cos : Flt → Flt) (u1 u2 : ℚ) : Flt :=
  mul F (sqrt (mul F (.fin (-2)) (log (.fin u1)))) (cos (mul F (mul F (.fin 2) (PI F)) (.fin u2)))

/-- `std::sqrt(stddev) * res + mean` (src/validate.h 1435, 1449, 1452). -/
def scaled (F : Format) (sqrt : Flt → Flt) (mean stddev res : Flt) : Flt := add F (mul F (sqrt stddev) res) mean

/-- `normal(mean, stddev)` (src/validate.h 1430-1436). -/
def normal (F : Format) (log sqrt cos : Flt → Flt) (mean stddev : Flt) (ws : List Nat) : Option (Out Flt × List Nat) :=
  if !le (.fin 0) stddev then some (.error .throw, ws)
  else
    match realWords ws with
    | none => none
    | some (u1, ws) =>
      match realWords ws with
      | none => none
      | some (u2, ws) => some (.ok (scaled F sqrt mean stddev (boxMuller F log sqrt cos u1 u2)), ws)

/-- The loop of `normal(lower, upper, mean, stddev)` (src/validate.h 1443-1454); at most `fuel` iterations are followed. -/
def normalLoop (F : Format) (log sqrt cos sin : Flt → Flt) (lower upper mean stddev : Flt) : ℕ → List Nat → Option (Out Flt × List Nat)
  | 0, ws => some (.error .fuel, ws)
  | fuel + 1, ws =>
    match realWords ws with
    | none => none
    | some (u1, ws) =>
      match realWords ws with
      | none => none
      | some (u2, ws) =>
        let res := scaled F sqrt mean stddev (boxMuller F log sqrt cos u1 u2)
        if le lower res && lt res upper then some (.ok res, ws)
        else
          let res := scaled F sqrt mean stddev (boxMuller F log sqrt sin u1 u2)
          if le lower res && lt res upper then some (.ok res, ws)
          else normalLoop F log sqrt cos sin lower upper mean stddev fuel ws

/-- `normal(lower, upper, mean, stddev)` (src/validate.h 1437-1455). -/
def normalIn (F : Format) (log sqrt cos sin : Flt → Flt) (fuel : ℕ) (lower upper mean stddev : Flt) (ws : List Nat) :
    Option (Out Flt × List Nat) :=
  if isnan lower then some (.error .throw, ws)
  else if isnan upper then some (.error .throw, ws)
  else if !lt lower upper then some (.error .throw, ws)
  else if !le (.fin 0) stddev then some (.error .throw, ws)
  else normalLoop F log sqrt cos sin lower upper mean stddev fuel ws

end ICPC.Fp
