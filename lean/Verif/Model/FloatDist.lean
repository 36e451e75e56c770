import Verif.Model.RealRange

/-!
# `exponential` and `geometric` in floating point on engine words (src/validate.h 1457-1485)

`std::log` and `std::log1p` are arbitrary functions on the values of the format; what is known about them is in
`Verif.Spec.FloatDist`.  `std::floor` of a number of the format is exact.  `std::llround` is not defined for infinities, NaN
and numbers that do not fit into 64 bits.
-/

namespace ICPC.Fp

/-- `-a`. -/
def neg : Flt → Flt
  | .nan s => .nan !s
  | .inf s => .inf !s
  | .fin q => .fin (-q)

/-- `std::floor`. -/
def floor : Flt → Flt
  | .fin q => .fin (⌊q⌋ : ℤ)
  | x => x

/-- `std::llround`: to the nearest integer, half way cases away from zero. -/
def llround : Flt → Out Int
  | .fin q => chk (if 0 ≤ q then ⌊q + 1 / 2⌋ else ⌈q - 1 / 2⌉)
  | _ => .error .ub

/-- `exponential(lambda)` (src/validate.h 1457-1460). -/
def exponential (F : Format) (log : Flt → Flt) (lambda : Flt) (ws : List Nat) : Option (Out Flt × List Nat) :=
  if !lt (.fin 0) lambda then some (.error .throw, ws)
  else (realWords ws).map fun p => (.ok (div F (neg (log (.fin p.1))) lambda), p.2)

/-- The loop of `exponential(lower, upper, lambda)` (src/validate.h 1466-1469); at most `fuel` iterations are followed. -/
def exponentialLoop (F : Format) (log : Flt → Flt) (lower upper lambda : Flt) : ℕ → List Nat → Option (Out Flt × List Nat)
  | 0, ws => some (.error .fuel, ws)
  | fuel + 1, ws =>
    match realWords ws with
    | none => none
    | some (x, ws) =>
      let res := sub F lower (div F (log (.fin x)) lambda)
      if lt res upper then some (.ok res, ws) else exponentialLoop F log lower upper lambda fuel ws

/-- `exponential(lower, upper, lambda)` (src/validate.h 1461-1470). -/
def exponentialIn (F : Format) (log : Flt → Flt) (fuel : ℕ) (lower upper lambda : Flt) (ws : List Nat) : Option (Out Flt × List Nat) :=
  if !isfinite lower then some (.error .throw, ws)
  else if isnan upper then some (.error .throw, ws)
  else if !lt lower upper then some (.error .throw, ws)
  else if !lt (.fin 0) lambda then some (.error .throw, ws)
  else exponentialLoop F log lower upper lambda fuel ws

/-- `std::llround(std::floor(std::log(x) / lg))` (src/validate.h 1474, 1482). -/
def gap (F : Format) (log : Flt → Flt) (x : ℚ) (lg : Flt) : Out Int := llround (floor (div F (log (.fin x)) lg))

/-- `geometric(p)` (src/validate.h 1472-1475). -/
def geometric (F : Format) (log log1p : Flt → Flt) (p : Flt) (ws : List Nat) : Option (Out Int × List Nat) :=
  if !(le (.fin 0) p && lt p (.fin 1)) then some (.error .throw, ws)
  else (realWords ws).map fun r => (gap F log r.1 (log1p (neg p)), r.2)

/-- The loop of `geometric(lower, upper, p)` (src/validate.h 1479-1484). -/
def geometricLoop (F : Format) (log log1p : Flt → Flt) (lower upper : Int) (p : Flt) : ℕ → List Nat → Option (Out Int × List Nat)
  | 0, ws => some (.error .fuel, ws)
  | fuel + 1, ws =>
    match realWords ws with
    | none => none
    | some (x, ws) =>
      match gap F log x (log1p (neg p)) >>= fun g => chk (lower + g) with
      | .error e => some (.error e, ws)
      | .ok res => if res < upper then some (.ok res, ws) else geometricLoop F log log1p lower upper p fuel ws

/-- `geometric(lower, upper, p)` (src/validate.h 1476-1485). -/
def geometricIn (F : Format) (log log1p : Flt → Flt) (fuel : ℕ) (lower upper : Int) (p : Flt) (ws : List Nat) : Option (Out Int × List Nat) :=
  if !decide (lower < upper) then some (.error .throw, ws)
  else if !(le (.fin 0) p && lt p (.fin 1)) then some (.error .throw, ws)
  else geometricLoop F log log1p lower upper p fuel ws

end ICPC.Fp
