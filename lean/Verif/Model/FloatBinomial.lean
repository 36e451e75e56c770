import Verif.Model.FloatDist

/-!
# `binomial` in floating point on engine words (src/validate.h 1487-1503)

The geometric method, for small `p * n`.  The other branch (src/validate.h 1504-1541) is a parameter.
-/

namespace ICPC.Fp

/-- The loop of the geometric method (src/validate.h 1499-1503); at most `fuel` iterations are followed. -/
def bgLoop (F : Format) (log : Flt → Flt) (n : Int) (swap : Bool) (lg : Flt) : ℕ → Int → Int → List Nat → Option (Out Int × List Nat)
  | 0, _, _, ws => some (.error .fuel, ws)
  | fuel + 1, y, res, ws =>
    match realWords ws with
    | none => none
    | some (x, ws) =>
      match gap F log x lg >>= fun g => chk (g + 1) >>= fun g => chk (y + g) with
      | .error e => some (.error e, ws)
      | .ok y => if y > n then some (.ok (if swap then n - res else res), ws) else bgLoop F log n swap lg fuel y (res + 1) ws

/-- `binomial(n, p)` (src/validate.h 1487-1542); `large swap p` is the branch from line 1504 on. -/
def binomial (F : Format) (log log1p : Flt → Flt) (large : Bool → Flt → List Nat → Option (Out Int × List Nat)) (fuel : ℕ) (n : Int) (p : Flt)
    (ws : List Nat) : Option (Out Int × List Nat) :=
  if !decide (n ≥ 0) then some (.error .throw, ws)
  else if !(le (.fin 0) p && le p (.fin 1)) then some (.error .throw, ws)
  else
    let swap := lt (.fin (1 / 2)) p
    let q := sub F (.fin 1) p
    let p := if lt q p then q else p
    if lt (mul F p (round F n)) (.fin 10) then
      let lg := log1p (neg p)
      if le (.fin 0) lg then some (.ok (if swap then n else 0), ws) else bgLoop F log n swap lg fuel 0 0 ws
    else large swap p ws

/-- The loop of `binomial(lower, upper, n, p)` (src/validate.h 1545-1548) around `call`, which is `binomial(n, p)`; at most `fuel` iterations
are followed. -/
def binomialLoop (call : List Nat → Option (Out Int × List Nat)) (lower upper : Int) : ℕ → List Nat → Option (Out Int × List Nat)
  | 0, ws => some (.error .fuel, ws)
  | fuel + 1, ws =>
    match call ws with
    | none => none
    | some (.error e, ws) => some (.error e, ws)
    | some (.ok res, ws) => if lower ≤ res ∧ res < upper then some (.ok res, ws) else binomialLoop call lower upper fuel ws

/-- `binomial(lower, upper, n, p)` (src/validate.h 1543-1549); `steps` bounds the loop of every call of `binomial(n, p)`. -/
def binomialIn (F : Format) (log log1p : Flt → Flt) (large : Bool → Flt → List Nat → Option (Out Int × List Nat)) (steps fuel : ℕ)
    (lower upper n : Int) (p : Flt) (ws : List Nat) : Option (Out Int × List Nat) :=
  if !decide (lower < upper) then some (.error .throw, ws)
  else binomialLoop (binomial F log log1p large steps n p) lower upper fuel ws

end ICPC.Fp
