import Verif.Model.FloatBinomial

/-!
# The rejection method of `binomial` in floating point on engine words (src/validate.h 1504-1541)

`std::sqrt`, `std::log` and `std::lgamma` are arbitrary functions on the values of the format.  `std::lgamma` of an `Integer` is
computed in double precision, it is a function `lgammaI` of its own.  `alpha`, `lpq`, `m` and `h` do not change, whether they are
computed once (`initialized`) or in each iteration makes no difference.
-/

namespace ICPC.Fp

/-- The functions of the standard library that the method uses. -/
structure Lib where
  sqrt : Flt → Flt
  log : Flt → Flt
  lgamma : Flt → Flt
  lgammaI : Int → Flt

/-- The constants of the method (src/validate.h 1509-1514). -/
structure BtrsConst where
  q : Flt
  spq : Flt
  b : Flt
  a : Flt
  c : Flt
  vr : Flt

/-- src/validate.h 1509-1514. -/
def btrsConst (F : Format) (L : Lib) (n : Int) (p : Flt) : BtrsConst :=
  let q := sub F (.fin 1) p
  let spq := L.sqrt (mul F (mul F (round F n) p) q)
  let b := add F (round F 1.15) (mul F (round F 2.53) spq)
  let a := add F (add F (neg (round F 0.0873)) (mul F (round F 0.0248) b)) (mul F (round F 0.01) p)
  let c := add F (mul F (round F n) p) (.fin (1 / 2))
  let vr := sub F (round F 0.92) (div F (round F 4.2) b)
  ⟨q, spq, b, a, c, vr⟩

/-- The last test of an iteration (src/validate.h 1529-1537) for the candidate `res`; `n + 1`, `res + 1` and `n - res + 1` are computed in
64 bits. -/
def btrsTest (F : Format) (L : Lib) (n : Int) (p : Flt) (C : BtrsConst) (us v : Flt) (res : Int) : Out Bool := do
  let alpha := mul F (add F (round F 2.83) (div F (round F 5.1) C.b)) C.spq
  let lpq := L.log (div F p C.q)
  let n1 ← chk (n + 1)
  let m := floor (mul F (round F n1) p)
  let h := add F (L.lgamma (add F m (.fin 1))) (L.lgamma (add F (sub F (round F n) m) (.fin 1)))
  let v := mul F v (div F alpha (add F (div F C.a (mul F us us)) C.b))
  let res1 ← chk (res + 1)
  let rest1 ← chk (n - res + 1)
  return le (L.log v) (add F (sub F (sub F h (L.lgammaI res1)) (L.lgammaI rest1)) (mul F (sub F (round F res) m) lpq))

/-- One iteration (src/validate.h 1519-1540): the candidate if it is accepted. -/
def btrsStep (F : Format) (L : Lib) (n : Int) (p : Flt) (C : BtrsConst) (ws : List Nat) : Option (Out (Option Int) × List Nat) :=
  match realWords ws with
  | none => none
  | some (x, ws) =>
    let u := sub F (.fin x) (.fin (1 / 2))
    let us := sub F (.fin (1 / 2)) (abs u)
    match llround (floor (add F (mul F (add F (div F (mul F (.fin 2) C.a) us) C.b) u) C.c)) with
    | .error e => some (.error e, ws)
    | .ok res =>
      if res < 0 ∨ res > n then some (.ok none, ws)
      else
        match realWords ws with
        | none => none
        | some (v, ws) =>
          if le (round F 0.07) us && le (.fin v) C.vr then some (.ok (some res), ws)
          else
            match btrsTest F L n p C us (.fin v) res with
            | .error e => some (.error e, ws)
            | .ok t => some (.ok (if t then some res else none), ws)

/-- The loop (src/validate.h 1518-1541); at most `fuel` iterations are followed. -/
def btrsLoop (F : Format) (L : Lib) (n : Int) (swap : Bool) (p : Flt) (C : BtrsConst) : ℕ → List Nat → Option (Out Int × List Nat)
  | 0, ws => some (.error .fuel, ws)
  | fuel + 1, ws =>
    match btrsStep F L n p C ws with
    | none => none
    | some (.error e, ws) => some (.error e, ws)
    | some (.ok none, ws) => btrsLoop F L n swap p C fuel ws
    | some (.ok (some res), ws) => some (.ok (if swap then n - res else res), ws)

/-- The branch of `binomial(n, p)` for large `p * n` (src/validate.h 1504-1541). -/
def btrs (F : Format) (L : Lib) (n : Int) (fuel : ℕ) (swap : Bool) (p : Flt) : List Nat → Option (Out Int × List Nat) :=
  btrsLoop F L n swap p (btrsConst F L n p) fuel

end ICPC.Fp
