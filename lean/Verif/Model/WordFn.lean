import Verif.Model.RealRange
import Verif.Model.RandomGraphP

/-!
# Programs that draw integers and reals from the same engine

A call takes words of the engine from the front of a list; it has no result if the words do not suffice.  `Rand.run` and
`realWords` are of this form.
-/

namespace ICPC

/-- A function that draws words. -/
abbrev WordFn (α : Type) := List ℕ → Option (α × List ℕ)

namespace WordFn

/-- One call after the other; the second one may depend on the result of the first one. -/
def andThen {α β : Type} (f : WordFn α) (g : α → WordFn β) : WordFn β := fun ws =>
  match f ws with
  | none => none
  | some (a, rest) => g a rest

/-- Likewise for functions that may throw. -/
def bindOut {α β : Type} (f : WordFn (Out α)) (g : α → WordFn (Out β)) : WordFn (Out β) :=
  f.andThen fun o => match o with
    | .error e => fun ws => some (.error e, ws)
    | .ok a => g a

end WordFn

namespace Fp

/-- `real(lower, upper)` (src/validate.h 1412-1421): every iteration takes a word, so there is enough fuel. -/
def realRangeCall (F : Format) (lower upper : Flt) : WordFn (Out Flt) := fun ws => realRange F (ws.length + 1) lower upper ws

/-- `real(upper)` (src/validate.h 1404-1411), likewise. -/
def realUpperCall (F : Format) (upper : Flt) : WordFn (Out Flt) := fun ws => realUpper F (ws.length + 1) upper ws

/-- The conversion of a `Real` to an `Integer`, which truncates (undefined if the result is not representable). -/
def toInteger : Flt → Out Int
  | .fin q => chk (if q < 0 then -⌊-q⌋ else ⌊q⌋)
  | _ => .error .ub

/-- `Integer deg = p * Random::real(0, i+1)` (src/graph_gen.h 895); `i` is at most `2^53`, so its conversion is exact. -/
def degreeCall (F : Format) (p : Flt) (i : Int) : WordFn (Out Int) :=
  WordFn.bindOut (realRangeCall F (.fin 0) (.fin (i + 1))) fun x ws => some (toInteger (mul F p x), ws)

end Fp

namespace Gen

variable {E : Type} [Inhabited E]

/-- The part of an iteration of `randomGrowingGraph` after the number of neighbours is known (src/graph_gen.h 896-897). -/
def growStep (i deg : Int) (res : Graph E) : Rand (Graph E) := do
  let neighbours ← distinct deg 0 i
  Rand.lift (addPairs res (neighbours.map fun j => (i, j)))

/-- The loop of `randomGrowingGraph` (src/graph_gen.h 894-898) on the words of the engine. -/
def growCallLoop (i128 : Bool) (F : Fp.Format) (p : Fp.Flt) (n : Int) : ℕ → Int → Graph E → WordFn (Out (Graph E))
  | 0, _, res => fun ws => some (.ok res, ws)
  | fuel + 1, i, res =>
    if i < n then
      WordFn.bindOut (Fp.degreeCall F p i) fun deg => WordFn.bindOut ((growStep i deg res).run i128) fun res =>
        growCallLoop i128 F p n fuel (i + 1) res
    else fun ws => some (.ok res, ws)

/-- `randomGrowingGraph(n, p)` (src/graph_gen.h 890-901) on the words of the engine. -/
def growCall (i128 : Bool) (F : Fp.Format) (p : Fp.Flt) (n : Int) : WordFn (Out (Graph E)) := fun ws =>
  if Fp.le (.fin 0) p && Fp.le p (.fin 1) then
    match (Graph.ofSize false n : Out (Graph E)) with
    | .error e => some (.error e, ws)
    | .ok res => growCallLoop i128 F p n n.toNat 0 res ws
  else some (.error .throw, ws)

end Gen

end ICPC
