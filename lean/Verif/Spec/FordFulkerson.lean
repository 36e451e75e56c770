import Verif.Model.GraphGen

/-!
# The algorithm of Ford and Fulkerson with a depth first search

The usual program: every edge of the list is stored with its reverse in the adjacency lists of its two ends, in the order of the list. A depth first
search tries the arcs of a vertex in that order and skips vertices that it has seen before. The path that it finds first is augmented by its smallest
residual capacity, until there is no path.
-/

namespace ICPC.Spec.FF

open ICPC.Gen

/-- An arc of the residual network: edge number `id`, forwards or backwards, to the vertex `target`. -/
structure Arc where
  id : Nat
  back : Bool
  target : Int
  cap : Int
  deriving DecidableEq, Repr

/-- The adjacency list of `v`, for edges numbered from `i`. -/
def arcsFrom (v : Int) : Nat → List (Edge Int) → List Arc
  | _, [] => []
  | i, e :: es => (if e.src = v then [⟨i, false, e.dst, e.data⟩] else []) ++ ((if e.dst = v then [⟨i, true, e.src, e.data⟩] else []) ++ arcsFrom v (i + 1) es)

def arcs (es : List (Edge Int)) (v : Int) : List Arc := arcsFrom v 0 es

/-- What can still be sent over an arc if `f i` is the flow on edge `i`. -/
def remaining (f : Nat → Int) (a : Arc) : Int := if a.back then f a.id else a.cap - f a.id

mutual

/-- Depth first search from `v` to `t`; the first component are the vertices seen so far. -/
def dfs (adj : Int → List Arc) (f : Nat → Int) (t : Int) : Nat → List Int → Int → List Int × Option (List Arc)
  | 0, seen, _ => (seen, none)
  | fuel + 1, seen, v => if v = t then (seen, some []) else tryArcs adj f t fuel (v :: seen) (adj v)
  termination_by fuel _ _ => (fuel, 0)

/-- The loop over the arcs of a vertex. -/
def tryArcs (adj : Int → List Arc) (f : Nat → Int) (t : Int) (fuel : Nat) (seen : List Int) (as : List Arc) : List Int × Option (List Arc) :=
  match as with
  | [] => (seen, none)
  | a :: as =>
    if 0 < remaining f a ∧ a.target ∉ seen then
      match dfs adj f t fuel seen a.target with
      | (seen, some p) => (seen, some (a :: p))
      | (seen, none) => tryArcs adj f t fuel seen as
    else tryArcs adj f t fuel seen as
  termination_by (fuel, as.length + 1)

end

/-- The smallest residual capacity of a path. -/
def bottleneck (f : Nat → Int) : List Arc → Option Int
  | [] => none
  | a :: p => some (match bottleneck f p with | none => remaining f a | some c => min (remaining f a) c)

/-- Sends `c` over an arc. -/
def push (c : Int) (f : Nat → Int) (a : Arc) : Nat → Int := Function.update f a.id (f a.id + if a.back then -c else c)

/-- One iteration: the amount and the new flow, or nothing if there is no path. -/
def augment (es : List (Edge Int)) (fuel : Nat) (s t : Int) (f : Nat → Int) : Option (Int × (Nat → Int)) :=
  match (dfs (arcs es) f t fuel [] s).2 with
  | none => none
  | some p =>
    match bottleneck f p with
    | none => none
    | some c => some (c, p.foldl (push c) f)

/-- The algorithm, started with the flow `f`, ends after the augmentations by `cs`. -/
inductive Runs (es : List (Edge Int)) (fuel : Nat) (s t : Int) : (Nat → Int) → List Int → Prop
  | stop {f} : augment es fuel s t f = none → Runs es fuel s t f []
  | next {f f' c cs} : augment es fuel s t f = some (c, f') → Runs es fuel s t f' cs → Runs es fuel s t f (c :: cs)

end ICPC.Spec.FF
