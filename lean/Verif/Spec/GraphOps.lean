import Verif.Spec.GraphGen
import Mathlib.Logic.Basic

/-!
# The usual operations on graphs, as operations on edge maps
-/

namespace ICPC.Spec.EdgeMap

open Classical ICPC ICPC.Gen

variable {E : Type}

/-- The graph with the edges given by a relation (from `u` to `v`), all with default data. -/
noncomputable def ofRel [Inhabited E] (dir : Bool) (R : Int → Int → Prop) : Map E :=
  fun u v => if R u v ∨ (dir = false ∧ R v u) then some default else none

/-- All pairs of different vertices that are not edges. -/
noncomputable def complMap [Inhabited E] (lo : Int) (n : Nat) (m : Map E) : Map E :=
  fun u v => if In lo n u ∧ In lo n v ∧ u ≠ v ∧ m u v = none then some default else none

/-- Every edge turned round. -/
def rev (m : Map E) : Map E := fun u v => m v u

/-- All edges of both graphs; the data of the second one is preferred. -/
def union (m m' : Map E) : Map E := fun u v => (m' u v).orElse fun _ => m u v

/-- Only those edges for which `p` holds. -/
def keep (p : Int → Int → E → Bool) (m : Map E) : Map E := fun u v => (m u v).filter (p u v)

/-- There is a walk with at most `k` edges. -/
inductive Within (m : Map E) : Nat → Int → Int → Prop
  | refl (k : Nat) (u : Int) : Within m k u u
  | step {k : Nat} {u v w : Int} : Within m k u v → (m v w).isSome → Within m (k + 1) u w

/-- The vertices of a product are pairs, numbered row by row. -/
def pairId (lo : Int) (n : Nat) (lo' : Int) (a b : Int) : Int := (b - lo') * n + (a - lo)

/-- Tensor product: the edges are pairs of edges. -/
noncomputable def tensor [Inhabited E] (lo : Int) (n : Nat) (lo' : Int) (m m' : Map E) : Map E := fun x y =>
  if ∃ a b c d, x = pairId lo n lo' a b ∧ y = pairId lo n lo' c d ∧ (m a c).isSome ∧ (m' b d).isSome then some default else none

/-- Cartesian product: an edge in one component, the other one fixed. -/
noncomputable def cart [Inhabited E] (lo : Int) (n : Nat) (lo' : Int) (n' : Nat) (m m' : Map E) : Map E := fun x y =>
  if ∃ a b c d, x = pairId lo n lo' a b ∧ y = pairId lo n lo' c d ∧
    ((a = c ∧ In lo n a ∧ (m' b d).isSome) ∨ (b = d ∧ In lo' n' b ∧ (m a c).isSome)) then some default else none

/-- Strong product: in each component the same vertex or an edge. -/
noncomputable def strong [Inhabited E] (lo : Int) (n : Nat) (lo' : Int) (n' : Nat) (m m' : Map E) : Map E := fun x y =>
  if ∃ a b c d, In lo n a ∧ In lo' n' b ∧ x = pairId lo n lo' a b ∧ y = pairId lo n lo' c d ∧ (a = c ∨ (m a c).isSome) ∧
    (b = d ∨ (m' b d).isSome) ∧ ¬ (a = c ∧ b = d) then some default else none

/-- Line graph: its vertices are the positions of the edges, joined if the edges meet (the first one ends where the second one starts, for
directed graphs). -/
noncomputable def lineMap (dir : Bool) (l : List (Edge Int)) : Map Int := fun x y =>
  if ∃ (i j : Nat) (a b : Edge Int), x = i ∧ y = j ∧ i ≠ j ∧ l[i]? = some a ∧ l[j]? = some b ∧
    (a.dst = b.src ∨ (dir = false ∧ (a.dst = b.dst ∨ a.src = b.src ∨ a.src = b.dst))) then some 0 else none

/-- Power: joined if there is a walk with at most `k` edges. -/
noncomputable def powerMap [Inhabited E] (k : Int) (lo : Int) (n : Nat) (m : Map E) : Map E := fun x y =>
  if In lo n x ∧ x ≠ y ∧ Within m k.toNat x y then some default else none

end ICPC.Spec.EdgeMap
