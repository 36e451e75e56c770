import Mathlib.GroupTheory.Perm.Basic
import Mathlib.Data.Fintype.Perm
import Verif.Spec.Rand
import Verif.Spec.GraphGen

/-!
# Laws of random graph operations
-/

namespace ICPC.Spec.EdgeMap

open ICPC ICPC.Gen ICPC.Spec

variable {E : Type}

open Classical in
/-- The probability that the result has the property `P`. -/
noncomputable def probThat {α : Type} (r : Rand α) (P : α → Prop) : ℚ := expect r fun a => if P a then 1 else 0

/-- The map that a user sees by asking for all pairs of numbers. -/
def observed (g : Graph E) : Map E := fun u v =>
  match g.findEdge u v with
  | .ok (some e) => some e.data
  | _ => none

/-- The graph on the vertices `[lo, lo + n)` after vertex `lo + i` was renamed to `lo + π i`. -/
def renamed {n : Nat} (lo : Int) (π : Equiv.Perm (Fin n)) (m : Map E) : Map E := fun u v =>
  if h : In lo n u ∧ In lo n v then
    m (lo + (π⁻¹ ⟨(u - lo).toNat, by have := h.1.1; have := h.1.2; omega⟩ : Fin n).val)
      (lo + (π⁻¹ ⟨(v - lo).toNat, by have := h.2.1; have := h.2.2; omega⟩ : Fin n).val)
  else none

/-- An edge and the same edge, for undirected graphs possibly written the other way round. -/
def Written (dir : Bool) (e e' : Edge E) : Prop := e' = e ∨ (dir = false ∧ e' = ⟨e.dst, e.src, e.data⟩)

end ICPC.Spec.EdgeMap
