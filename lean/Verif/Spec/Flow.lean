import Mathlib.Algebra.BigOperators.Group.Finset.Basic
import Mathlib.Algebra.Order.BigOperators.Group.Finset
import Mathlib.Data.Int.Interval
import Mathlib.Algebra.BigOperators.Ring.Finset
import Mathlib.Tactic

/-!
# Flows in networks
-/

namespace ICPC.Spec.Flow

/-- A flow from `s` to `t` in the network with vertices `V` and capacities `cap`. -/
structure IsFlow (V : Finset Int) (cap : Int → Int → Int) (s t : Int) (f : Int → Int → Int) : Prop where
  nonneg : ∀ u ∈ V, ∀ v ∈ V, 0 ≤ f u v
  le_cap : ∀ u ∈ V, ∀ v ∈ V, f u v ≤ cap u v
  conserve : ∀ v ∈ V, v ≠ s → v ≠ t → ∑ u ∈ V, f u v = ∑ u ∈ V, f v u

/-- What leaves `s` more than it enters. -/
def value (V : Finset Int) (s : Int) (f : Int → Int → Int) : Int := ∑ v ∈ V, f s v - ∑ v ∈ V, f v s

/-- `x` is the largest value of a flow. -/
def MaxFlow (V : Finset Int) (cap : Int → Int → Int) (s t : Int) (x : Int) : Prop :=
  (∃ f, IsFlow V cap s t f ∧ value V s f = x) ∧ ∀ f, IsFlow V cap s t f → value V s f ≤ x

theorem MaxFlow.unique {V cap s t x y} (hx : MaxFlow V cap s t x) (hy : MaxFlow V cap s t y) : x = y := by
  obtain ⟨⟨f, hf, rfl⟩, h1⟩ := hx
  obtain ⟨⟨g, hg, rfl⟩, h2⟩ := hy
  exact le_antisymm (h2 f hf) (h1 g hg)

/-- No flow is larger than a cut. -/
theorem value_le_cut {V S : Finset Int} {cap s t f} (hf : IsFlow V cap s t f) (hS : S ⊆ V) (hs : s ∈ S) (ht : t ∉ S) :
    value V s f ≤ ∑ u ∈ S, ∑ v ∈ V \ S, cap u v := by
  have h1 : value V s f = ∑ w ∈ S, (∑ v ∈ V, f w v - ∑ v ∈ V, f v w) := by
    rw [Finset.sum_eq_single s]
    · rfl
    · intro w hw hne
      rw [hf.conserve w (hS hw) hne (fun e => ht (e ▸ hw)), sub_self]
    · exact fun h => absurd hs h
  have h2 : ∀ g : Int → Int, ∑ v ∈ V, g v = ∑ v ∈ V \ S, g v + ∑ v ∈ S, g v := fun g => (Finset.sum_sdiff hS).symm
  have h3 : value V s f = ∑ w ∈ S, ∑ v ∈ V \ S, f w v - ∑ w ∈ S, ∑ v ∈ V \ S, f v w := by
    rw [h1, Finset.sum_sub_distrib]
    simp only [h2]
    rw [Finset.sum_add_distrib, Finset.sum_add_distrib, Finset.sum_comm (s := S) (t := S) (f := fun w v => f v w)]
    ring
  have h4 : 0 ≤ ∑ w ∈ S, ∑ v ∈ V \ S, f v w :=
    Finset.sum_nonneg fun w hw => Finset.sum_nonneg fun v hv => hf.nonneg v (Finset.mem_sdiff.1 hv).1 w (hS hw)
  have h5 : ∑ w ∈ S, ∑ v ∈ V \ S, f w v ≤ ∑ u ∈ S, ∑ v ∈ V \ S, cap u v :=
    Finset.sum_le_sum fun w hw => Finset.sum_le_sum fun v hv => hf.le_cap w (hS hw) v (Finset.mem_sdiff.1 hv).1
  omega

end ICPC.Spec.Flow
