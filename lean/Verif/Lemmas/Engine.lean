import Verif.Spec.Engine
import Verif.Lemmas.RandInt
import Verif.Props.RandInt
import Mathlib.MeasureTheory.Measure.Prod
import Mathlib.MeasureTheory.Integral.Lebesgue.Countable

/-!
# The first word and the others
-/

namespace ICPC.Engine

open MeasureTheory Spec

theorem uniformBelow_isProb {N : ℕ} (h : 0 < N) : IsProbabilityMeasure (uniformBelow N) := by
  constructor
  unfold uniformBelow
  rw [Measure.smul_apply, Measure.finsetSum_apply]
  simp only [measure_univ, Finset.sum_const, Finset.card_range, nsmul_eq_mul, mul_one, smul_eq_mul]
  exact ENNReal.inv_mul_cancel (by exact_mod_cast h.ne') (ENNReal.natCast_ne_top N)

/-- Infinitely many independent numbers below `N`. -/
noncomputable def words (N : ℕ) : Measure (ℕ → ℕ) := Measure.infinitePi fun _ => uniformBelow N

/-- A sequence from its first element and the rest. -/
def cons (p : ℕ × (ℕ → ℕ)) : ℕ → ℕ
  | 0 => p.1
  | k + 1 => p.2 k

theorem measurable_cons : Measurable cons := by
  refine measurable_pi_lambda _ fun k => ?_
  cases k with
  | zero => exact measurable_fst
  | succ k => exact (measurable_pi_apply k).comp measurable_snd

theorem map_cons {N : ℕ} (h : 0 < N) : ((uniformBelow N).prod (words N)).map cons = words N := by
  have := uniformBelow_isProb h
  unfold words
  refine Measure.eq_infinitePi _ fun s t ht => ?_
  classical
  rw [Measure.map_apply measurable_cons (.pi s.countable_toSet fun i _ => ht i)]
  let s' : Finset ℕ := (s.erase 0).image Nat.pred
  have e : cons ⁻¹' Set.pi s t = (if 0 ∈ s then t 0 else Set.univ) ×ˢ Set.pi s' fun i => t (i + 1) := by
    ext ⟨u, ω⟩
    simp only [Set.mem_preimage, Set.mem_pi, Finset.mem_coe, Set.mem_prod, s', Finset.mem_image, Finset.mem_erase]
    constructor
    · intro h
      refine ⟨?_, ?_⟩
      · split_ifs with h0
        · exact h 0 h0
        · trivial
      · rintro i ⟨j, ⟨hj, hs⟩, rfl⟩
        obtain ⟨j, rfl⟩ := Nat.exists_eq_succ_of_ne_zero hj
        exact h _ hs
    · rintro ⟨h1, h2⟩ i hi
      cases i with
      | zero => rw [if_pos hi] at h1; exact h1
      | succ i => exact h2 i ⟨i + 1, ⟨Nat.succ_ne_zero _, hi⟩, rfl⟩
  rw [e, Measure.prod_prod, Measure.infinitePi_pi _ fun i _ => ht _, Finset.prod_image]
  · have e3 : ∏ i ∈ s.erase 0, uniformBelow N (t (Nat.pred i + 1)) = ∏ i ∈ s.erase 0, uniformBelow N (t i) := by
      refine Finset.prod_congr rfl fun i hi => ?_
      rw [Nat.pred_eq_sub_one, Nat.sub_add_cancel (Nat.one_le_iff_ne_zero.2 (Finset.ne_of_mem_erase hi))]
    rw [e3]
    split_ifs with h0
    · exact Finset.mul_prod_erase s (fun i => uniformBelow N (t i)) h0
    · rw [Finset.erase_eq_of_notMem h0, measure_univ, one_mul]
  · intro i hi j hj h
    simp only [Finset.coe_erase, Set.mem_sdiff, Finset.mem_coe, Set.mem_singleton_iff] at hi hj
    simp only [Nat.pred_eq_sub_one] at h
    omega

/-- The probability of an event is the average over the first word. -/
theorem words_first {N : ℕ} (h : 0 < N) {A : Set (ℕ → ℕ)} (hA : MeasurableSet A) :
    (words N).real A = (∑ w ∈ Finset.range N, (words N).real {ω | cons (w, ω) ∈ A}) / N := by
  have := uniformBelow_isProb h
  have : IsProbabilityMeasure (words N) := by unfold words; infer_instance
  have e : words N A = (N : ENNReal)⁻¹ * ∑ w ∈ Finset.range N, words N {ω | cons (w, ω) ∈ A} := by
    conv_lhs => rw [← map_cons h]
    rw [Measure.map_apply measurable_cons hA, Measure.prod_apply (measurable_cons hA)]
    conv_lhs => rw [uniformBelow]
    rw [lintegral_smul_measure, lintegral_finsetSum_measure]
    simp only [lintegral_dirac, smul_eq_mul]
    rfl
  unfold Measure.real
  rw [e, ENNReal.toReal_mul, ENNReal.toReal_inv, ENNReal.toReal_natCast, ENNReal.toReal_sum fun w _ => measure_ne_top _ _, mul_comm, div_eq_mul_inv]

/-- Events about finitely many words at a time are measurable. -/
theorem measurable_prefix (Q : ℕ → List ℕ → Prop) : MeasurableSet {ω : ℕ → ℕ | ∃ n, Q n ((List.range n).map ω)} := by
  have e : {ω : ℕ → ℕ | ∃ n, Q n ((List.range n).map ω)} = ⋃ n, {ω : ℕ → ℕ | Q n ((List.range n).map ω)} := by
    ext ω; simp
  rw [e]
  refine MeasurableSet.iUnion fun n => ?_
  have hm : Measurable fun (ω : ℕ → ℕ) (i : Fin n) => ω i.val := measurable_pi_lambda _ fun i => measurable_pi_apply _
  have e2 : {ω : ℕ → ℕ | Q n ((List.range n).map ω)} = (fun (ω : ℕ → ℕ) (i : Fin n) => ω i.val) ⁻¹' {f | Q n (List.ofFn f)} := by
    ext ω
    simp only [Set.mem_preimage, Set.mem_ofPred_eq]
    rw [show List.ofFn (fun i : Fin n => ω i.val) = (List.range n).map ω from List.ext_getElem (by simp) (by simp)]
  rw [e2]
  exact hm (Set.to_countable _).measurableSet

end ICPC.Engine
