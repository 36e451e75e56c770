import Verif.Spec.Ideal
import Mathlib.MeasureTheory.Measure.Prod
import Mathlib.Probability.ConditionalProbability

/-!
# Sequences of independent numbers: the first ones and the rest
-/

namespace ICPC.Ideal

open MeasureTheory Spec

instance : IsProbabilityMeasure uniform01 := ⟨by simp [uniform01]⟩

instance : IsProbabilityMeasure independentUniforms := by unfold independentUniforms; infer_instance

/-- A sequence from its first element and the rest. -/
def cons (p : ℝ × (ℕ → ℝ)) : ℕ → ℝ
  | 0 => p.1
  | k + 1 => p.2 k

/-- The sequence without its first element. -/
def tail (ω : ℕ → ℝ) : ℕ → ℝ := fun k => ω (k + 1)

theorem measurable_cons : Measurable cons := by
  refine measurable_pi_lambda _ fun k => ?_
  cases k with
  | zero => exact measurable_fst
  | succ k => exact (measurable_pi_apply k).comp measurable_snd

theorem measurable_tail : Measurable tail := measurable_pi_lambda _ fun k => measurable_pi_apply (k + 1)

theorem map_cons : (uniform01.prod independentUniforms).map cons = independentUniforms := by
  refine Measure.eq_infinitePi _ fun s t ht => ?_
  classical
  rw [Measure.map_apply measurable_cons (.pi s.countable_toSet fun i _ => ht i)]
  let s' : Finset ℕ := (s.erase 0).image Nat.pred
  have e : cons ⁻¹' Set.pi s t = (if 0 ∈ s then t 0 else Set.univ) ×ˢ Set.pi s' fun i => t (i + 1) := by
    ext ⟨u, ω⟩
    simp only [Set.mem_preimage, Set.mem_pi, Finset.mem_coe, Set.mem_prod, s', Finset.mem_image, Finset.mem_erase]
    constructor
    · intro h
      refine ⟨?_, ?_⟩
      · split_ifs with h0
        · exact h 0 h0
        · trivial
      · rintro i ⟨j, ⟨hj, hs⟩, rfl⟩
        obtain ⟨j, rfl⟩ := Nat.exists_eq_succ_of_ne_zero hj
        exact h _ hs
    · rintro ⟨h1, h2⟩ i hi
      cases i with
      | zero => rw [if_pos hi] at h1; exact h1
      | succ i => exact h2 i ⟨i + 1, ⟨Nat.succ_ne_zero _, hi⟩, rfl⟩
  rw [e, Measure.prod_prod]
  have e2 : independentUniforms (Set.pi s' fun i => t (i + 1)) = ∏ i ∈ s', uniform01 (t (i + 1)) := by
    unfold independentUniforms
    exact Measure.infinitePi_pi _ fun i _ => ht _
  rw [e2, Finset.prod_image]
  · have e3 : ∏ i ∈ s.erase 0, uniform01 (t (Nat.pred i + 1)) = ∏ i ∈ s.erase 0, uniform01 (t i) := by
      refine Finset.prod_congr rfl fun i hi => ?_
      rw [Nat.pred_eq_sub_one, Nat.sub_add_cancel (Nat.one_le_iff_ne_zero.2 (Finset.ne_of_mem_erase hi))]
    rw [e3]
    split_ifs with h0
    · exact Finset.mul_prod_erase s (fun i => uniform01 (t i)) h0
    · rw [Finset.erase_eq_of_notMem h0, measure_univ, one_mul]
  · intro i hi j hj h
    simp only [Finset.coe_erase, Set.mem_sdiff, Finset.mem_coe, Set.mem_singleton_iff] at hi hj
    simp only [Nat.pred_eq_sub_one] at h
    omega

/-- The first elements of a sequence, as a function `head`, and what remains, as a function `rest`, are independent. -/
structure Splits {β : Type} [MeasurableSpace β] (ν : Measure β) (head : (ℕ → ℝ) → β) (rest : (ℕ → ℝ) → ℕ → ℝ) : Prop where
  prob : IsProbabilityMeasure ν
  preserve : MeasurePreserving (fun ω => (head ω, rest ω)) independentUniforms (ν.prod independentUniforms)

theorem splits_one : Splits uniform01 (fun ω => ω 0) tail := by
  refine ⟨inferInstance, ?_⟩
  have hm : Measurable fun ω : ℕ → ℝ => (ω 0, tail ω) := (measurable_pi_apply 0).prodMk measurable_tail
  refine ⟨hm, ?_⟩
  conv_lhs => rw [← map_cons]
  rw [Measure.map_map hm measurable_cons]
  have : (fun ω : ℕ → ℝ => (ω 0, tail ω)) ∘ cons = id := by
    funext p
    rfl
  rw [this, Measure.map_id]

theorem splits_two : Splits (uniform01.prod uniform01) (fun ω => (ω 0, ω 1)) fun ω => tail (tail ω) := by
  refine ⟨inferInstance, ?_⟩
  have h1 := splits_one.preserve
  have h2 : MeasurePreserving (Prod.map (id : ℝ → ℝ) fun ω : ℕ → ℝ => (ω 0, tail ω)) (uniform01.prod independentUniforms)
      (uniform01.prod (uniform01.prod independentUniforms)) := (MeasurePreserving.id uniform01).prod h1
  have h3 : MeasurePreserving (MeasurableEquiv.prodAssoc.symm : ℝ × ℝ × (ℕ → ℝ) ≃ᵐ (ℝ × ℝ) × (ℕ → ℝ))
      (uniform01.prod (uniform01.prod independentUniforms)) ((uniform01.prod uniform01).prod independentUniforms) :=
    (measurePreserving_prodAssoc uniform01 uniform01 independentUniforms).symm _
  exact h3.comp (h2.comp h1)

namespace Splits

variable {β : Type} [MeasurableSpace β] {ν : Measure β} {head : (ℕ → ℝ) → β} {rest : (ℕ → ℝ) → ℕ → ℝ}

theorem measurable_head (h : Splits ν head rest) : Measurable head := measurable_fst.comp h.preserve.measurable

theorem measurable_rest (h : Splits ν head rest) : Measurable rest := measurable_snd.comp h.preserve.measurable

/-- An event about the first elements. -/
theorem first (h : Splits ν head rest) {H : Set β} (hH : MeasurableSet H) : independentUniforms {ω | head ω ∈ H} = ν H := by
  have := h.prob
  have e := h.preserve.measure_preimage (s := H ×ˢ Set.univ) (hH.prod .univ).nullMeasurableSet
  rw [Measure.prod_prod, measure_univ, mul_one] at e
  rw [← e]
  congr 1
  ext ω
  simp

/-- An event about the first elements and another one about the rest. -/
theorem both (h : Splits ν head rest) {R : Set β} (hR : MeasurableSet R) {E : Set (ℕ → ℝ)} (hE : MeasurableSet E) :
    independentUniforms {ω | head ω ∈ R ∧ rest ω ∈ E} = ν R * independentUniforms E := by
  have := h.prob
  have e := h.preserve.measure_preimage (s := R ×ˢ E) (hR.prod hE).nullMeasurableSet
  rw [Measure.prod_prod] at e
  rw [← e]
  rfl

/-- Rejection: `E` happens if the first elements are in `H`, or if they are in `R` and `E` happens for the rest; `E f` is `E` with at most `f`
rounds. -/
theorem rejection (h : Splits ν head rest) {H R : Set β} (hH : MeasurableSet H) (hR : MeasurableSet R) (hd : Disjoint H R)
    (E : ℕ → Set (ℕ → ℝ)) (h0 : E 0 = ∅) (hs : ∀ f, E (f + 1) = {ω | head ω ∈ H ∨ (head ω ∈ R ∧ rest ω ∈ E f)}) :
    independentUniforms (⋃ f, E f) = ν H + ν R * independentUniforms (⋃ f, E f) := by
  have hm : ∀ f, MeasurableSet (E f) := by
    intro f
    induction f with
    | zero => rw [h0]; exact .empty
    | succ f ih =>
      rw [hs]
      exact (h.measurable_head hH).union ((h.measurable_head hR).inter (h.measurable_rest ih))
  have e : ⋃ f, E f = {ω | head ω ∈ H} ∪ {ω | head ω ∈ R ∧ rest ω ∈ ⋃ f, E f} := by
    ext ω
    simp only [Set.mem_iUnion, Set.mem_union, Set.mem_ofPred_eq]
    constructor
    · rintro ⟨f, hf⟩
      cases f with
      | zero => rw [h0] at hf; exact hf.elim
      | succ f =>
        rw [hs] at hf
        rcases hf with hf | ⟨h1, h2⟩
        · exact .inl hf
        · exact .inr ⟨h1, f, h2⟩
    · rintro (hf | ⟨h1, f, h2⟩)
      · exact ⟨1, by rw [hs]; exact .inl hf⟩
      · exact ⟨f + 1, by rw [hs]; exact .inr ⟨h1, h2⟩⟩
  conv_lhs => rw [e]
  rw [measure_union, h.first hH, h.both hR (.iUnion hm)]
  · rw [Set.disjoint_left]
    rintro ω h1 ⟨h2, _⟩
    exact Set.disjoint_left.1 hd h1 h2
  · exact (h.measurable_head hR).inter (h.measurable_rest (.iUnion hm))

end Splits

/-- The solution of `x = a + b x` for `b < 1`. -/
theorem solve {x a b : ENNReal} (hx : x ≠ ⊤) (hb : b < 1) (h : x = a + b * x) : x = a / (1 - b) := by
  have hb' : b ≠ ⊤ := (hb.trans ENNReal.one_lt_top).ne
  have h1 : (1 - b) ≠ 0 := (tsub_pos_of_lt hb).ne'
  have h2 : (1 - b) ≠ ⊤ := (tsub_le_self.trans_lt ENNReal.one_lt_top).ne
  rw [ENNReal.eq_div_iff h1 h2, ENNReal.sub_mul fun _ _ => hx, one_mul]
  have hbx : b * x ≠ ⊤ := ENNReal.mul_ne_top hb' hx
  exact (ENNReal.eq_sub_of_add_eq hbx h.symm).symm

end ICPC.Ideal
