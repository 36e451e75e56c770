import Verif.Lemmas.Ideal2
import Mathlib.Analysis.SpecialFunctions.Pow.Real
import Mathlib.Probability.Distributions.Gaussian.Real

/-!
# Runs of the programs of `Verif.Model.Ideal`
-/

namespace ICPC.Ideal

open MeasureTheory Spec ProbabilityTheory

variable {α β : Type}

theorem real_bind (f : ℝ → Draw β) (ω : ℕ → ℝ) : (real >>= f) ω = f (ω 0) (tail ω) := rfl

theorem lift_ok_bind (a : α) (f : α → Draw β) (ω : ℕ → ℝ) : (lift (.ok a) >>= f) ω = f a ω := rfl

theorem lift_error_bind (e : Stop) (f : α → Draw β) (ω : ℕ → ℝ) : ((lift (.error e) : Draw α) >>= f) ω = .error e := rfl

theorem require_bind {c : Prop} (h : c) (f : Unit → Draw β) (ω : ℕ → ℝ) : (require c >>= f) ω = f () ω := by
  unfold require
  rw [@decide_eq_true c (Classical.propDecidable c) h]
  rfl

theorem require_error {c : Prop} (h : ¬c) (f : Unit → Draw β) (ω : ℕ → ℝ) : (require c >>= f) ω = .error .throw := by
  unfold require
  rw [@decide_eq_false c (Classical.propDecidable c) h]
  rfl

theorem pure_apply (a : α) (ω : ℕ → ℝ) : (pure a : Draw α) ω = .ok (a, ω) := rfl

theorem lift_ok (a : α) (ω : ℕ → ℝ) : lift (.ok a) ω = .ok (a, ω) := rfl

theorem lift_error (e : Stop) (ω : ℕ → ℝ) : (lift (.error e) : Draw α) ω = .error e := rfl

/-- The event of `probIn`. -/
def ends (prog : Draw α) (A : Set α) : Set (ℕ → ℝ) := {ω | ∃ x ω', prog ω = .ok (x, ω') ∧ x ∈ A}

theorem probIn_eq (prog : ℕ → Draw α) (A : Set α) : probIn prog A = independentUniforms (⋃ f, ends (prog f) A) := by
  unfold probIn
  congr 1
  ext ω
  simp [ends]

theorem probIn_const (prog : Draw α) (A : Set α) : probIn (fun _ => prog) A = independentUniforms (ends prog A) := by
  rw [probIn_eq, Set.iUnion_const]

theorem ends_ok {prog : Draw α} {ω ω' : ℕ → ℝ} {x : α} (h : prog ω = .ok (x, ω')) (A : Set α) : ω ∈ ends prog A ↔ x ∈ A := by
  constructor
  · rintro ⟨y, ω'', h2, hy⟩
    rw [h] at h2
    simp only [Except.ok.injEq, Prod.mk.injEq] at h2
    rw [h2.1]
    exact hy
  · exact fun hx => ⟨x, ω', h, hx⟩

theorem ends_error {prog : Draw α} {ω : ℕ → ℝ} {e : Stop} (h : prog ω = .error e) (A : Set α) : ω ∉ ends prog A := by
  rintro ⟨y, ω'', h2, hy⟩
  rw [h] at h2
  simp at h2

theorem ends_congr {prog prog' : Draw α} {ω ω' : ℕ → ℝ} (h : prog ω = prog' ω') (A : Set α) : ω ∈ ends prog A ↔ ω' ∈ ends prog' A := by
  simp only [ends, Set.mem_ofPred_eq, h]

/-! ## Exponential distribution -/

theorem exponential_run {r : ℝ} (hr : 0 < r) (ω : ℕ → ℝ) : exponential r ω = .ok (-Real.log (ω 0) / r, tail ω) := by
  unfold exponential
  rw [require_bind hr, real_bind, pure_apply]

theorem exponentialLoop_hit {lower upper r : ℝ} (f : ℕ) {ω : ℕ → ℝ} (h : lower - Real.log (ω 0) / r < upper) :
    exponentialLoop lower upper r (f + 1) ω = .ok (lower - Real.log (ω 0) / r, tail ω) := by
  rw [exponentialLoop, real_bind]
  simp only [h, if_true, pure_apply]

theorem exponentialLoop_miss {lower upper r : ℝ} (f : ℕ) {ω : ℕ → ℝ} (h : ¬lower - Real.log (ω 0) / r < upper) :
    exponentialLoop lower upper r (f + 1) ω = exponentialLoop lower upper r f (tail ω) := by
  rw [exponentialLoop, real_bind]
  simp only [h, if_false]

/-! ## Normal distribution -/

/-- A normal variable with variance `s` from a standard one. -/
noncomputable def scaled (mean s x : ℝ) : ℝ := √s * x + mean

theorem normal_run {mean s : ℝ} (hs : 0 ≤ s) (ω : ℕ → ℝ) :
    normal mean s ω = .ok (scaled mean s (boxMuller (ω 0, ω 1)).1, tail (tail ω)) := by
  unfold normal
  rw [require_bind hs, real_bind, real_bind, pure_apply]
  rfl

theorem normalLoop_first {lower upper mean s : ℝ} (f : ℕ) {ω : ℕ → ℝ}
    (h : scaled mean s (boxMuller (ω 0, ω 1)).1 ∈ Set.Ico lower upper) :
    normalLoop lower upper mean s (f + 1) ω = .ok (scaled mean s (boxMuller (ω 0, ω 1)).1, tail (tail ω)) := by
  rw [normalLoop, real_bind, real_bind]
  exact if_pos h ▸ rfl

theorem normalLoop_second {lower upper mean s : ℝ} (f : ℕ) {ω : ℕ → ℝ}
    (h1 : scaled mean s (boxMuller (ω 0, ω 1)).1 ∉ Set.Ico lower upper)
    (h2 : scaled mean s (boxMuller (ω 0, ω 1)).2 ∈ Set.Ico lower upper) :
    normalLoop lower upper mean s (f + 1) ω = .ok (scaled mean s (boxMuller (ω 0, ω 1)).2, tail (tail ω)) := by
  rw [normalLoop, real_bind, real_bind]
  simp only [Set.mem_Ico, scaled, boxMuller] at h1 h2
  have e : tail ω 0 = ω 1 := rfl
  simp only [e, h1, h2, if_false, and_self, if_true, pure_apply]
  rfl

theorem normalLoop_miss {lower upper mean s : ℝ} (f : ℕ) {ω : ℕ → ℝ}
    (h1 : scaled mean s (boxMuller (ω 0, ω 1)).1 ∉ Set.Ico lower upper)
    (h2 : scaled mean s (boxMuller (ω 0, ω 1)).2 ∉ Set.Ico lower upper) :
    normalLoop lower upper mean s (f + 1) ω = normalLoop lower upper mean s f (tail (tail ω)) := by
  rw [normalLoop, real_bind, real_bind]
  simp only [Set.mem_Ico, scaled, boxMuller] at h1 h2
  have e : tail ω 0 = ω 1 := rfl
  simp only [e, h1, h2, if_false]

theorem measurable_scaled (mean s : ℝ) : Measurable (scaled mean s) := by unfold scaled; fun_prop

theorem map_scaled (mean : ℝ) (s : NNReal) : (gaussianReal 0 1).map (scaled mean s) = gaussianReal mean s := by
  have : scaled mean s = (fun x => x + mean) ∘ fun x => √(s : ℝ) * x := rfl
  rw [this, ← Measure.map_map (by fun_prop) (by fun_prop), gaussianReal_map_const_mul, gaussianReal_map_add_const]
  congr 1
  · simp
  · ext
    simp

/-- The two values of one round are independent. -/
theorem map_pair (mean : ℝ) (s : NNReal) :
    (uniform01.prod uniform01).map (fun u => (scaled mean s (boxMuller u).1, scaled mean s (boxMuller u).2))
      = (gaussianReal mean s).prod (gaussianReal mean s) := by
  have hm := measurable_scaled mean s
  have : (fun u => (scaled mean s (boxMuller u).1, scaled mean s (boxMuller u).2)) = Prod.map (scaled mean s) (scaled mean s) ∘ boxMuller := rfl
  rw [this, ← Measure.map_map (hm.prodMap hm) measurable_boxMuller, map_boxMuller, ← Measure.map_prod_map _ _ hm hm, map_scaled]

/-! ## Rejection -/

/-- The value `g` is taken if it is in `S`, otherwise another one is drawn. -/
theorem rejection_cond {γ : Type} [MeasurableSpace γ] {ν : Measure γ} {head : (ℕ → ℝ) → γ} {rest : (ℕ → ℝ) → ℕ → ℝ}
    (hsp : Splits ν head rest) {δ : Type} [MeasurableSpace δ] {μ : Measure δ} [IsProbabilityMeasure μ] {g : γ → δ} (hg : Measurable g)
    (hμ : ν.map g = μ) {S A : Set δ} (hS : MeasurableSet S) (hA : MeasurableSet A) (hS0 : μ S ≠ 0) (E : ℕ → Set (ℕ → ℝ)) (h0 : E 0 = ∅)
    (h1 : ∀ f ω, g (head ω) ∈ S → (ω ∈ E (f + 1) ↔ g (head ω) ∈ A)) (h2 : ∀ f ω, g (head ω) ∉ S → (ω ∈ E (f + 1) ↔ rest ω ∈ E f)) :
    independentUniforms (⋃ f, E f) = μ[|S] A := by
  have hr := hsp.rejection (H := g ⁻¹' (S ∩ A)) (R := g ⁻¹' Sᶜ) (hg (hS.inter hA)) (hg hS.compl)
    (by
      rw [Set.disjoint_left]
      exact fun x hx hx' => hx' hx.1) E h0
    (by
      intro f
      ext ω
      by_cases h : g (head ω) ∈ S
      · rw [h1 f ω h]
        simp [h]
      · rw [h2 f ω h]
        simp [h])
  rw [← Measure.map_apply hg (hS.inter hA), ← Measure.map_apply hg hS.compl, hμ] at hr
  have hlt : μ Sᶜ < 1 := by
    rw [prob_compl_eq_one_sub hS]
    exact ENNReal.sub_lt_self ENNReal.one_ne_top one_ne_zero hS0
  rw [solve (measure_ne_top _ _) hlt hr, prob_compl_eq_one_sub hS, ENNReal.sub_sub_cancel ENNReal.one_ne_top prob_le_one,
    cond_apply hS, ENNReal.div_eq_inv_mul]

/-- The same with a second, independent value in each round. -/
theorem rejection_pair {γ : Type} [MeasurableSpace γ] {ν : Measure γ} {head : (ℕ → ℝ) → γ} {rest : (ℕ → ℝ) → ℕ → ℝ}
    (hsp : Splits ν head rest) {δ : Type} [MeasurableSpace δ] {μ : Measure δ} [IsProbabilityMeasure μ] {g : γ → δ × δ} (hg : Measurable g)
    (hμ : ν.map g = μ.prod μ) {S A : Set δ} (hS : MeasurableSet S) (hA : MeasurableSet A) (hS0 : μ S ≠ 0) (E : ℕ → Set (ℕ → ℝ))
    (h0 : E 0 = ∅) (h1 : ∀ f ω, (g (head ω)).1 ∈ S → (ω ∈ E (f + 1) ↔ (g (head ω)).1 ∈ A))
    (h2 : ∀ f ω, (g (head ω)).1 ∉ S → (g (head ω)).2 ∈ S → (ω ∈ E (f + 1) ↔ (g (head ω)).2 ∈ A))
    (h3 : ∀ f ω, (g (head ω)).1 ∉ S → (g (head ω)).2 ∉ S → (ω ∈ E (f + 1) ↔ rest ω ∈ E f)) :
    independentUniforms (⋃ f, E f) = μ[|S] A := by
  have hSA := hS.inter hA
  have hH : MeasurableSet (((S ∩ A) ×ˢ Set.univ) ∪ (Sᶜ ×ˢ (S ∩ A)) : Set (δ × δ)) := (hSA.prod .univ).union (hS.compl.prod hSA)
  have hR : MeasurableSet (Sᶜ ×ˢ Sᶜ : Set (δ × δ)) := hS.compl.prod hS.compl
  have hr := hsp.rejection (H := g ⁻¹' (((S ∩ A) ×ˢ Set.univ) ∪ (Sᶜ ×ˢ (S ∩ A)))) (R := g ⁻¹' (Sᶜ ×ˢ Sᶜ)) (hg hH) (hg hR)
    (by
      rw [Set.disjoint_left]
      rintro x (hx | hx) hx'
      · exact hx'.1 hx.1.1
      · exact hx'.2 hx.2.1) E h0
    (by
      intro f
      ext ω
      by_cases h : (g (head ω)).1 ∈ S
      · rw [h1 f ω h]
        simp [h]
      · by_cases h' : (g (head ω)).2 ∈ S
        · rw [h2 f ω h h']
          simp [h, h']
        · rw [h3 f ω h h']
          simp [h, h'])
  rw [← Measure.map_apply hg hH, ← Measure.map_apply hg hR, hμ, measure_union _ (hS.compl.prod hSA), Measure.prod_prod, Measure.prod_prod,
    Measure.prod_prod, measure_univ, mul_one] at hr
  · have hlt : μ Sᶜ < 1 := by
      rw [prob_compl_eq_one_sub hS]
      exact ENNReal.sub_lt_self ENNReal.one_ne_top one_ne_zero hS0
    have hlt2 : μ Sᶜ * μ Sᶜ < 1 := (mul_le_mul_right prob_le_one _).trans_lt (by rwa [mul_one])
    rw [solve (measure_ne_top _ _) hlt2 hr, cond_apply hS]
    have e : 1 - μ Sᶜ * μ Sᶜ = (1 + μ Sᶜ) * μ S := by
      have h1 : μ S + μ Sᶜ = 1 := prob_add_prob_compl hS
      refine ENNReal.sub_eq_of_eq_add (ENNReal.mul_ne_top (measure_ne_top _ _) (measure_ne_top _ _)) ?_
      calc (1 : ENNReal) = μ S + μ Sᶜ * 1 := by rw [mul_one, h1]
        _ = μ S + μ Sᶜ * (μ S + μ Sᶜ) := by rw [h1]
        _ = _ := by ring
    rw [e, ← one_add_mul, ENNReal.mul_div_mul_left _ _ (by simp) (by simp), ENNReal.div_eq_inv_mul]
  · rw [Set.disjoint_left]
    intro x hx hx'
    exact hx'.1 hx.1.1

/-! ## Geometric distribution -/

/-- Powers as exponentials of the logarithm. -/
theorem gap_iff {p u : ℝ} (hp : 0 < p) (hp1 : p < 1) (hu : 0 < u) (m : ℕ) :
    (m : ℤ) ≤ ⌊Real.log u / Real.log (1 - p)⌋ ↔ u ≤ (1 - p) ^ m := by
  have hl : Real.log (1 - p) < 0 := Real.log_neg (by linarith) (by linarith)
  have hq : 0 < 1 - p := by linarith
  rw [Int.le_floor, le_div_iff_of_neg hl]
  rw [← Real.log_le_log_iff hu (pow_pos hq m), Real.log_pow]
  simp

end ICPC.Ideal
