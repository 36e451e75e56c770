import Verif.Lemmas.Ideal
import Mathlib.Probability.Distributions.Exponential
import Mathlib.Probability.Distributions.Gaussian.Real
import Mathlib.Analysis.SpecialFunctions.PolarCoord
import Mathlib.MeasureTheory.Function.Jacobian
import Mathlib.MeasureTheory.Function.JacobianOneDim

/-!
# Transformations of uniformly distributed numbers
-/

namespace ICPC.Ideal

open MeasureTheory Spec ProbabilityTheory

/-- Substitution of `u = exp (-g x)`. -/
theorem exp_subst {s : Set ℝ} (hs : MeasurableSet s) (g g' : ℝ → ℝ) (hg : ∀ x ∈ s, HasDerivAt g (g' x) x) (hi : Set.InjOn g s)
    (him : (fun x => Real.exp (-g x)) '' s = Set.Ioo 0 1) (h : ℝ → ENNReal) :
    ∫⁻ u, h u ∂uniform01 = ∫⁻ x in s, ENNReal.ofReal |g' x * Real.exp (-g x)| * h (Real.exp (-g x)) := by
  have := lintegral_image_eq_lintegral_abs_deriv_mul (f := fun x => Real.exp (-g x)) (f' := fun x => -(g' x * Real.exp (-g x))) hs
    (fun x hx => by
      have := ((hg x hx).neg.exp).hasDerivWithinAt (s := s)
      refine this.congr_deriv ?_
      simp only [Pi.neg_apply]
      ring)
    (by
      intro x hx y hy e
      have e := Real.exp_injective e
      exact hi hx hy (neg_injective e)) h
  rw [him] at this
  rw [uniform01, this]
  simp only [abs_neg]

/-- `-log u / lambda` is exponentially distributed. -/
theorem map_exponential {r : ℝ} (hr : 0 < r) : uniform01.map (fun u => -Real.log u / r) = expMeasure r := by
  have hm : Measurable fun u => -Real.log u / r := (Real.measurable_log.neg).div_const r
  ext A hA
  rw [Measure.map_apply hm hA, expMeasure, gammaMeasure, withDensity_apply _ hA,
    ← lintegral_indicator_one (hm hA),
    exp_subst measurableSet_Ioi (fun x => r * x) (fun _ => r) (s := Set.Ioi 0)
      (fun x _ => by simpa using (hasDerivAt_id x).const_mul r) (fun x _ y _ e => by simpa [hr.ne'] using e) ?_]
  · have e : ∀ x, ((fun u => -Real.log u / r) ⁻¹' A).indicator (1 : ℝ → ENNReal) (Real.exp (-(r * x))) = A.indicator 1 x := by
      intro x
      have : -Real.log (Real.exp (-(r * x))) / r = x := by
        rw [Real.log_exp]
        field_simp
      by_cases hx : x ∈ A
      · rw [Set.indicator_of_mem hx, Set.indicator_of_mem]
        · rfl
        · show -Real.log (Real.exp (-(r * x))) / r ∈ A
          rwa [this]
      · rw [Set.indicator_of_notMem hx, Set.indicator_of_notMem]
        show -Real.log (Real.exp (-(r * x))) / r ∉ A
        rwa [this]
    simp only [e]
    have e2 : ∀ x ∈ Set.Ioi (0 : ℝ), ENNReal.ofReal |r * Real.exp (-(r * x))| * A.indicator 1 x
        = A.indicator (fun x => exponentialPDF r x) x := by
      intro x hx
      rw [abs_of_nonneg (by positivity)]
      by_cases hxA : x ∈ A
      · rw [Set.indicator_of_mem hxA, Set.indicator_of_mem hxA, exponentialPDF_of_nonneg (le_of_lt hx)]
        simp
      · rw [Set.indicator_of_notMem hxA, Set.indicator_of_notMem hxA, mul_zero]
    rw [setLIntegral_congr_fun measurableSet_Ioi e2, ← lintegral_indicator hA]
    show _ = ∫⁻ x, A.indicator (fun x => exponentialPDF r x) x
    rw [← setLIntegral_univ, ← setLIntegral_univ (μ := volume)]
    rw [Measure.restrict_univ, Measure.restrict_univ]
    have : ∫⁻ x, A.indicator (fun x => exponentialPDF r x) x
        = ∫⁻ x in Set.Ici 0, A.indicator (fun x => exponentialPDF r x) x := by
      rw [← lintegral_indicator measurableSet_Ici]
      refine lintegral_congr fun x => ?_
      by_cases hx : x ∈ Set.Ici (0 : ℝ)
      · rw [Set.indicator_of_mem hx]
      · rw [Set.indicator_of_notMem hx]
        have := exponentialPDF_of_neg (r := r) (not_le.1 hx)
        by_cases hxA : x ∈ A
        · rw [Set.indicator_of_mem hxA, this]
        · rw [Set.indicator_of_notMem hxA]
    rw [this, setLIntegral_congr Ioi_ae_eq_Ici]
  · ext u
    constructor
    · rintro ⟨x, hx, rfl⟩
      exact ⟨Real.exp_pos _, Real.exp_lt_one_iff.2 (by have : (0:ℝ) < x := hx; nlinarith)⟩
    · rintro ⟨h1, h2⟩
      refine ⟨-Real.log u / r, div_pos (neg_pos.2 (Real.log_neg h1 h2)) hr, ?_⟩
      show Real.exp (-(r * (-Real.log u / r))) = u
      rw [mul_div_cancel₀ _ hr.ne', neg_neg, Real.exp_log h1]

/-- The density of two independent standard normal variables. -/
noncomputable def density (p : ℝ × ℝ) : ENNReal := ENNReal.ofReal ((2 * Real.pi)⁻¹ * Real.exp (-(p.1 ^ 2 + p.2 ^ 2) / 2))

theorem measurable_density : Measurable density := by unfold density; fun_prop

theorem gaussian_prod (f : ℝ × ℝ → ENNReal) (hf : Measurable f) :
    ∫⁻ p, f p ∂((gaussianReal 0 1).prod (gaussianReal 0 1)) = ∫⁻ p, density p * f p := by
  have hp : Measurable (gaussianPDF 0 1) := measurable_gaussianPDF 0 1
  rw [gaussianReal_of_var_ne_zero 0 one_ne_zero, prod_withDensity hp hp,
    lintegral_withDensity_eq_lintegral_mul _ (by fun_prop) hf]
  refine lintegral_congr fun p => ?_
  simp only [Pi.mul_apply]
  congr 1
  rw [gaussianPDF, gaussianPDF, ← ENNReal.ofReal_mul (gaussianPDFReal_nonneg _ _ _), density]
  congr 1
  rw [gaussianPDFReal_def]
  simp only [NNReal.coe_one, mul_one, sub_zero]
  have h : (√(2 * Real.pi))⁻¹ * (√(2 * Real.pi))⁻¹ = (2 * Real.pi)⁻¹ := by
    rw [← mul_inv, Real.mul_self_sqrt (by positivity)]
  calc (√(2 * Real.pi))⁻¹ * Real.exp (-p.1 ^ 2 / 2) * ((√(2 * Real.pi))⁻¹ * Real.exp (-p.2 ^ 2 / 2))
      = ((√(2 * Real.pi))⁻¹ * (√(2 * Real.pi))⁻¹) * (Real.exp (-p.1 ^ 2 / 2) * Real.exp (-p.2 ^ 2 / 2)) := by ring
    _ = _ := by
      rw [h, ← Real.exp_add]
      congr 2
      ring

/-- The angle. -/
theorem angle_subst (h : ℝ → ENNReal) (hh : Measurable h) :
    ∫⁻ u, h (2 * Real.pi * u - Real.pi) ∂uniform01 = ENNReal.ofReal (2 * Real.pi)⁻¹ * ∫⁻ t in Set.Ioo (-Real.pi) Real.pi, h t := by
  have hpi := Real.pi_pos
  have := lintegral_image_eq_lintegral_abs_deriv_mul (f := fun u => 2 * Real.pi * u - Real.pi) (f' := fun _ => 2 * Real.pi)
    (s := Set.Ioo (0 : ℝ) 1) measurableSet_Ioo
    (fun x _ => by simpa using (((hasDerivAt_id x).const_mul (2 * Real.pi)).sub_const Real.pi).hasDerivWithinAt)
    (fun x _ y _ e => by
      have e : 2 * Real.pi * x - Real.pi = 2 * Real.pi * y - Real.pi := e
      have : 2 * Real.pi * (x - y) = 0 := by linarith
      rcases mul_eq_zero.1 this with h | h
      · linarith
      · linarith) h
  have him : (fun u => 2 * Real.pi * u - Real.pi) '' Set.Ioo (0 : ℝ) 1 = Set.Ioo (-Real.pi) Real.pi := by
    ext t
    constructor
    · rintro ⟨u, ⟨h1, h2⟩, rfl⟩
      exact ⟨by show _ < 2 * Real.pi * u - Real.pi; nlinarith, by show 2 * Real.pi * u - Real.pi < _; nlinarith⟩
    · rintro ⟨h1, h2⟩
      refine ⟨(t + Real.pi) / (2 * Real.pi), ⟨div_pos (by linarith) (by linarith), (div_lt_one (by linarith)).2 (by linarith)⟩, ?_⟩
      show 2 * Real.pi * ((t + Real.pi) / (2 * Real.pi)) - Real.pi = t
      field_simp
      ring
  rw [him] at this
  rw [this, lintegral_const_mul _ (by fun_prop), ← mul_assoc, abs_of_pos (by positivity), ← ENNReal.ofReal_mul (by positivity),
    inv_mul_cancel₀ (by positivity), ENNReal.ofReal_one, one_mul, uniform01]

/-- The radius. -/
theorem radius_subst (h : ℝ → ENNReal) :
    ∫⁻ u, h √(-2 * Real.log u) ∂uniform01 = ∫⁻ r in Set.Ioi 0, ENNReal.ofReal (r * Real.exp (-(r ^ 2 / 2))) * h r := by
  rw [exp_subst (s := Set.Ioi 0) measurableSet_Ioi (fun r => r ^ 2 / 2) (fun r => r)
    (fun x _ => by
      have := ((hasDerivAt_id x).pow 2).div_const 2
      refine this.congr_deriv ?_
      simp)
    (fun x hx y hy e => by
      have hx : (0:ℝ) < x := hx
      have hy : (0:ℝ) < y := hy
      have e : x ^ 2 / 2 = y ^ 2 / 2 := e
      nlinarith)]
  · refine setLIntegral_congr_fun measurableSet_Ioi fun r hr => ?_
    have hr : (0:ℝ) < r := hr
    show ENNReal.ofReal |r * Real.exp (-(r ^ 2 / 2))| * h √(-2 * Real.log (Real.exp (-(r ^ 2 / 2)))) = _
    rw [abs_of_nonneg (by positivity), Real.log_exp, show -2 * -(r ^ 2 / 2) = r ^ 2 by ring, Real.sqrt_sq hr.le]
  · ext u
    constructor
    · rintro ⟨x, hx, rfl⟩
      exact ⟨Real.exp_pos _, Real.exp_lt_one_iff.2 (by have : (0:ℝ) < x := hx; nlinarith [mul_pos this this])⟩
    · rintro ⟨h1, h2⟩
      have hl := Real.log_neg h1 h2
      refine ⟨√(-2 * Real.log u), Real.sqrt_pos.2 (by linarith), ?_⟩
      show Real.exp (-(√(-2 * Real.log u) ^ 2 / 2)) = u
      rw [Real.sq_sqrt (by linarith), show -(-2 * Real.log u / 2) = Real.log u by ring, Real.exp_log h1]

/-- The transformation of Box and Muller. -/
noncomputable def boxMuller (u : ℝ × ℝ) : ℝ × ℝ :=
  (√(-2 * Real.log u.1) * Real.cos (2 * Real.pi * u.2), √(-2 * Real.log u.1) * Real.sin (2 * Real.pi * u.2))

theorem measurable_boxMuller : Measurable boxMuller := by
  unfold boxMuller
  have h1 : Measurable fun u : ℝ × ℝ => √(-2 * Real.log u.1) := (Real.measurable_log.comp measurable_fst |>.const_mul _).sqrt
  have h2 : Measurable fun u : ℝ × ℝ => Real.cos (2 * Real.pi * u.2) := by fun_prop
  have h3 : Measurable fun u : ℝ × ℝ => Real.sin (2 * Real.pi * u.2) := by fun_prop
  exact (h1.mul h2).prodMk (h1.mul h3)

/-- It gives two independent standard normal variables. -/
theorem map_boxMuller : (uniform01.prod uniform01).map boxMuller = (gaussianReal 0 1).prod (gaussianReal 0 1) := by
  refine Measure.ext_of_lintegral _ fun f hf => ?_
  rw [lintegral_map hf measurable_boxMuller, gaussian_prod f hf]
  have hneg : ∫⁻ p : ℝ × ℝ, density p * f p = ∫⁻ p : ℝ × ℝ, density p * f (-p) := by
    rw [← lintegral_neg_eq_self]
    refine lintegral_congr fun p => ?_
    congr 1
    simp [density]
  have hfn : Measurable fun p : ℝ × ℝ => f (-p) := hf.comp measurable_neg
  rw [hneg, ← lintegral_comp_polarCoord_symm, lintegral_prod _ (by exact (hf.comp measurable_boxMuller).aemeasurable)]
  have h1 : ∀ u1 : ℝ, ∫⁻ u2, f (boxMuller (u1, u2)) ∂uniform01
      = ENNReal.ofReal (2 * Real.pi)⁻¹ * ∫⁻ t in Set.Ioo (-Real.pi) Real.pi,
          f (-(√(-2 * Real.log u1) * Real.cos t, √(-2 * Real.log u1) * Real.sin t)) := by
    intro u1
    rw [← angle_subst _ (by fun_prop)]
    refine lintegral_congr fun u2 => ?_
    congr 1
    simp only [boxMuller, Real.cos_sub_pi, Real.sin_sub_pi]
    ext <;> simp
  simp only [h1]
  rw [radius_subst fun r => ENNReal.ofReal (2 * Real.pi)⁻¹ * ∫⁻ t in Set.Ioo (-Real.pi) Real.pi, f (-(r * Real.cos t, r * Real.sin t))]
  rw [polarCoord_target, Measure.volume_eq_prod, ← Measure.prod_restrict, lintegral_prod]
  · refine setLIntegral_congr_fun measurableSet_Ioi fun r hr => ?_
    have hr : (0:ℝ) < r := hr
    simp only [polarCoord_symm_apply, smul_eq_mul]
    rw [← mul_assoc, ← lintegral_const_mul _ (by fun_prop)]
    refine lintegral_congr fun t => ?_
    rw [← mul_assoc]
    congr 1
    rw [density, ← ENNReal.ofReal_mul (by positivity), ← ENNReal.ofReal_mul hr.le]
    congr 1
    have : (r * Real.cos t) ^ 2 + (r * Real.sin t) ^ 2 = r ^ 2 := by
      have := Real.cos_sq_add_sin_sq t
      nlinarith
    simp only [this]
    rw [show -r ^ 2 / 2 = -(r ^ 2 / 2) by ring]
    ring
  · have : Measurable fun p : ℝ × ℝ => polarCoord.symm p := by
      have : (fun p : ℝ × ℝ => polarCoord.symm p) = fun p => (p.1 * Real.cos p.2, p.1 * Real.sin p.2) := by
        funext p
        exact polarCoord_symm_apply p
      rw [this]
      fun_prop
    exact ((ENNReal.measurable_ofReal.comp measurable_fst).smul ((measurable_density.comp this).mul (hfn.comp this))).aemeasurable

end ICPC.Ideal
