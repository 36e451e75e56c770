import Verif.Lemmas.Ideal3

/-!
# C72: normal and exponential distribution, in exact arithmetic
-/

namespace ICPC.Props

open MeasureTheory ProbabilityTheory Spec ICPC.Ideal

/-- **C72**: `exponential(lambda)` is exponentially distributed with rate `lambda`.  (Partial: exact arithmetic, `real()` uniform.) -/
theorem C72_exponential_partial {r : ℝ} (hr : 0 < r) {A : Set ℝ} (hA : MeasurableSet A) :
    probIn (fun _ => exponential r) A = expMeasure r A := by
  have hm : Measurable fun u => -Real.log u / r := (Real.measurable_log.neg).div_const r
  rw [probIn_const, ← map_exponential hr, Measure.map_apply hm hA, ← splits_one.first (hm hA)]
  congr 1
  ext ω
  exact ends_ok (exponential_run hr ω) A

/-- **C72**: `exponential(lower, upper, lambda)` has the distribution of `lower` plus an exponentially distributed number under the condition
that this is less than `upper`. -/
theorem C72_exponentialIn_partial {lower upper r : ℝ} (hb : lower < upper) (hr : 0 < r) {A : Set ℝ} (hA : MeasurableSet A) :
    probIn (fun f => exponentialIn f lower upper r) A = ((expMeasure r).map (fun x => lower + x))[|Set.Iio upper] A := by
  have hadd : Measurable fun x : ℝ => lower + x := by fun_prop
  have hm : Measurable fun u => -Real.log u / r := (Real.measurable_log.neg).div_const r
  have := isProbabilityMeasure_expMeasure hr
  have : IsProbabilityMeasure ((expMeasure r).map (fun x => lower + x)) := Measure.isProbabilityMeasure_map hadd.aemeasurable
  have hrun : ∀ f ω, exponentialIn f lower upper r ω = exponentialLoop lower upper r f ω := by
    intro f ω
    unfold exponentialIn
    rw [require_bind hb, require_bind hr]
  have hval : ∀ u, lower + -Real.log u / r = lower - Real.log u / r := fun u => by ring
  rw [probIn_eq]
  refine rejection_cond splits_one (hadd.comp hm) (by rw [← Measure.map_map hadd hm, map_exponential hr]) measurableSet_Iio hA ?_ _ ?_ ?_ ?_
  · rw [Measure.map_apply hadd measurableSet_Iio, ← map_exponential hr, Measure.map_apply hm (hadd measurableSet_Iio)]
    have hsub : Set.Ioo (Real.exp (-(r * (upper - lower)))) 1 ⊆
        (fun u => -Real.log u / r) ⁻¹' ((fun x => lower + x) ⁻¹' Set.Iio upper) := by
      rintro u ⟨h1, h2⟩
      show lower + -Real.log u / r < upper
      have hl := Real.log_lt_log (Real.exp_pos _) h1
      rw [Real.log_exp] at hl
      have : -Real.log u / r < upper - lower := by
        rw [div_lt_iff₀ hr]
        linarith
      linarith
    have hlt : Real.exp (-(r * (upper - lower))) < 1 := Real.exp_lt_one_iff.2 (by nlinarith [mul_pos hr (sub_pos.2 hb)])
    intro h0
    have := measure_mono_null hsub h0
    rw [uniform01, Measure.restrict_apply measurableSet_Ioo, Set.Ioo_inter_Ioo, Real.volume_Ioo,
      ENNReal.ofReal_eq_zero] at this
    have hpos := Real.exp_pos (-(r * (upper - lower)))
    rw [max_eq_left hpos.le, min_self] at this
    linarith
  · ext ω
    rw [Set.mem_empty_iff_false, iff_false]
    exact ends_error ((hrun 0 ω).trans rfl) A
  · intro f ω h
    have h' : lower - Real.log (ω 0) / r < upper := by rw [← hval]; exact h
    rw [ends_ok ((hrun _ _).trans (exponentialLoop_hit f h')), ← hval]
    rfl
  · intro f ω h
    have h' : ¬lower - Real.log (ω 0) / r < upper := by rw [← hval]; exact h
    exact ends_congr ((hrun _ _).trans ((exponentialLoop_miss f h').trans (hrun _ _).symm)) A

/-- **C72**: `normal(mean, stddev)` is normally distributed with mean `mean` and *variance* `stddev`. -/
theorem C72_normal_partial (mean : ℝ) (s : NNReal) {A : Set ℝ} (hA : MeasurableSet A) :
    probIn (fun _ => normal mean s) A = gaussianReal mean s A := by
  have hm : Measurable fun u => scaled mean s (boxMuller u).1 := (measurable_scaled mean s).comp (measurable_fst.comp measurable_boxMuller)
  have e : (uniform01.prod uniform01).map (fun u => scaled mean s (boxMuller u).1) = gaussianReal mean s := by
    have : (fun u => scaled mean s (boxMuller u).1) = Prod.fst ∘ fun u => (scaled mean s (boxMuller u).1, scaled mean s (boxMuller u).2) := rfl
    rw [this, ← Measure.map_map measurable_fst, map_pair, ← Measure.fst, Measure.fst_prod]
    exact hm.prodMk ((measurable_scaled mean s).comp (measurable_snd.comp measurable_boxMuller))
  rw [probIn_const, ← e, Measure.map_apply hm hA, ← splits_two.first (hm hA)]
  congr 1
  ext ω
  exact ends_ok (normal_run s.2 ω) A

/-- **C72**: `stddev` is not the standard deviation: `normal(0, 2)` is not the normal distribution with standard deviation 2, and no argument but
0 and 1 gives the standard deviation it names. -/
theorem C72_stddev_refuted (mean : ℝ) (s : NNReal) :
    (∀ A, MeasurableSet A → probIn (fun _ => normal mean s) A = gaussianReal mean (s ^ 2) A) ↔ s = 0 ∨ s = 1 := by
  constructor
  · intro h
    have e : gaussianReal mean s = gaussianReal mean (s ^ 2) := by
      ext A hA
      rw [← C72_normal_partial mean s hA, h A hA]
    have v := congrArg (fun μ => Var[id; μ]) e
    simp only [variance_id_gaussianReal] at v
    have v : s = s ^ 2 := by exact_mod_cast v
    rcases eq_or_ne s 0 with h0 | h0
    · exact .inl h0
    · refine .inr ?_
      have : s * 1 = s * s := by rw [mul_one, ← sq]; exact v
      exact (mul_left_cancel₀ h0 this).symm
  · rintro (rfl | rfl) A hA
    · rw [C72_normal_partial mean 0 hA]
      simp
    · rw [C72_normal_partial mean 1 hA]
      simp

/-- **C72**: `normal(lower, upper, mean, stddev)` has the normal distribution with mean `mean` and variance `stddev` under the condition that the
result is in `[lower, upper)`, unless this condition has probability zero. -/
theorem C72_normalIn_partial {lower upper : ℝ} (hb : lower < upper) (mean : ℝ) (s : NNReal)
    (h0 : gaussianReal mean s (Set.Ico lower upper) ≠ 0) {A : Set ℝ} (hA : MeasurableSet A) :
    probIn (fun f => normalIn f lower upper mean s) A = (gaussianReal mean s)[|Set.Ico lower upper] A := by
  have hm := measurable_scaled mean s
  have hrun : ∀ f ω, normalIn f lower upper mean s ω = normalLoop lower upper mean s f ω := by
    intro f ω
    unfold normalIn
    rw [require_bind hb, require_bind (show (s : ℝ) ≥ 0 from s.2)]
  rw [probIn_eq]
  refine rejection_pair splits_two ((hm.comp (measurable_fst.comp measurable_boxMuller)).prodMk (hm.comp (measurable_snd.comp measurable_boxMuller)))
    (map_pair mean s) measurableSet_Ico hA h0 _ ?_ ?_ ?_ ?_
  · ext ω
    rw [Set.mem_empty_iff_false, iff_false]
    exact ends_error ((hrun 0 ω).trans rfl) A
  · intro f ω h
    exact ends_ok ((hrun _ _).trans (normalLoop_first f h)) A
  · intro f ω h1 h2
    exact ends_ok ((hrun _ _).trans (normalLoop_second f h1 h2)) A
  · intro f ω h1 h2
    exact ends_congr ((hrun _ _).trans ((normalLoop_miss f h1 h2).trans (hrun _ _).symm)) A

/-- **C72**: the condition has positive probability if `stddev` is positive. -/
theorem C72_normalIn_possible {lower upper : ℝ} (hb : lower < upper) (mean : ℝ) {s : NNReal} (hs : s ≠ 0) :
    gaussianReal mean s (Set.Ico lower upper) ≠ 0 := by
  intro h
  have := gaussianReal_absolutelyContinuous' mean hs h
  rw [Real.volume_Ico, ENNReal.ofReal_eq_zero] at this
  linarith

/-- **C72**: with `stddev = 0` and `mean` outside of `[lower, upper)` the call never returns. -/
theorem C72_normalIn_diverges {lower upper mean : ℝ} (hb : lower < upper) (hm : mean ∉ Set.Ico lower upper) (fuel : ℕ) (ω : ℕ → ℝ) :
    normalIn fuel lower upper mean 0 ω = .error .fuel := by
  unfold normalIn
  rw [require_bind hb, require_bind (le_refl (0 : ℝ))]
  have hsc : ∀ x, scaled mean 0 x = mean := fun x => by simp [scaled]
  induction fuel generalizing ω with
  | zero => rfl
  | succ f ih => rw [normalLoop_miss f (by rwa [hsc]) (by rwa [hsc]), ih]

/-- **C72**: the results of the bounded versions are in `[lower, upper)`, whatever values in `(0, 1]` `real()` returns. -/
theorem C72_range {lower upper : ℝ} (fuel : ℕ) (ω : ℕ → ℝ) (hω : ∀ k, 0 < ω k ∧ ω k ≤ 1) :
    (∀ mean s x ω', normalIn fuel lower upper mean s ω = .ok (x, ω') → lower ≤ x ∧ x < upper) ∧
    (∀ r x ω', exponentialIn fuel lower upper r ω = .ok (x, ω') → lower ≤ x ∧ x < upper) := by
  constructor
  · intro mean s x ω' h
    unfold normalIn at h
    by_cases hb : lower < upper
    swap
    · rw [require_error hb] at h; simp at h
    by_cases hs : s ≥ 0
    swap
    · rw [require_bind hb, require_error hs] at h; simp at h
    rw [require_bind hb, require_bind hs] at h
    clear hω
    induction fuel generalizing ω with
    | zero => simp [normalLoop, lift_error] at h
    | succ f ih =>
      by_cases h1 : scaled mean s (boxMuller (ω 0, ω 1)).1 ∈ Set.Ico lower upper
      · rw [normalLoop_first f h1] at h
        simp only [Except.ok.injEq, Prod.mk.injEq] at h
        rw [← h.1]
        exact h1
      · by_cases h2 : scaled mean s (boxMuller (ω 0, ω 1)).2 ∈ Set.Ico lower upper
        · rw [normalLoop_second f h1 h2] at h
          simp only [Except.ok.injEq, Prod.mk.injEq] at h
          rw [← h.1]
          exact h2
        · rw [normalLoop_miss f h1 h2] at h
          exact ih _ h
  · intro r x ω' h
    unfold exponentialIn at h
    by_cases hb : lower < upper
    swap
    · rw [require_error hb] at h; simp at h
    by_cases hr : r > 0
    swap
    · rw [require_bind hb, require_error hr] at h; simp at h
    rw [require_bind hb, require_bind hr] at h
    induction fuel generalizing ω with
    | zero => simp [exponentialLoop, lift_error] at h
    | succ f ih =>
      by_cases h1 : lower - Real.log (ω 0) / r < upper
      · rw [exponentialLoop_hit f h1] at h
        simp only [Except.ok.injEq, Prod.mk.injEq] at h
        rw [← h.1]
        refine ⟨?_, h1⟩
        have : Real.log (ω 0) / r ≤ 0 := div_nonpos_of_nonpos_of_nonneg (Real.log_nonpos (hω 0).1.le (hω 0).2) hr.le
        linarith
      · rw [exponentialLoop_miss f h1] at h
        exact ih (tail ω) (fun k => hω (k + 1)) h

/-- **C72**: wrong arguments throw. -/
theorem C72_throws (fuel : ℕ) (ω : ℕ → ℝ) (lower upper mean s r : ℝ) :
    (s < 0 → normal mean s ω = .error .throw) ∧ (r ≤ 0 → exponential r ω = .error .throw) ∧
    (upper ≤ lower → normalIn fuel lower upper mean s ω = .error .throw ∧ exponentialIn fuel lower upper r ω = .error .throw) := by
  refine ⟨fun h => ?_, fun h => ?_, fun h => ⟨?_, ?_⟩⟩
  · unfold normal
    rw [require_error (by linarith)]
  · unfold exponential
    rw [require_error (by linarith)]
  · unfold normalIn
    rw [require_error (by linarith)]
  · unfold exponentialIn
    rw [require_error (by linarith)]

/-- Half of the values of `exponential(1)` are at most `log 2`. -/
example : probIn (fun _ => exponential 1) (Set.Iic (Real.log 2)) = ENNReal.ofReal (1 / 2) := by
  rw [C72_exponential_partial one_pos measurableSet_Iic]
  have := isProbabilityMeasure_expMeasure (r := 1) one_pos
  rw [← ofReal_cdf, cdf_expMeasure_eq one_pos, if_pos (Real.log_nonneg (by norm_num)), one_mul, Real.exp_neg, Real.exp_log two_pos]
  norm_num

/-- `normal(0, 4)` has variance 4, not 16. -/
example : ¬∀ A, MeasurableSet A → probIn (fun _ => normal 0 (4 : NNReal)) A = gaussianReal 0 (4 ^ 2) A := by
  rw [C72_stddev_refuted]
  norm_num

/-- The truncated normal distribution is not trivial. -/
example : probIn (fun f => normalIn f 0 1 0 (1 : NNReal)) (Set.Ico 0 1) = 1 := by
  have h := C72_normalIn_possible (zero_lt_one (α := ℝ)) 0 (s := 1) one_ne_zero
  rw [C72_normalIn_partial zero_lt_one 0 1 h measurableSet_Ico]
  exact cond_apply_self h (measure_ne_top _ _)

end ICPC.Props
