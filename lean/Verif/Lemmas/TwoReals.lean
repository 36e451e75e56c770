import Verif.Lemmas.FloatDist
import Verif.Lemmas.WordFn
import Verif.Lemmas.Ideal2

/-!
# Two numbers of `real()` against two uniformly distributed numbers
-/

namespace ICPC.TwoReals

open MeasureTheory Spec ICPC.Engine ICPC.Fp ICPC.Props ICPC.Calls ICPC.Ideal ProbabilityTheory

/-- The law of `real()`. -/
noncomputable def law : Measure ℝ := Measure.sum fun q : ℚ => engine (Yields realWords (· = q)) • Measure.dirac (q : ℝ)

theorem law_apply (A : Set ℝ) (hA : MeasurableSet A) : law A = engine (Yields realWords fun q => (q : ℝ) ∈ A) := by
  classical
  unfold law
  rw [Measure.sum_apply _ hA, chance_sum seq_realWords fun q : ℚ => (q : ℝ) ∈ A]
  refine tsum_congr fun q => ?_
  rw [Measure.smul_apply, Measure.dirac_apply' _ hA, smul_eq_mul, Set.indicator_apply]
  rfl

theorem yields_first (Q : ℚ → Prop) : Yields realWords Q = {ω | ∃ v, First ω v ∧ Q v} := by
  ext ω
  constructor
  · rintro ⟨n, a, rest, h, hq⟩; exact ⟨a, ⟨n, rest, h⟩, hq⟩
  · rintro ⟨v, ⟨n, rest, h⟩, hq⟩; exact ⟨n, v, rest, h, hq⟩

instance law_isProb : IsProbabilityMeasure law := ⟨by
  rw [law_apply _ MeasurableSet.univ, yields_first]
  have := first_ends
  simp only [Set.mem_univ, and_true]
  unfold Measure.real at this
  rw [← ENNReal.toReal_one] at this
  exact (ENNReal.toReal_eq_toReal_iff' (measure_ne_top _ _) (by simp)).1 this⟩

/-- Two calls of `real()`. -/
def pairWords : WordFn (ℚ × ℚ) := WordFn.andThen realWords fun x => WordFn.andThen realWords fun y ws => some ((x, y), ws)

theorem pair_apply {S : Set (ℝ × ℝ)} (hS : MeasurableSet S) :
    engine (Yields pairWords fun p => ((p.1 : ℝ), (p.2 : ℝ)) ∈ S) = (law.prod law) S := by
  classical
  rw [Measure.prod_apply hS]
  have hm : Measurable fun x => law (Prod.mk x ⁻¹' S) := measurable_measure_prodMk_left hS
  conv_rhs => arg 1; rw [law]
  rw [lintegral_sum_measure]
  unfold pairWords
  rw [chance_andThen seq_realWords]
  refine tsum_congr fun q => ?_
  rw [lintegral_smul_measure, lintegral_dirac' _ hm, smul_eq_mul, chance_andThen seq_realWords, law_apply _ (measurable_prodMk_left hS),
    chance_sum seq_realWords fun y : ℚ => (y : ℝ) ∈ Prod.mk (q : ℝ) ⁻¹' S]
  congr 1
  refine tsum_congr fun y => ?_
  rw [yields_pure]
  rfl

instance uniform_isProb : IsProbabilityMeasure uniform01 := ⟨by
  unfold uniform01
  rw [Measure.restrict_apply_univ, Real.volume_Ioo]; simp⟩

theorem law_Iio_ge (s : ℝ) (h : s ≤ 1) : s - 1 / 2 ^ 52 ≤ law.real (Set.Iio s) := by
  unfold Measure.real
  rw [law_apply _ measurableSet_Iio, yields_first]
  exact below_ge s h

theorem law_Iio_le (s : ℝ) (h : 0 ≤ s) : law.real (Set.Iio s) ≤ s + 1 / 2 ^ 52 := by
  unfold Measure.real
  rw [law_apply _ measurableSet_Iio, yields_first]
  exact below_le s h

theorem law_Iic_le (s : ℝ) (h : 0 ≤ s) : law.real (Set.Iic s) ≤ s + 1 / 2 ^ 52 := by
  refine le_of_forall_pos_le_add fun δ hδ => ?_
  have h1 : law.real (Set.Iic s) ≤ law.real (Set.Iio (s + δ)) := measureReal_mono (fun x (hx : x ≤ s) => show x < s + δ by linarith)
  have := law_Iio_le (s + δ) (by linarith)
  linarith

theorem law_support : law (Set.Ioc 0 1)ᶜ = 0 := by
  rw [law_apply _ measurableSet_Ioc.compl]
  have h : Yields realWords (fun q => (q : ℝ) ∈ (Set.Ioc (0 : ℝ) 1)ᶜ) ⊆ {ω | ¬ Words ω} := by
    rintro ω ⟨n, q, rest, h, hq⟩ hw
    obtain ⟨h0, h1⟩ := first_range hw ⟨n, rest, h⟩
    exact hq ⟨by exact_mod_cast h0, by exact_mod_cast h1⟩
  have h2 := not_words_real
  unfold Measure.real at h2
  rw [ENNReal.toReal_eq_zero_iff] at h2
  exact measure_mono_null h (h2.resolve_right (measure_ne_top _ _))

theorem uniform_real {a b : ℝ} (h0 : 0 ≤ a) (h : a ≤ b) (h1 : b ≤ 1) {A : Set ℝ} (hs1 : Set.Ioo a b ⊆ A) (hs2 : A ∩ Set.Ioo 0 1 ⊆ Set.Icc a b) :
    uniform01.real A = b - a := by
  have e1 : uniform01 (Set.Ioo a b) = ENNReal.ofReal (b - a) := by
    unfold uniform01
    rw [Measure.restrict_apply measurableSet_Ioo, Set.inter_eq_left.2 (Set.Ioo_subset_Ioo h0 h1), Real.volume_Ioo]
  have e2 : uniform01 A ≤ ENNReal.ofReal (b - a) := by
    unfold uniform01
    rw [Measure.restrict_apply' measurableSet_Ioo, ← Real.volume_Icc]
    exact measure_mono hs2
  have e3 : uniform01 A = ENNReal.ofReal (b - a) := le_antisymm e2 (e1 ▸ measure_mono hs1)
  unfold Measure.real
  rw [e3, ENNReal.toReal_ofReal (by linarith)]

/-- `real()` is in an interval with the probability of its length, up to twice the error. -/
theorem interval_near {A : Set ℝ} (hA : MeasurableSet A) (hc : (A ∩ Set.Ioc 0 1).OrdConnected) :
    |law.real A - uniform01.real A| ≤ 2 / 2 ^ 52 := by
  have hlaw : law.real A = law.real (A ∩ Set.Ioc 0 1) := by
    unfold Measure.real
    congr 1
    refine le_antisymm ?_ (measure_mono Set.inter_subset_left)
    calc law A ≤ law ((A ∩ Set.Ioc 0 1) ∪ (Set.Ioc 0 1)ᶜ) := measure_mono (by
          intro x hx
          by_cases h : x ∈ Set.Ioc (0 : ℝ) 1
          · exact .inl ⟨hx, h⟩
          · exact .inr h)
      _ ≤ law (A ∩ Set.Ioc 0 1) + law (Set.Ioc 0 1)ᶜ := measure_union_le _ _
      _ = law (A ∩ Set.Ioc 0 1) := by rw [law_support, add_zero]
  have hκ : (0 : ℝ) < 1 / 2 ^ 52 := by positivity
  have h2κ : (2 : ℝ) / 2 ^ 52 = 2 * (1 / 2 ^ 52) := by ring
  rcases Set.eq_empty_or_nonempty (A ∩ Set.Ioc 0 1) with he | hne
  · have h0 : uniform01.real A = 0 := by
      unfold Measure.real uniform01
      rw [Measure.restrict_apply hA]
      have : A ∩ Set.Ioo 0 1 = ∅ := Set.subset_empty_iff.1 (he ▸ Set.inter_subset_inter_right A Set.Ioo_subset_Ioc_self)
      rw [this]; simp
    rw [hlaw, he, h0]
    simp only [measureReal_empty, sub_self, abs_zero]
    positivity
  have hb1 : BddBelow (A ∩ Set.Ioc 0 1) := ⟨0, fun x hx => hx.2.1.le⟩
  have hb2 : BddAbove (A ∩ Set.Ioc 0 1) := ⟨1, fun x hx => hx.2.2⟩
  set a := sInf (A ∩ Set.Ioc 0 1) with ha
  set b := sSup (A ∩ Set.Ioc 0 1) with hb
  have ha0 : 0 ≤ a := le_csInf hne fun x hx => hx.2.1.le
  have hb1' : b ≤ 1 := csSup_le hne fun x hx => hx.2.2
  have hab : a ≤ b := csInf_le_csSup hne hb1 hb2
  have hsub1 : Set.Ioo a b ⊆ A ∩ Set.Ioc 0 1 := by
    rintro x ⟨h1, h2⟩
    obtain ⟨y, hy, hy2⟩ := exists_lt_of_csInf_lt hne h1
    obtain ⟨z, hz, hz2⟩ := exists_lt_of_lt_csSup hne h2
    exact hc.out hy hz ⟨hy2.le, hz2.le⟩
  have hsub2 : A ∩ Set.Ioc 0 1 ⊆ Set.Icc a b := fun x hx => ⟨csInf_le hb1 hx, le_csSup hb2 hx⟩
  rw [uniform_real ha0 hab hb1' (hsub1.trans Set.inter_subset_left)
    ((Set.inter_subset_inter_right A Set.Ioo_subset_Ioc_self).trans hsub2), hlaw, abs_le, h2κ]
  constructor
  · have h1 : law.real (Set.Iio b) ≤ law.real (A ∩ Set.Ioc 0 1) + law.real (Set.Iic a) :=
      (measureReal_mono (by
        intro x (hx : x < b)
        by_cases h : x ≤ a
        · exact .inr h
        · exact .inl (hsub1 ⟨not_le.1 h, hx⟩))).trans (measureReal_union_le _ _)
    have := law_Iic_le a ha0
    have := law_Iio_ge b hb1'
    linarith
  · have h1 : law.real (A ∩ Set.Ioc 0 1) + law.real (Set.Iio a) ≤ law.real (Set.Iic b) := by
      rw [← measureReal_union (by
        rw [Set.disjoint_left]
        intro x hx (hx2 : x < a)
        have := (hsub2 hx).1
        linarith) measurableSet_Iio]
      refine measureReal_mono ?_
      rintro x (hx | hx)
      · exact (hsub2 hx).2
      · exact (show x < a from hx).le.trans hab
    have := law_Iic_le b (ha0.trans hab)
    have := law_Iio_ge a (hab.trans hb1')
    linarith

private theorem prod_le {μ ν ν' : Measure ℝ} [IsProbabilityMeasure μ] [IsProbabilityMeasure ν] [IsProbabilityMeasure ν'] {S : Set (ℝ × ℝ)}
    (hS : MeasurableSet S) (c : ENNReal) (h : ∀ᵐ x ∂μ, ν (Prod.mk x ⁻¹' S) ≤ ν' (Prod.mk x ⁻¹' S) + c) :
    (μ.prod ν) S ≤ (μ.prod ν') S + c := by
  rw [Measure.prod_apply hS, Measure.prod_apply hS]
  refine (lintegral_mono_ae h).trans ?_
  rw [lintegral_add_right _ measurable_const, lintegral_const, measure_univ, mul_one]

private theorem prod_le' {μ ν ν' : Measure ℝ} [IsProbabilityMeasure μ] [IsProbabilityMeasure ν] [IsProbabilityMeasure ν'] {S : Set (ℝ × ℝ)}
    (hS : MeasurableSet S) (c : ENNReal) (h : ∀ᵐ y ∂μ, ν ((fun x => (x, y)) ⁻¹' S) ≤ ν' ((fun x => (x, y)) ⁻¹' S) + c) :
    (ν.prod μ) S ≤ (ν'.prod μ) S + c := by
  rw [Measure.prod_apply_symm hS, Measure.prod_apply_symm hS]
  refine (lintegral_mono_ae h).trans ?_
  rw [lintegral_add_right _ measurable_const, lintegral_const, measure_univ, mul_one]

private theorem near_le {μ ν : Measure ℝ} [IsProbabilityMeasure μ] [IsProbabilityMeasure ν] {A : Set ℝ} {c : ℝ} (hc : 0 ≤ c) (h : |μ.real A - ν.real A| ≤ c) :
    μ A ≤ ν A + ENNReal.ofReal c ∧ ν A ≤ μ A + ENNReal.ofReal c := by
  have h := abs_le.1 h
  rw [← ENNReal.ofReal_toReal (measure_ne_top μ A), ← ENNReal.ofReal_toReal (measure_ne_top ν A), ← ENNReal.ofReal_add ENNReal.toReal_nonneg hc,
    ← ENNReal.ofReal_add ENNReal.toReal_nonneg hc]
  unfold Measure.real at h
  exact ⟨ENNReal.ofReal_le_ofReal (by linarith), ENNReal.ofReal_le_ofReal (by linarith)⟩

/-- A set whose sections have almost the probability of uniformly distributed numbers. -/
theorem pair_close {S : Set (ℝ × ℝ)} (hS : MeasurableSet S) {c₁ c₂ : ℝ} (hc₁ : 0 ≤ c₁) (hc₂ : 0 ≤ c₂)
    (h1 : ∀ x ∈ Set.Ioc (0 : ℝ) 1, |law.real (Prod.mk x ⁻¹' S) - uniform01.real (Prod.mk x ⁻¹' S)| ≤ c₁)
    (h2 : ∀ y ∈ Set.Ioo (0 : ℝ) 1, |law.real ((fun x => (x, y)) ⁻¹' S) - uniform01.real ((fun x => (x, y)) ⁻¹' S)| ≤ c₂) :
    |(law.prod law).real S - (uniform01.prod uniform01).real S| ≤ c₁ + c₂ := by
  have s1 : ∀ᵐ x ∂law, x ∈ Set.Ioc (0 : ℝ) 1 := by rw [ae_iff]; exact law_support
  have s2 : ∀ᵐ y ∂uniform01, y ∈ Set.Ioo (0 : ℝ) 1 := ae_restrict_mem measurableSet_Ioo
  have a1 := prod_le (μ := law) (ν := law) (ν' := uniform01) hS (ENNReal.ofReal c₁) (s1.mono fun x hx => (near_le hc₁ (h1 x hx)).1)
  have a2 := prod_le (μ := law) (ν := uniform01) (ν' := law) hS (ENNReal.ofReal c₁) (s1.mono fun x hx => (near_le hc₁ (h1 x hx)).2)
  have b1 := prod_le' (μ := uniform01) (ν := law) (ν' := uniform01) hS (ENNReal.ofReal c₂) (s2.mono fun y hy => (near_le hc₂ (h2 y hy)).1)
  have b2 := prod_le' (μ := uniform01) (ν := uniform01) (ν' := law) hS (ENNReal.ofReal c₂) (s2.mono fun y hy => (near_le hc₂ (h2 y hy)).2)
  have toR : ∀ {μ ν : Measure (ℝ × ℝ)} [IsProbabilityMeasure μ] [IsProbabilityMeasure ν] {c : ℝ}, 0 ≤ c → μ S ≤ ν S + ENNReal.ofReal c →
      μ.real S ≤ ν.real S + c := by
    intro μ ν _ _ c hc h
    have := ENNReal.toReal_mono (ENNReal.add_ne_top.2 ⟨measure_ne_top _ _, ENNReal.ofReal_ne_top⟩) h
    rwa [ENNReal.toReal_add (measure_ne_top _ _) ENNReal.ofReal_ne_top, ENNReal.toReal_ofReal hc] at this
  have a1 := toR hc₁ a1
  have a2 := toR hc₁ a2
  have b1 := toR hc₂ b1
  have b2 := toR hc₂ b2
  rw [abs_le]
  constructor <;> linarith

theorem pair_real {S : Set (ℝ × ℝ)} (hS : MeasurableSet S) :
    engine.real (Yields pairWords fun p => ((p.1 : ℝ), (p.2 : ℝ)) ∈ S) = (law.prod law).real S := by
  unfold Measure.real; rw [pair_apply hS]

/-- A set whose sections are intervals. -/
theorem pair_near {S : Set (ℝ × ℝ)} (hS : MeasurableSet S) (h1 : ∀ x ∈ Set.Ioc (0 : ℝ) 1, ((Prod.mk x ⁻¹' S) ∩ Set.Ioc 0 1).OrdConnected)
    (h2 : ∀ y ∈ Set.Ioo (0 : ℝ) 1, (((fun x => (x, y)) ⁻¹' S) ∩ Set.Ioc 0 1).OrdConnected) :
    |engine.real (Yields pairWords fun p => ((p.1 : ℝ), (p.2 : ℝ)) ∈ S) - (uniform01.prod uniform01).real S| ≤ 4 / 2 ^ 52 := by
  have hc : (0 : ℝ) ≤ 2 / 2 ^ 52 := by positivity
  have h4 : (4 : ℝ) / 2 ^ 52 = 2 / 2 ^ 52 + 2 / 2 ^ 52 := by ring
  rw [pair_real hS, h4]
  exact pair_close hS hc hc (fun x hx => interval_near (measurable_prodMk_left hS) (h1 x hx))
    (fun y hy => interval_near (measurable_prodMk_right hS) (h2 y hy))

theorem cos_between {x y z : ℝ} (h0 : 0 ≤ x) (h1 : x ≤ y) (h2 : y ≤ z) (h3 : z ≤ 1) :
    Real.cos (2 * Real.pi * y) ≤ max (Real.cos (2 * Real.pi * x)) (Real.cos (2 * Real.pi * z)) := by
  have hpi := Real.pi_pos
  rcases le_total y (1 / 2) with h | h
  · refine le_max_of_le_left (Real.cos_le_cos_of_nonneg_of_le_pi (by positivity) (by nlinarith) (by nlinarith))
  · refine le_max_of_le_right ?_
    have e : ∀ w : ℝ, Real.cos (2 * Real.pi * w) = Real.cos (2 * Real.pi * (1 - w)) := by
      intro w
      rw [show 2 * Real.pi * (1 - w) = 2 * Real.pi - 2 * Real.pi * w by ring, Real.cos_two_pi_sub]
    rw [e y, e z]
    exact Real.cos_le_cos_of_nonneg_of_le_pi (mul_nonneg (by linarith) (by linarith)) (by nlinarith) (by nlinarith)

/-- The transformation of Box and Muller on two numbers of `real()`. -/
theorem normal_near (c : ℝ) :
    |engine.real (Yields pairWords fun p => √(-2 * Real.log p.1) * Real.cos (2 * Real.pi * p.2) < c) - (gaussianReal 0 1).real (Set.Iio c)| ≤
      4 / 2 ^ 52 := by
  have hm : Measurable fun u => (boxMuller u).1 := measurable_fst.comp measurable_boxMuller
  have hS : MeasurableSet {u : ℝ × ℝ | (boxMuller u).1 < c} := hm measurableSet_Iio
  have e : (uniform01.prod uniform01).real {u : ℝ × ℝ | (boxMuller u).1 < c} = (gaussianReal 0 1).real (Set.Iio c) := by
    have e1 : (uniform01.prod uniform01).map (fun u => (boxMuller u).1) = gaussianReal 0 1 := by
      have : (fun u => (boxMuller u).1) = Prod.fst ∘ boxMuller := rfl
      rw [this, ← Measure.map_map measurable_fst measurable_boxMuller, map_boxMuller, ← Measure.fst, Measure.fst_prod]
    unfold Measure.real
    rw [← e1, Measure.map_apply hm measurableSet_Iio]
    rfl
  rw [← e]
  refine pair_near hS ?_ ?_
  · intro x hx
    refine ⟨?_⟩
    rintro a ⟨ha, ha0⟩ b ⟨hb, hb0⟩ y ⟨h1, h2⟩
    refine ⟨?_, ha0.1.trans_le h1, h2.trans hb0.2⟩
    have ha : √(-2 * Real.log x) * Real.cos (2 * Real.pi * a) < c := ha
    have hb : √(-2 * Real.log x) * Real.cos (2 * Real.pi * b) < c := hb
    show √(-2 * Real.log x) * Real.cos (2 * Real.pi * y) < c
    rcases le_max_iff.1 (cos_between ha0.1.le h1 h2 hb0.2) with h | h
    · exact (mul_le_mul_of_nonneg_left h (Real.sqrt_nonneg _)).trans_lt ha
    · exact (mul_le_mul_of_nonneg_left h (Real.sqrt_nonneg _)).trans_lt hb
  · intro y hy
    refine ⟨?_⟩
    rintro a ⟨ha, ha0⟩ b ⟨hb, hb0⟩ x ⟨h1, h2⟩
    refine ⟨?_, ha0.1.trans_le h1, h2.trans hb0.2⟩
    have ha : √(-2 * Real.log a) * Real.cos (2 * Real.pi * y) < c := ha
    have hb : √(-2 * Real.log b) * Real.cos (2 * Real.pi * y) < c := hb
    show √(-2 * Real.log x) * Real.cos (2 * Real.pi * y) < c
    have l1 := Real.log_le_log ha0.1 h1
    have l2 := Real.log_le_log (ha0.1.trans_le h1) h2
    rcases le_total 0 (Real.cos (2 * Real.pi * y)) with h | h
    · exact (mul_le_mul_of_nonneg_right (Real.sqrt_le_sqrt (by linarith)) h).trans_lt ha
    · exact (mul_le_mul_of_nonpos_right (Real.sqrt_le_sqrt (by linarith)) h).trans_lt hb

/-- The distribution function of the normal distribution is Lipschitz. -/
theorem gaussian_lipschitz (c δ : ℝ) (hδ : 0 ≤ δ) : (gaussianReal 0 1).real (Set.Iio (c + δ)) ≤ (gaussianReal 0 1).real (Set.Iio c) + δ := by
  have h1 : (gaussianReal 0 1).real (Set.Iio (c + δ)) ≤ (gaussianReal 0 1).real (Set.Iio c) + (gaussianReal 0 1).real (Set.Ico c (c + δ)) := by
    refine (measureReal_mono ?_).trans (measureReal_union_le _ _)
    intro x (hx : x < c + δ)
    by_cases h : x < c
    · exact .inl h
    · exact .inr ⟨not_lt.1 h, hx⟩
  have h2 : gaussianReal 0 1 (Set.Ico c (c + δ)) ≤ ENNReal.ofReal δ := by
    rw [gaussianReal_of_var_ne_zero 0 one_ne_zero, withDensity_apply _ measurableSet_Ico]
    calc ∫⁻ x in Set.Ico c (c + δ), gaussianPDF 0 1 x ≤ ∫⁻ _ in Set.Ico c (c + δ), 1 := by
          refine lintegral_mono fun x => ?_
          unfold gaussianPDF gaussianPDFReal
          rw [← ENNReal.ofReal_one]
          refine ENNReal.ofReal_le_ofReal ?_
          have hp : 1 ≤ √(2 * Real.pi * ((1 : NNReal) : ℝ)) := by
            rw [Real.one_le_sqrt]
            have := Real.two_le_pi
            simp only [NNReal.coe_one]; linarith
          have he : Real.exp (-(x - 0) ^ 2 / (2 * ((1 : NNReal) : ℝ))) ≤ 1 := Real.exp_le_one_iff.2 (by
            simp only [NNReal.coe_one]
            have := sq_nonneg (x - 0)
            linarith)
          have hi : (√(2 * Real.pi * ((1 : NNReal) : ℝ)))⁻¹ ≤ 1 := inv_le_one_of_one_le₀ hp
          have := Real.exp_pos (-(x - 0) ^ 2 / (2 * ((1 : NNReal) : ℝ)))
          have h0 : 0 ≤ (√(2 * Real.pi * ((1 : NNReal) : ℝ)))⁻¹ := by positivity
          nlinarith
      _ = ENNReal.ofReal δ := by
          rw [lintegral_const, one_mul, Measure.restrict_apply_univ, Real.volume_Ico]
          congr 1; ring
  have h3 : (gaussianReal 0 1).real (Set.Ico c (c + δ)) ≤ δ := by
    have := ENNReal.toReal_mono ENNReal.ofReal_ne_top h2
    rwa [ENNReal.toReal_ofReal hδ] at this
  linarith

end ICPC.TwoReals
