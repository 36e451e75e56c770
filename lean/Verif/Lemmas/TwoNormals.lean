import Verif.Lemmas.TwoReals

/-!
# Both results of the transformation of Box and Muller on two numbers of `real()`
-/

namespace ICPC.TwoReals

open MeasureTheory Spec ICPC.Engine ICPC.Fp ICPC.Props ICPC.Calls ICPC.Ideal ProbabilityTheory

private theorem three_sum {μ : Measure ℝ} [IsProbabilityMeasure μ] (hμ : μ (Set.Ioc 0 1)ᶜ = 0) {A : Set ℝ} (hA : MeasurableSet A) :
    μ.real A = μ.real (A ∩ Set.Ioc 0 (1 / 4)) + μ.real (A ∩ Set.Ioc (1 / 4) (3 / 4)) + μ.real (A ∩ Set.Ioc (3 / 4) 1) := by
  have h0 : μ.real A = μ.real (A ∩ Set.Ioc 0 1) := by
    unfold Measure.real
    congr 1
    refine le_antisymm ?_ (measure_mono Set.inter_subset_left)
    calc μ A ≤ μ ((A ∩ Set.Ioc 0 1) ∪ (Set.Ioc 0 1)ᶜ) := measure_mono (by
          intro x hx
          by_cases h : x ∈ Set.Ioc (0 : ℝ) 1
          · exact .inl ⟨hx, h⟩
          · exact .inr h)
      _ ≤ μ (A ∩ Set.Ioc 0 1) + μ (Set.Ioc 0 1)ᶜ := measure_union_le _ _
      _ = μ (A ∩ Set.Ioc 0 1) := by rw [hμ, add_zero]
  rw [h0, ← measureReal_union _ (hA.inter measurableSet_Ioc), ← measureReal_union _ (hA.inter measurableSet_Ioc),
    ← Set.inter_union_distrib_left, ← Set.inter_union_distrib_left, Set.Ioc_union_Ioc_eq_Ioc (by norm_num) (by norm_num),
    Set.Ioc_union_Ioc_eq_Ioc (by norm_num) (by norm_num)]
  · rw [← Set.inter_union_distrib_left, Set.Ioc_union_Ioc_eq_Ioc (by norm_num) (by norm_num), Set.disjoint_left]
    rintro x ⟨-, h1⟩ ⟨-, h2⟩
    exact absurd h2.1 (not_lt.2 h1.2)
  · rw [Set.disjoint_left]
    rintro x ⟨-, h1⟩ ⟨-, h2⟩
    exact absurd h2.1 (not_lt.2 h1.2)

private theorem uniform_support : uniform01 (Set.Ioc 0 1)ᶜ = 0 := by
  unfold uniform01
  rw [Measure.restrict_apply measurableSet_Ioc.compl]
  have : (Set.Ioc (0 : ℝ) 1)ᶜ ∩ Set.Ioo 0 1 = ∅ := by
    ext x
    simp only [Set.mem_inter_iff, Set.mem_compl_iff, Set.mem_empty_iff_false, iff_false, not_and]
    exact fun h h2 => h ⟨h2.1, h2.2.le⟩
  rw [this, measure_empty]

private theorem three_near {A : Set ℝ} (hA : MeasurableSet A) (h1 : (A ∩ Set.Ioc 0 (1 / 4)).OrdConnected)
    (h2 : (A ∩ Set.Ioc (1 / 4) (3 / 4)).OrdConnected) (h3 : (A ∩ Set.Ioc (3 / 4) 1).OrdConnected) :
    |law.real A - uniform01.real A| ≤ 6 / 2 ^ 52 := by
  have k1 := abs_le.1 (interval_near (hA.inter measurableSet_Ioc) (h1.inter Set.ordConnected_Ioc))
  have k2 := abs_le.1 (interval_near (hA.inter measurableSet_Ioc) (h2.inter Set.ordConnected_Ioc))
  have k3 := abs_le.1 (interval_near (hA.inter measurableSet_Ioc) (h3.inter Set.ordConnected_Ioc))
  rw [three_sum law_support hA, three_sum uniform_support hA, abs_le]
  have e : (6 : ℝ) / 2 ^ 52 = 2 / 2 ^ 52 + 2 / 2 ^ 52 + 2 / 2 ^ 52 := by ring
  rw [e]
  constructor <;> linarith

private theorem sin_between {x y z : ℝ} (h1 : x ≤ y) (h2 : y ≤ z)
    (h : (0 < x ∧ z ≤ 1 / 4) ∨ (1 / 4 < x ∧ z ≤ 3 / 4) ∨ (3 / 4 < x ∧ z ≤ 1)) :
    Real.sin (2 * Real.pi * y) ≤ max (Real.sin (2 * Real.pi * x)) (Real.sin (2 * Real.pi * z)) := by
  have hpi := Real.pi_pos
  rcases h with ⟨a, b⟩ | ⟨a, b⟩ | ⟨a, b⟩
  · exact le_max_of_le_right (Real.sin_le_sin_of_le_of_le_pi_div_two (by nlinarith) (by nlinarith) (by nlinarith))
  · refine le_max_of_le_left ?_
    rw [← Real.sin_pi_sub (2 * Real.pi * y), ← Real.sin_pi_sub (2 * Real.pi * x)]
    exact Real.sin_le_sin_of_le_of_le_pi_div_two (by nlinarith) (by nlinarith) (by nlinarith)
  · refine le_max_of_le_right ?_
    rw [← Real.sin_sub_two_pi (2 * Real.pi * y), ← Real.sin_sub_two_pi (2 * Real.pi * z)]
    exact Real.sin_le_sin_of_le_of_le_pi_div_two (by nlinarith) (by nlinarith) (by nlinarith)

/-- The law of both results. -/
noncomputable def bothLaw : Measure (ℝ × ℝ) := (law.prod law).map boxMuller

/-- The law of two independent numbers with the standard normal distribution. -/
noncomputable def bothIdeal : Measure (ℝ × ℝ) := (gaussianReal 0 1).prod (gaussianReal 0 1)

instance : IsProbabilityMeasure bothLaw := Measure.isProbabilityMeasure_map measurable_boxMuller.aemeasurable
instance : IsProbabilityMeasure bothIdeal := by unfold bothIdeal; infer_instance

theorem bothLaw_real {T : Set (ℝ × ℝ)} (hT : MeasurableSet T) :
    engine.real (Yields pairWords fun p => boxMuller ((p.1 : ℝ), (p.2 : ℝ)) ∈ T) = bothLaw.real T := by
  have e := pair_real (measurable_boxMuller hT)
  unfold Measure.real at e ⊢
  rw [bothLaw, Measure.map_apply measurable_boxMuller hT]
  exact e

private theorem radius_between {x y z c w : ℝ} (h0 : 0 < x) (h1 : x ≤ y) (h2 : y ≤ z) (ha : √(-2 * Real.log x) * w < c)
    (hb : √(-2 * Real.log z) * w < c) : √(-2 * Real.log y) * w < c := by
  have l1 := Real.log_le_log h0 h1
  have l2 := Real.log_le_log (h0.trans_le h1) h2
  rcases le_total 0 w with h | h
  · exact (mul_le_mul_of_nonneg_right (Real.sqrt_le_sqrt (by linarith)) h).trans_lt ha
  · exact (mul_le_mul_of_nonpos_right (Real.sqrt_le_sqrt (by linarith)) h).trans_lt hb

private theorem set_close {T : Set (ℝ × ℝ)} (hT : MeasurableSet T)
    (h1 : ∀ r a b y : ℝ, a ≤ y → y ≤ b → 0 ≤ r → (0 < a ∧ b ≤ 1 / 4) ∨ (1 / 4 < a ∧ b ≤ 3 / 4) ∨ (3 / 4 < a ∧ b ≤ 1) →
      (r * Real.cos (2 * Real.pi * a), r * Real.sin (2 * Real.pi * a)) ∈ T → (r * Real.cos (2 * Real.pi * b), r * Real.sin (2 * Real.pi * b)) ∈ T →
      (r * Real.cos (2 * Real.pi * y), r * Real.sin (2 * Real.pi * y)) ∈ T)
    (h2 : ∀ a b y θ : ℝ, 0 < a → a ≤ y → y ≤ b → boxMuller (a, θ) ∈ T → boxMuller (b, θ) ∈ T → boxMuller (y, θ) ∈ T) :
    |bothLaw.real T - bothIdeal.real T| ≤ 8 / 2 ^ 52 := by
  have hS := measurable_boxMuller hT
  have e1 : bothLaw.real T = (law.prod law).real (boxMuller ⁻¹' T) := by
    unfold Measure.real bothLaw; rw [Measure.map_apply measurable_boxMuller hT]
  have e2 : bothIdeal.real T = (uniform01.prod uniform01).real (boxMuller ⁻¹' T) := by
    unfold Measure.real bothIdeal; rw [← map_boxMuller, Measure.map_apply measurable_boxMuller hT]
  have e8 : (8 : ℝ) / 2 ^ 52 = 6 / 2 ^ 52 + 2 / 2 ^ 52 := by ring
  rw [e1, e2, e8]
  refine pair_close hS (by positivity) (by positivity) (fun x hx => ?_) (fun y hy => ?_)
  · have hr := Real.sqrt_nonneg (-2 * Real.log x)
    refine three_near (measurable_prodMk_left hS) ⟨?_⟩ ⟨?_⟩ ⟨?_⟩
    · rintro a ⟨ha, ha0⟩ b ⟨hb, hb0⟩ y ⟨k1, k2⟩
      exact ⟨h1 _ a b y k1 k2 hr (.inl ⟨ha0.1, hb0.2⟩) ha hb, ha0.1.trans_le k1, k2.trans hb0.2⟩
    · rintro a ⟨ha, ha0⟩ b ⟨hb, hb0⟩ y ⟨k1, k2⟩
      exact ⟨h1 _ a b y k1 k2 hr (.inr (.inl ⟨ha0.1, hb0.2⟩)) ha hb, ha0.1.trans_le k1, k2.trans hb0.2⟩
    · rintro a ⟨ha, ha0⟩ b ⟨hb, hb0⟩ y ⟨k1, k2⟩
      exact ⟨h1 _ a b y k1 k2 hr (.inr (.inr ⟨ha0.1, hb0.2⟩)) ha hb, ha0.1.trans_le k1, k2.trans hb0.2⟩
  · refine interval_near (measurable_prodMk_right hS) ⟨?_⟩
    rintro a ⟨ha, ha0⟩ b ⟨hb, hb0⟩ x ⟨k1, k2⟩
    exact ⟨h2 a b x y ha0.1 k1 k2 ha hb, ha0.1.trans_le k1, k2.trans hb0.2⟩

private theorem cos_step {r a b y c : ℝ} (h1 : a ≤ y) (h2 : y ≤ b) (hr : 0 ≤ r)
    (h : (0 < a ∧ b ≤ 1 / 4) ∨ (1 / 4 < a ∧ b ≤ 3 / 4) ∨ (3 / 4 < a ∧ b ≤ 1)) (ha : r * Real.cos (2 * Real.pi * a) < c)
    (hb : r * Real.cos (2 * Real.pi * b) < c) : r * Real.cos (2 * Real.pi * y) < c := by
  have h0 : 0 ≤ a := by rcases h with h | h | h <;> linarith [h.1]
  have h3 : b ≤ 1 := by rcases h with h | h | h <;> linarith [h.2]
  rcases le_max_iff.1 (cos_between h0 h1 h2 h3) with k | k
  · exact (mul_le_mul_of_nonneg_left k hr).trans_lt ha
  · exact (mul_le_mul_of_nonneg_left k hr).trans_lt hb

private theorem sin_step {r a b y c : ℝ} (h1 : a ≤ y) (h2 : y ≤ b) (hr : 0 ≤ r)
    (h : (0 < a ∧ b ≤ 1 / 4) ∨ (1 / 4 < a ∧ b ≤ 3 / 4) ∨ (3 / 4 < a ∧ b ≤ 1)) (ha : r * Real.sin (2 * Real.pi * a) < c)
    (hb : r * Real.sin (2 * Real.pi * b) < c) : r * Real.sin (2 * Real.pi * y) < c := by
  rcases le_max_iff.1 (sin_between h1 h2 h) with k | k
  · exact (mul_le_mul_of_nonneg_left k hr).trans_lt ha
  · exact (mul_le_mul_of_nonneg_left k hr).trans_lt hb

theorem first_close (a : ℝ) : |bothLaw.real (Set.Iio a ×ˢ Set.univ) - bothIdeal.real (Set.Iio a ×ˢ Set.univ)| ≤ 8 / 2 ^ 52 :=
  set_close (measurableSet_Iio.prod MeasurableSet.univ) (fun _ _ _ _ h1 h2 hr h ha hb => ⟨cos_step h1 h2 hr h ha.1 hb.1, trivial⟩)
    (fun _ _ _ _ h0 h1 h2 ha hb => ⟨radius_between h0 h1 h2 ha.1 hb.1, trivial⟩)

theorem second_close (b : ℝ) : |bothLaw.real (Set.univ ×ˢ Set.Iio b) - bothIdeal.real (Set.univ ×ˢ Set.Iio b)| ≤ 8 / 2 ^ 52 :=
  set_close (MeasurableSet.univ.prod measurableSet_Iio) (fun _ _ _ _ h1 h2 hr h ha hb => ⟨trivial, sin_step h1 h2 hr h ha.2 hb.2⟩)
    (fun _ _ _ _ h0 h1 h2 ha hb => ⟨trivial, radius_between h0 h1 h2 ha.2 hb.2⟩)

theorem rect_close (a b : ℝ) : |bothLaw.real (Set.Iio a ×ˢ Set.Iio b) - bothIdeal.real (Set.Iio a ×ˢ Set.Iio b)| ≤ 8 / 2 ^ 52 :=
  set_close (measurableSet_Iio.prod measurableSet_Iio)
    (fun _ _ _ _ h1 h2 hr h ha hb => ⟨cos_step h1 h2 hr h ha.1 hb.1, sin_step h1 h2 hr h ha.2 hb.2⟩)
    (fun _ _ _ _ h0 h1 h2 ha hb => ⟨radius_between h0 h1 h2 ha.1 hb.1, radius_between h0 h1 h2 ha.2 hb.2⟩)

private theorem diff_real {μ : Measure (ℝ × ℝ)} [IsProbabilityMeasure μ] {A B C : Set (ℝ × ℝ)} (hB : MeasurableSet B) (h : C = A \ B) (hs : B ⊆ A) :
    μ.real C = μ.real A - μ.real B := by rw [h, measureReal_sdiff hs hB]

/-- The pairs with the first number in `[l, t)`, or with the first one outside of `[l, u)` and the second one in `[l, t)`. -/
def chosen (l u t : ℝ) : Set (ℝ × ℝ) := {p | (l ≤ p.1 ∧ p.1 < t) ∨ (¬ (l ≤ p.1 ∧ p.1 < u) ∧ l ≤ p.2 ∧ p.2 < t)}

theorem measurable_chosen (l u t : ℝ) : MeasurableSet (chosen l u t) := by
  have m1 : ∀ a b : ℝ, MeasurableSet {p : ℝ × ℝ | a ≤ p.1 ∧ p.1 < b} := fun a b => measurable_fst measurableSet_Ico
  have m2 : ∀ a b : ℝ, MeasurableSet {p : ℝ × ℝ | a ≤ p.2 ∧ p.2 < b} := fun a b => measurable_snd measurableSet_Ico
  exact (m1 l t).union ((m1 l u).compl.inter (m2 l t))

private theorem chosen_sum {μ : Measure (ℝ × ℝ)} [IsProbabilityMeasure μ] {l u t : ℝ} (htu : t ≤ u) :
    μ.real (chosen l u t) = μ.real (Set.Ico l t ×ˢ Set.univ) + μ.real (Set.univ ×ˢ Set.Ico l t) - μ.real (Set.Ico l u ×ˢ Set.Ico l t) := by
  have h : chosen l u t = (Set.Ico l t ×ˢ Set.univ) ∪ ((Set.univ ×ˢ Set.Ico l t) \ (Set.Ico l u ×ˢ Set.Ico l t)) := by
    ext p
    simp only [chosen, Set.mem_ofPred_eq, Set.mem_union, Set.mem_prod, Set.mem_Ico, Set.mem_univ, and_true, Set.mem_sdiff, true_and]
    tauto
  rw [h, measureReal_union ?_ ((MeasurableSet.univ.prod measurableSet_Ico).diff (measurableSet_Ico.prod measurableSet_Ico)),
    measureReal_sdiff (Set.prod_mono (Set.subset_univ _) le_rfl) (measurableSet_Ico.prod measurableSet_Ico)]
  · ring
  · rw [Set.disjoint_left]
    rintro p ⟨⟨h1, h2⟩, -⟩ ⟨⟨-, h3⟩, h4⟩
    exact h4 ⟨⟨h1, h2.trans_le htu⟩, h3⟩

private theorem strip_fst {μ : Measure (ℝ × ℝ)} [IsProbabilityMeasure μ] {l t : ℝ} (hlt : l ≤ t) (B : Set ℝ) (hB : MeasurableSet B) :
    μ.real (Set.Ico l t ×ˢ B) = μ.real (Set.Iio t ×ˢ B) - μ.real (Set.Iio l ×ˢ B) := by
  refine diff_real (measurableSet_Iio.prod hB) ?_ (Set.prod_mono (Set.Iio_subset_Iio hlt) le_rfl)
  ext p
  simp only [Set.mem_prod, Set.mem_Ico, Set.mem_sdiff, Set.mem_Iio, not_and]
  constructor
  · rintro ⟨⟨h1, h2⟩, h3⟩
    exact ⟨⟨h2, h3⟩, fun h => absurd h (not_lt.2 h1)⟩
  · rintro ⟨⟨h2, h3⟩, h⟩
    exact ⟨⟨not_lt.1 fun h' => h h' h3, h2⟩, h3⟩

private theorem strip_snd {μ : Measure (ℝ × ℝ)} [IsProbabilityMeasure μ] {l t : ℝ} (hlt : l ≤ t) (B : Set ℝ) (hB : MeasurableSet B) :
    μ.real (B ×ˢ Set.Ico l t) = μ.real (B ×ˢ Set.Iio t) - μ.real (B ×ˢ Set.Iio l) := by
  refine diff_real (hB.prod measurableSet_Iio) ?_ (Set.prod_mono le_rfl (Set.Iio_subset_Iio hlt))
  ext p
  simp only [Set.mem_prod, Set.mem_Ico, Set.mem_sdiff, Set.mem_Iio, not_and]
  constructor
  · rintro ⟨h3, h1, h2⟩
    exact ⟨⟨h3, h2⟩, fun _ h => absurd h (not_lt.2 h1)⟩
  · rintro ⟨⟨h3, h2⟩, h⟩
    exact ⟨h3, not_lt.1 fun h' => h h3 h', h2⟩

theorem chosen_close {l u t : ℝ} (hlt : l ≤ t) (htu : t ≤ u) : |bothLaw.real (chosen l u t) - bothIdeal.real (chosen l u t)| ≤ 64 / 2 ^ 52 := by
  rw [chosen_sum htu, chosen_sum htu, strip_fst hlt _ MeasurableSet.univ, strip_fst hlt _ MeasurableSet.univ,
    strip_snd hlt _ MeasurableSet.univ, strip_snd hlt _ MeasurableSet.univ, strip_fst (hlt.trans htu) _ measurableSet_Ico,
    strip_fst (hlt.trans htu) _ measurableSet_Ico, strip_snd hlt _ measurableSet_Iio, strip_snd hlt _ measurableSet_Iio,
    strip_snd hlt _ measurableSet_Iio, strip_snd hlt _ measurableSet_Iio]
  have a1 := abs_le.1 (first_close t)
  have a2 := abs_le.1 (first_close l)
  have a3 := abs_le.1 (second_close t)
  have a4 := abs_le.1 (second_close l)
  have a5 := abs_le.1 (rect_close u t)
  have a6 := abs_le.1 (rect_close u l)
  have a7 := abs_le.1 (rect_close l t)
  have a8 := abs_le.1 (rect_close l l)
  have e : (64 : ℝ) / 2 ^ 52 = 8 * (8 / 2 ^ 52) := by ring
  rw [e, abs_le]
  generalize (8 : ℝ) / 2 ^ 52 = κ at *
  constructor <;> linarith

theorem chosen_ideal {l u t : ℝ} (hlt : l ≤ t) (htu : t ≤ u) :
    bothIdeal.real (chosen l u t) = (gaussianReal 0 1).real (Set.Ico l t) * (2 - (gaussianReal 0 1).real (Set.Ico l u)) := by
  rw [chosen_sum htu]
  unfold bothIdeal
  rw [measureReal_prod_prod, measureReal_prod_prod, measureReal_prod_prod]
  simp only [measureReal_def, measure_univ, ENNReal.toReal_one]
  ring

/-- The first number is close to `c` with small probability. -/
theorem first_strip (c δ : ℝ) (hδ : 0 < δ) : bothLaw.real {p | |p.1 - c| ≤ δ} ≤ 3 * δ + 16 / 2 ^ 52 := by
  have h1 : bothLaw.real {p | |p.1 - c| ≤ δ} ≤ bothLaw.real (Set.Ico (c - δ) (c + 2 * δ) ×ˢ Set.univ) := measureReal_mono (by
    intro p (hp : |p.1 - c| ≤ δ)
    have := abs_le.1 hp
    exact ⟨⟨by linarith, by linarith⟩, trivial⟩)
  rw [strip_fst (by linarith) _ MeasurableSet.univ] at h1
  have a1 := abs_le.1 (first_close (c + 2 * δ))
  have a2 := abs_le.1 (first_close (c - δ))
  have l := gaussian_lipschitz (c - δ) (3 * δ) (by linarith)
  rw [show c - δ + 3 * δ = c + 2 * δ by ring] at l
  have e : ∀ x, bothIdeal.real (Set.Iio x ×ˢ Set.univ) = (gaussianReal 0 1).real (Set.Iio x) := by
    intro x
    unfold bothIdeal
    rw [measureReal_prod_prod]
    simp only [measureReal_def, measure_univ, ENNReal.toReal_one, mul_one]
  rw [e] at a1 a2
  have e2 : (16 : ℝ) / 2 ^ 52 = 2 * (8 / 2 ^ 52) := by ring
  rw [e2]
  generalize (8 : ℝ) / 2 ^ 52 = κ at *
  linarith

/-- The second number is close to `c` with small probability. -/
theorem second_strip (c δ : ℝ) (hδ : 0 < δ) : bothLaw.real {p | |p.2 - c| ≤ δ} ≤ 3 * δ + 16 / 2 ^ 52 := by
  have h1 : bothLaw.real {p | |p.2 - c| ≤ δ} ≤ bothLaw.real (Set.univ ×ˢ Set.Ico (c - δ) (c + 2 * δ)) := measureReal_mono (by
    intro p (hp : |p.2 - c| ≤ δ)
    have := abs_le.1 hp
    exact ⟨trivial, ⟨by linarith, by linarith⟩⟩)
  rw [strip_snd (by linarith) _ MeasurableSet.univ] at h1
  have a1 := abs_le.1 (second_close (c + 2 * δ))
  have a2 := abs_le.1 (second_close (c - δ))
  have l := gaussian_lipschitz (c - δ) (3 * δ) (by linarith)
  rw [show c - δ + 3 * δ = c + 2 * δ by ring] at l
  have e : ∀ x, bothIdeal.real (Set.univ ×ˢ Set.Iio x) = (gaussianReal 0 1).real (Set.Iio x) := by
    intro x
    unfold bothIdeal
    rw [measureReal_prod_prod]
    simp only [measureReal_def, measure_univ, ENNReal.toReal_one, one_mul]
  rw [e] at a1 a2
  have e2 : (16 : ℝ) / 2 ^ 52 = 2 * (8 / 2 ^ 52) := by ring
  rw [e2]
  generalize (8 : ℝ) / 2 ^ 52 = κ at *
  linarith

end ICPC.TwoReals
