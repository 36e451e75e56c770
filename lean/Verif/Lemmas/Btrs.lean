import Verif.Lemmas.Ideal4
import Mathlib.MeasureTheory.Function.JacobianOneDim
import Mathlib.Analysis.Calculus.Deriv.Inv

/-!
# The transformation of the rejection method of `binomial`
-/

namespace ICPC.Ideal

open MeasureTheory Spec

/-- The distance of `x` from the border of the unit interval. -/
noncomputable def us (x : ℝ) : ℝ := 1 / 2 - |x - 1 / 2|

/-- The number of which the floor is taken. -/
noncomputable def shape (a b c x : ℝ) : ℝ := (2 * a / us x + b) * (x - 1 / 2) + c

/-- Its derivative. -/
noncomputable def slope (a b x : ℝ) : ℝ := a / (us x * us x) + b

theorem us_left {x : ℝ} (h : x ≤ 1 / 2) : us x = x := by
  unfold us
  rw [abs_of_nonpos (by linarith)]
  ring

theorem us_right {x : ℝ} (h : 1 / 2 ≤ x) : us x = 1 - x := by
  unfold us
  rw [abs_of_nonneg (by linarith)]
  ring

theorem us_pos {x : ℝ} (h0 : 0 < x) (h1 : x < 1) : 0 < us x := by
  rcases le_total x (1 / 2) with h | h
  · rw [us_left h]; exact h0
  · rw [us_right h]; linarith

theorem shape_left {a b c x : ℝ} (h0 : 0 < x) (h : x ≤ 1 / 2) : shape a b c x = 2 * a - a / x + b * (x - 1 / 2) + c := by
  unfold shape
  rw [us_left h]
  field_simp


theorem shape_right {a b c x : ℝ} (h : 1 / 2 ≤ x) (h1 : x < 1) : shape a b c x = a / (1 - x) - 2 * a + b * (x - 1 / 2) + c := by
  unfold shape
  rw [us_right h]
  have : 1 - x ≠ 0 := by linarith
  field_simp
  ring

theorem shape_half (a b c : ℝ) : shape a b c (1 / 2) = c := by
  unfold shape
  ring

theorem shape_lt_left {a b c x y : ℝ} (ha : 0 < a) (hb : 0 ≤ b) (h0 : 0 < x) (hxy : x < y) (h : y ≤ 1 / 2) : shape a b c x < shape a b c y := by
  rw [shape_left h0 (by linarith), shape_left (by linarith) h]
  have h1 : a / y < a / x := div_lt_div_of_pos_left ha h0 hxy
  have h2 : b * (x - 1 / 2) ≤ b * (y - 1 / 2) := mul_le_mul_of_nonneg_left (by linarith) hb
  linarith

theorem shape_lt_right {a b c x y : ℝ} (ha : 0 < a) (hb : 0 ≤ b) (h0 : 1 / 2 ≤ x) (hxy : x < y) (h : y < 1) : shape a b c x < shape a b c y := by
  rw [shape_right h0 (by linarith), shape_right (by linarith) h]
  have h1 : a / (1 - x) < a / (1 - y) := div_lt_div_of_pos_left ha (by linarith) (by linarith)
  have h2 : b * (x - 1 / 2) ≤ b * (y - 1 / 2) := mul_le_mul_of_nonneg_left (by linarith) hb
  linarith

theorem shape_strictMono {a b c : ℝ} (ha : 0 < a) (hb : 0 ≤ b) : StrictMonoOn (shape a b c) (Set.Ioo 0 1) := by
  rintro x ⟨hx0, hx1⟩ y ⟨hy0, hy1⟩ hxy
  rcases le_total y (1 / 2) with h | h
  · exact shape_lt_left ha hb hx0 hxy h
  · rcases le_total x (1 / 2) with h' | h'
    · rcases eq_or_lt_of_le h' with rfl | h'
      · exact shape_lt_right ha hb le_rfl hxy hy1
      · have h1 := shape_lt_left (c := c) ha hb hx0 h' le_rfl
        rcases eq_or_lt_of_le h with rfl | h
        · exact h1
        · exact h1.trans (shape_lt_right ha hb le_rfl h hy1)
    · exact shape_lt_right ha hb h' hxy hy1

theorem continuousOn_shape (a b c : ℝ) : ContinuousOn (shape a b c) (Set.Ioo 0 1) := by
  unfold shape us
  have h : ContinuousOn (fun x : ℝ => (1 : ℝ) / 2 - |x - 1 / 2|) (Set.Ioo 0 1) := by fun_prop
  refine ((((continuousOn_const.div h ?_).add continuousOn_const).mul (by fun_prop)).add continuousOn_const)
  rintro x ⟨h0, h1⟩
  exact (us_pos h0 h1).ne'

theorem shape_surj {a b c : ℝ} (ha : 0 < a) (hb : 0 ≤ b) (y : ℝ) : ∃ x ∈ Set.Ioo (0 : ℝ) 1, shape a b c x = y := by
  -- two points around
  have key : ∀ t : ℝ, 0 < t → 0 < a / (2 * a + t) ∧ a / (2 * a + t) < 1 / 2 := by
    intro t ht
    constructor
    · positivity
    · rw [div_lt_div_iff₀ (by positivity) (by norm_num)]
      linarith
  obtain ⟨t, ht, ht1⟩ : ∃ t : ℝ, 0 < t ∧ |y - c| ≤ t := ⟨|y - c| + 1, by positivity, by linarith⟩
  have hy := abs_le.1 ht1
  obtain ⟨k0, k1⟩ := key t ht
  set z := a / (2 * a + t) with hz
  have hd : a / z = 2 * a + t := by rw [hz]; field_simp
  have h1 : shape a b c z ≤ y := by
    rw [shape_left k0 k1.le, hd]
    have : b * (z - 1 / 2) ≤ 0 := mul_nonpos_of_nonneg_of_nonpos hb (by linarith)
    linarith
  have h2 : y ≤ shape a b c (1 - z) := by
    rw [shape_right (by linarith) (by linarith), sub_sub_cancel, hd]
    have : 0 ≤ b * (1 - z - 1 / 2) := mul_nonneg hb (by linarith)
    linarith
  have hc : ContinuousOn (shape a b c) (Set.Icc z (1 - z)) := (continuousOn_shape a b c).mono (fun x hx => ⟨lt_of_lt_of_le k0 hx.1, lt_of_le_of_lt hx.2 (by linarith)⟩)
  obtain ⟨x, hx, e⟩ := intermediate_value_Icc (by linarith) hc ⟨h1, h2⟩
  exact ⟨x, ⟨lt_of_lt_of_le k0 hx.1, lt_of_le_of_lt hx.2 (by linarith)⟩, e⟩

theorem hasDerivAt_shape {a b c x : ℝ} (h0 : 0 < x) (h1 : x < 1) (h : x ≠ 1 / 2) : HasDerivAt (shape a b c) (slope a b x) x := by
  unfold slope
  rcases lt_or_gt_of_ne h with h | h
  · rw [us_left h.le]
    have e : shape a b c =ᶠ[nhds x] fun x => 2 * a - a / x + b * (x - 1 / 2) + c := by
      filter_upwards [Ioo_mem_nhds h0 h] with y hy
      exact shape_left hy.1 hy.2.le
    refine HasDerivAt.congr_of_eventuallyEq ?_ e
    have d1 := ((hasDerivAt_const x a).div (hasDerivAt_id x) h0.ne')
    have d2 := ((hasDerivAt_id x).sub_const (1 / 2)).const_mul b
    refine (((d1.const_sub (2 * a)).add d2).add_const c).congr_deriv ?_
    simp only [id]
    field_simp
    ring
  · rw [us_right h.le]
    have hx : 1 - x ≠ 0 := by linarith
    have e : shape a b c =ᶠ[nhds x] fun x => a / (1 - x) - 2 * a + b * (x - 1 / 2) + c := by
      filter_upwards [Ioo_mem_nhds h h1] with y hy
      exact shape_right hy.1.le hy.2
    refine HasDerivAt.congr_of_eventuallyEq ?_ e
    have d1 := ((hasDerivAt_const x a).div ((hasDerivAt_id x).const_sub 1) hx)
    have d2 := ((hasDerivAt_id x).sub_const (1 / 2)).const_mul b
    refine (((d1.sub_const (2 * a)).add d2).add_const c).congr_deriv ?_
    simp only [id]
    field_simp
    ring

theorem measurable_us : Measurable us := by
  unfold us
  fun_prop

theorem measurable_shape (a b c : ℝ) : Measurable (shape a b c) := by
  unfold shape
  exact (((measurable_const.div measurable_us).add_const _).mul (by fun_prop)).add_const _

theorem measurable_slope (a b : ℝ) : Measurable (slope a b) := by
  unfold slope
  exact (measurable_const.div (measurable_us.mul measurable_us)).add_const _

/-- The integral of the derivative over the part with a given floor. -/
theorem cell {a b : ℝ} (c : ℝ) (ha : 0 < a) (hb : 0 ≤ b) (k : ℤ) :
    ∫⁻ x, {x | ⌊shape a b c x⌋ = k}.indicator (fun x => ENNReal.ofReal (slope a b x)) x ∂uniform01 = 1 := by
  have hm : MeasurableSet {x | ⌊shape a b c x⌋ = k} := (measurable_shape a b c).floor (measurableSet_singleton k)
  have hm1 : MeasurableSet ({x | ⌊shape a b c x⌋ = k} ∩ Set.Ioo 0 1) := hm.inter measurableSet_Ioo
  have hm2 : MeasurableSet (({x | ⌊shape a b c x⌋ = k} ∩ Set.Ioo 0 1) \ {1 / 2}) := hm1.diff (measurableSet_singleton _)
  rw [lintegral_indicator hm, uniform01, Measure.restrict_restrict hm]
  have e1 : ∫⁻ x in {x | ⌊shape a b c x⌋ = k} ∩ Set.Ioo 0 1, ENNReal.ofReal (slope a b x)
      = ∫⁻ x in ({x | ⌊shape a b c x⌋ = k} ∩ Set.Ioo 0 1) \ {1 / 2}, ENNReal.ofReal (slope a b x) := by
    refine setLIntegral_congr ?_
    exact (sdiff_null_ae_eq_self (measure_singleton _)).symm
  rw [e1, lintegral_deriv_eq_volume_image_of_monotoneOn (f := shape a b c) hm2 ?_ ?_]
  · have e2 : shape a b c '' (({x | ⌊shape a b c x⌋ = k} ∩ Set.Ioo 0 1) \ {1 / 2}) = Set.Ico (k : ℝ) (k + 1) \ {c} := by
      ext y
      simp only [Set.mem_image, Set.mem_sdiff, Set.mem_inter_iff, Set.mem_ofPred_eq, Set.mem_singleton_iff, Set.mem_Ico, Int.floor_eq_iff]
      constructor
      · rintro ⟨x, ⟨⟨h1, h2⟩, h3⟩, rfl⟩
        refine ⟨h1, fun h => h3 ?_⟩
        have h : shape a b c x = shape a b c (1 / 2) := h.trans (shape_half a b c).symm
        exact (shape_strictMono ha hb).injOn h2 ⟨by norm_num, by norm_num⟩ h
      · rintro ⟨h1, h2⟩
        obtain ⟨x, hx, rfl⟩ := shape_surj (c := c) ha hb y
        exact ⟨x, ⟨⟨h1, hx⟩, fun h => h2 (by rw [h, shape_half])⟩, rfl⟩
    rw [e2, measure_sdiff_null (measure_singleton _), Real.volume_Ico]
    simp
  · rintro x ⟨⟨_, h0, h1⟩, h2⟩
    exact (hasDerivAt_shape h0 h1 h2).hasDerivWithinAt
  · exact (shape_strictMono ha hb).monotoneOn.mono fun x hx => hx.1.2

/-- A rejection method in which a round takes one number (if this is in `R1`) or two; the numbers after the last round are in `G`. -/
theorem rejection_two_then {H : Set (ℝ × ℝ)} {R1 : Set ℝ} {R2 : Set (ℝ × ℝ)} (hH : MeasurableSet H) (hR1 : MeasurableSet R1)
    (hR2 : MeasurableSet R2) (d1 : ∀ p ∈ H, p.1 ∉ R1 ∧ p ∉ R2) (d2 : ∀ p ∈ R2, p.1 ∉ R1) {G : Set (ℕ → ℝ)} (hG : MeasurableSet G)
    (E : ℕ → Set (ℕ → ℝ)) (h0 : E 0 = ∅)
    (hs : ∀ f, E (f + 1) = {ω | ((ω 0, ω 1) ∈ H ∧ tail (tail ω) ∈ G) ∨ (ω 0 ∈ R1 ∧ tail ω ∈ E f) ∨ ((ω 0, ω 1) ∈ R2 ∧ tail (tail ω) ∈ E f)}) :
    (∀ f, MeasurableSet (E f)) ∧ independentUniforms (⋃ f, E f) = (uniform01.prod uniform01) H * independentUniforms G +
      (uniform01 R1 + (uniform01.prod uniform01) R2) * independentUniforms (⋃ f, E f) := by
  have m1 := splits_one.measurable_head
  have m2 := splits_two.measurable_head
  have t1 := splits_one.measurable_rest
  have t2 := splits_two.measurable_rest
  have hm : ∀ f, MeasurableSet (E f) := by
    intro f
    induction f with
    | zero => rw [h0]; exact .empty
    | succ f ih =>
      rw [hs]
      exact ((m2 hH).inter (t2 hG)).union (((m1 hR1).inter (t1 ih)).union ((m2 hR2).inter (t2 ih)))
  refine ⟨hm, ?_⟩
  have e : ⋃ f, E f = {ω | (ω 0, ω 1) ∈ H ∧ tail (tail ω) ∈ G} ∪
      ({ω | ω 0 ∈ R1 ∧ tail ω ∈ ⋃ f, E f} ∪ {ω | (ω 0, ω 1) ∈ R2 ∧ tail (tail ω) ∈ ⋃ f, E f}) := by
    ext ω
    simp only [Set.mem_iUnion, Set.mem_union, Set.mem_ofPred_eq]
    constructor
    · rintro ⟨f, hf⟩
      cases f with
      | zero => rw [h0] at hf; exact hf.elim
      | succ f =>
        rw [hs] at hf
        rcases hf with hf | ⟨h1, h2⟩ | ⟨h1, h2⟩
        · exact .inl hf
        · exact .inr (.inl ⟨h1, f, h2⟩)
        · exact .inr (.inr ⟨h1, f, h2⟩)
    · rintro (hf | ⟨h1, f, h2⟩ | ⟨h1, f, h2⟩)
      · exact ⟨1, by rw [hs]; exact .inl hf⟩
      · exact ⟨f + 1, by rw [hs]; exact .inr (.inl ⟨h1, h2⟩)⟩
      · exact ⟨f + 1, by rw [hs]; exact .inr (.inr ⟨h1, h2⟩)⟩
  have hE : MeasurableSet (⋃ f, E f) := .iUnion hm
  conv_lhs => rw [e]
  rw [measure_union, measure_union, splits_two.both hH hG, splits_one.both hR1 hE, splits_two.both hR2 hE]
  · ring
  · rw [Set.disjoint_left]
    rintro ω ⟨h1, _⟩ ⟨h2, _⟩
    exact d2 _ h2 h1
  · exact (m2 hR2).inter (t2 hE)
  · rw [Set.disjoint_left]
    rintro ω ⟨h1, _⟩ (⟨h2, _⟩ | ⟨h2, _⟩)
    · exact (d1 _ h1).1 h2
    · exact (d1 _ h1).2 h2
  · exact ((m1 hR1).inter (t1 hE)).union ((m2 hR2).inter (t2 hE))

theorem rejection_two {H : Set (ℝ × ℝ)} {R1 : Set ℝ} {R2 : Set (ℝ × ℝ)} (hH : MeasurableSet H) (hR1 : MeasurableSet R1) (hR2 : MeasurableSet R2)
    (d1 : ∀ p ∈ H, p.1 ∉ R1 ∧ p ∉ R2) (d2 : ∀ p ∈ R2, p.1 ∉ R1) (E : ℕ → Set (ℕ → ℝ)) (h0 : E 0 = ∅)
    (hs : ∀ f, E (f + 1) = {ω | (ω 0, ω 1) ∈ H ∨ (ω 0 ∈ R1 ∧ tail ω ∈ E f) ∨ ((ω 0, ω 1) ∈ R2 ∧ tail (tail ω) ∈ E f)}) :
    independentUniforms (⋃ f, E f) = (uniform01.prod uniform01) H +
      (uniform01 R1 + (uniform01.prod uniform01) R2) * independentUniforms (⋃ f, E f) := by
  have h := (rejection_two_then hH hR1 hR2 d1 d2 MeasurableSet.univ E h0 fun f => by simp only [hs, Set.mem_univ, and_true]).2
  rw [measure_univ, mul_one] at h
  exact h

end ICPC.Ideal
