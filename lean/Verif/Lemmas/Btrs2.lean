import Verif.Lemmas.Btrs
import Mathlib.MeasureTheory.Measure.Prod

/-!
# The rounds of the rejection method of `binomial`
-/

namespace ICPC.Ideal

open MeasureTheory Spec

/-- The test of a round that got `k`. -/
def accept (n : ℤ) (p q spq a b vr : ℝ) (k : ℤ) (x v : ℝ) : Prop := (us x ≥ 0.07 ∧ v ≤ vr) ∨ btrsLate n k p q spq a b (us x) v

/-- The round is defined. -/
def fits (a b c x : ℝ) : Prop := us x ≠ 0 ∧ I64 ⌊shape a b c x⌋

variable {n : ℤ} {sw : Bool} {p q spq a b c vr : ℝ} {ω : ℕ → ℝ}

theorem btrs_ub (f : ℕ) (h : ¬fits a b c (ω 0)) : btrsLoop n sw p q spq a b c vr (f + 1) ω = .error .ub := by
  rw [btrsLoop, real_bind]
  by_cases h1 : us (ω 0) = 0
  · have e : quot (2 * a) (1 / 2 - |ω 0 - 1 / 2|) = .error .ub := if_pos h1
    simp only [e]
    rfl
  · have e : quot (2 * a) (1 / 2 - |ω 0 - 1 / 2|) = .ok (2 * a / us (ω 0)) := if_neg h1
    have h2 : ¬I64 ⌊shape a b c (ω 0)⌋ := fun h2 => h ⟨h1, h2⟩
    have e2 : chk ⌊(2 * a / us (ω 0) + b) * (ω 0 - 1 / 2) + c⌋ = .error .ub := if_neg h2
    simp only [e]
    rw [lift_ok_bind, e2, lift_error_bind]

open Classical in
theorem btrs_start (f : ℕ) (h : fits a b c (ω 0)) : btrsLoop n sw p q spq a b c vr (f + 1) ω =
    (if ⌊shape a b c (ω 0)⌋ < 0 ∨ ⌊shape a b c (ω 0)⌋ > n then btrsLoop n sw p q spq a b c vr f
    else do
      let v ← real
      if us (ω 0) ≥ 0.07 ∧ v ≤ vr then return if sw then n - ⌊shape a b c (ω 0)⌋ else ⌊shape a b c (ω 0)⌋
      else do
        let _ ← lift (chk (n + 1))
        if btrsLate n ⌊shape a b c (ω 0)⌋ p q spq a b (us (ω 0)) v then return if sw then n - ⌊shape a b c (ω 0)⌋ else ⌊shape a b c (ω 0)⌋
        else btrsLoop n sw p q spq a b c vr f) (tail ω) := by
  have e : quot (2 * a) (1 / 2 - |ω 0 - 1 / 2|) = .ok (2 * a / us (ω 0)) := if_neg h.1
  have e2 : chk ⌊(2 * a / us (ω 0) + b) * (ω 0 - 1 / 2) + c⌋ = .ok ⌊shape a b c (ω 0)⌋ := if_pos h.2
  rw [btrsLoop, real_bind]
  simp only [e]
  rw [lift_ok_bind, e2, lift_ok_bind]
  rfl

theorem btrs_out (f : ℕ) (h : fits a b c (ω 0)) (h2 : ⌊shape a b c (ω 0)⌋ < 0 ∨ ⌊shape a b c (ω 0)⌋ > n) :
    btrsLoop n sw p q spq a b c vr (f + 1) ω = btrsLoop n sw p q spq a b c vr f (tail ω) := by
  rw [btrs_start f h, if_pos h2]

theorem btrs_hit (f : ℕ) (hn : I64 (n + 1)) (h : fits a b c (ω 0)) (h2 : ¬(⌊shape a b c (ω 0)⌋ < 0 ∨ ⌊shape a b c (ω 0)⌋ > n))
    (h3 : accept n p q spq a b vr ⌊shape a b c (ω 0)⌋ (ω 0) (ω 1)) :
    btrsLoop n sw p q spq a b c vr (f + 1) ω = .ok (outcome n sw ⌊shape a b c (ω 0)⌋, tail (tail ω)) := by
  change accept n p q spq a b vr ⌊shape a b c (ω 0)⌋ (ω 0) (tail ω 0) at h3
  rw [btrs_start f h, if_neg h2, real_bind]
  by_cases h4 : us (ω 0) ≥ 0.07 ∧ tail ω 0 ≤ vr
  · rw [if_pos h4, pure_apply]
    rfl
  · rw [if_neg h4, chk_ok hn, lift_ok_bind, if_pos (h3.resolve_left h4), pure_apply]
    rfl

theorem btrs_miss (f : ℕ) (hn : I64 (n + 1)) (h : fits a b c (ω 0)) (h2 : ¬(⌊shape a b c (ω 0)⌋ < 0 ∨ ⌊shape a b c (ω 0)⌋ > n))
    (h3 : ¬accept n p q spq a b vr ⌊shape a b c (ω 0)⌋ (ω 0) (ω 1)) :
    btrsLoop n sw p q spq a b c vr (f + 1) ω = btrsLoop n sw p q spq a b c vr f (tail (tail ω)) := by
  change ¬accept n p q spq a b vr ⌊shape a b c (ω 0)⌋ (ω 0) (tail ω 0) at h3
  rw [btrs_start f h, if_neg h2, real_bind, if_neg fun h4 => h3 (.inl h4), chk_ok hn, lift_ok_bind, if_neg fun h4 => h3 (.inr h4)]

/-! ## The events -/

/-- The round ends with `k`. -/
def hitSet (n : ℤ) (p q spq a b c vr : ℝ) (k : ℤ) : Set (ℝ × ℝ) :=
  {z | fits a b c z.1 ∧ ⌊shape a b c z.1⌋ = k ∧ accept n p q spq a b vr k z.1 z.2}

/-- The candidate is out of range. -/
def outSet (n : ℤ) (a b c : ℝ) : Set ℝ := {x | fits a b c x ∧ (⌊shape a b c x⌋ < 0 ∨ ⌊shape a b c x⌋ > n)}

/-- The candidate is rejected. -/
def missSet (n : ℤ) (p q spq a b c vr : ℝ) : Set (ℝ × ℝ) :=
  {z | fits a b c z.1 ∧ ¬(⌊shape a b c z.1⌋ < 0 ∨ ⌊shape a b c z.1⌋ > n) ∧ ¬accept n p q spq a b vr ⌊shape a b c z.1⌋ z.1 z.2}

theorem measurable_floorShape (a b c : ℝ) : Measurable fun x => ⌊shape a b c x⌋ := (measurable_shape a b c).floor

theorem measurableSet_fits (a b c : ℝ) : MeasurableSet {x | fits a b c x} := by
  have h1 : MeasurableSet {x | us x ≠ 0} := (measurable_us (measurableSet_singleton 0)).compl
  have h2 : MeasurableSet {x | I64 ⌊shape a b c x⌋} := measurable_floorShape a b c (MeasurableSet.of_discrete (s := {k | I64 k}))
  exact h1.inter h2

theorem measurableSet_accept (n : ℤ) (p q spq a b vr : ℝ) (k : ℤ) : MeasurableSet {z : ℝ × ℝ | accept n p q spq a b vr k z.1 z.2} := by
  have hu : Measurable fun z : ℝ × ℝ => us z.1 := measurable_us.comp measurable_fst
  have h1 : MeasurableSet {z : ℝ × ℝ | us z.1 ≥ 0.07 ∧ z.2 ≤ vr} :=
    (measurableSet_le measurable_const hu).inter (measurableSet_le measurable_snd measurable_const)
  have h2 : MeasurableSet {z : ℝ × ℝ | btrsLate n k p q spq a b (us z.1) z.2} := by
    unfold btrsLate
    refine measurableSet_le (Real.measurable_log.comp (measurable_snd.mul (measurable_const.div ?_))) measurable_const
    exact (measurable_const.div (hu.mul hu)).add_const _
  exact h1.union h2

theorem measurableSet_hit (k : ℤ) : MeasurableSet (hitSet n p q spq a b c vr k) :=
  (measurable_fst (measurableSet_fits a b c)).inter
    (((measurable_floorShape a b c).comp measurable_fst (measurableSet_singleton k)).inter (measurableSet_accept n p q spq a b vr k))

theorem measurableSet_out : MeasurableSet (outSet n a b c) :=
  (measurableSet_fits a b c).inter (measurable_floorShape a b c (MeasurableSet.of_discrete (s := {k | k < 0 ∨ k > n})))

theorem measurableSet_miss : MeasurableSet (missSet n p q spq a b c vr) := by
  have e : missSet n p q spq a b c vr = ⋃ k : ℤ, ({z | fits a b c z.1} ∩ ({z | ⌊shape a b c z.1⌋ = k} ∩
      ({z | ¬(k < 0 ∨ k > n)} ∩ {z | accept n p q spq a b vr k z.1 z.2}ᶜ))) := by
    ext z
    simp only [missSet, Set.mem_iUnion, Set.mem_inter_iff, Set.mem_ofPred_eq, Set.mem_compl_iff]
    constructor
    · rintro ⟨h1, h2, h3⟩
      exact ⟨_, h1, rfl, h2, h3⟩
    · rintro ⟨k, h1, rfl, h2, h3⟩
      exact ⟨h1, h2, h3⟩
  rw [e]
  exact .iUnion fun k => (measurable_fst (measurableSet_fits a b c)).inter
    (((measurable_floorShape a b c).comp measurable_fst (measurableSet_singleton k)).inter
      ((MeasurableSet.const _).inter (measurableSet_accept n p q spq a b vr k).compl))

/-- The runs that end with `x` and leave numbers in `G`. -/
def endsThen {α : Type} (prog : Draw α) (x : α) (G : Set (ℕ → ℝ)) : Set (ℕ → ℝ) := {ω | ∃ ω', prog ω = .ok (x, ω') ∧ ω' ∈ G}

theorem endsThen_univ {α : Type} (prog : Draw α) (x : α) : endsThen prog x Set.univ = ends prog {x} := by
  ext ω
  simp [endsThen, ends]

theorem endsThen_ok {α : Type} {prog : Draw α} {ω ω' : ℕ → ℝ} {y : α} (h : prog ω = .ok (y, ω')) (x : α) (G : Set (ℕ → ℝ)) :
    ω ∈ endsThen prog x G ↔ y = x ∧ ω' ∈ G := by
  constructor
  · rintro ⟨ω'', h2, hG⟩
    rw [h] at h2
    simp only [Except.ok.injEq, Prod.mk.injEq] at h2
    exact ⟨h2.1, h2.2 ▸ hG⟩
  · rintro ⟨rfl, hG⟩
    exact ⟨ω', h, hG⟩

theorem endsThen_error {α : Type} {prog : Draw α} {ω : ℕ → ℝ} {e : Stop} (h : prog ω = .error e) (x : α) (G : Set (ℕ → ℝ)) :
    ω ∉ endsThen prog x G := by
  rintro ⟨ω'', h2, _⟩
  rw [h] at h2
  simp at h2

theorem endsThen_congr {α : Type} {prog prog' : Draw α} {ω ω' : ℕ → ℝ} (h : prog ω = prog' ω') (x : α) (G : Set (ℕ → ℝ)) :
    ω ∈ endsThen prog x G ↔ ω' ∈ endsThen prog' x G := by
  simp only [endsThen, Set.mem_ofPred_eq, h]

/-- The results of the loop, and what follows. -/
theorem btrs_ends_then (hn : I64 (n + 1)) {k : ℤ} (hk0 : 0 ≤ k) (hkn : k ≤ n) {G : Set (ℕ → ℝ)} (hG : MeasurableSet G) :
    (∀ f, MeasurableSet (endsThen (btrsLoop n sw p q spq a b c vr f) (outcome n sw k) G)) ∧
    independentUniforms (⋃ f, endsThen (btrsLoop n sw p q spq a b c vr f) (outcome n sw k) G) =
      (uniform01.prod uniform01) (hitSet n p q spq a b c vr k) * independentUniforms G + (uniform01 (outSet n a b c) +
        (uniform01.prod uniform01) (missSet n p q spq a b c vr)) *
          independentUniforms (⋃ f, endsThen (btrsLoop n sw p q spq a b c vr f) (outcome n sw k) G) := by
  refine rejection_two_then (measurableSet_hit k) measurableSet_out measurableSet_miss ?_ ?_ hG _ ?_ ?_
  · rintro z ⟨h1, h2, h3⟩
    refine ⟨fun h => ?_, fun h => ?_⟩
    · have := h.2
      rw [h2] at this
      omega
    · have := h.2.2
      rw [h2] at this
      exact this h3
  · exact fun z h h' => h.2.1 h'.2
  · ext ω
    rw [Set.mem_empty_iff_false, iff_false]
    exact endsThen_error rfl _ _
  · intro f
    ext ω
    simp only [Set.mem_ofPred_eq]
    by_cases h1 : fits a b c (ω 0)
    swap
    · refine iff_of_false (endsThen_error (btrs_ub f h1) _ _) ?_
      rintro (h | h | h)
      · exact h1 h.1.1
      · exact h1 h.1.1
      · exact h1 h.1.1
    by_cases h2 : ⌊shape a b c (ω 0)⌋ < 0 ∨ ⌊shape a b c (ω 0)⌋ > n
    · rw [endsThen_congr (btrs_out f h1 h2)]
      constructor
      · exact fun h => .inr (.inl ⟨⟨h1, h2⟩, h⟩)
      · rintro (h | h | h)
        · have h3 : ⌊shape a b c (ω 0)⌋ = k := h.1.2.1
          omega
        · exact h.2
        · exact (h.1.2.1 h2).elim
    by_cases h3 : accept n p q spq a b vr ⌊shape a b c (ω 0)⌋ (ω 0) (ω 1)
    · rw [endsThen_ok (btrs_hit f hn h1 h2 h3)]
      constructor
      · rintro ⟨h, hg⟩
        have h := outcome_inj h
        exact .inl ⟨⟨h1, h, h ▸ h3⟩, hg⟩
      · rintro (h | h | h)
        · rw [show ⌊shape a b c (ω 0)⌋ = k from h.1.2.1]
          exact ⟨rfl, h.2⟩
        · exact (h2 h.1.2).elim
        · exact (h.1.2.2 h3).elim
    · rw [endsThen_congr (btrs_miss f hn h1 h2 h3)]
      constructor
      · exact fun h => .inr (.inr ⟨⟨h1, h2, h3⟩, h⟩)
      · rintro (h | h | h)
        · have h4 : ⌊shape a b c (ω 0)⌋ = k := h.1.2.1
          rw [h4] at h3
          exact (h3 h.1.2.2).elim
        · exact (h2 h.1.2).elim
        · exact h.2

/-- The results of the loop. -/
theorem btrs_ends (hn : I64 (n + 1)) {k : ℤ} (hk0 : 0 ≤ k) (hkn : k ≤ n) :
    independentUniforms (⋃ f, ends (btrsLoop n sw p q spq a b c vr f) {outcome n sw k}) =
      (uniform01.prod uniform01) (hitSet n p q spq a b c vr k) + (uniform01 (outSet n a b c) +
        (uniform01.prod uniform01) (missSet n p q spq a b c vr)) *
          independentUniforms (⋃ f, ends (btrsLoop n sw p q spq a b c vr f) {outcome n sw k}) := by
  have h := (btrs_ends_then (sw := sw) (p := p) (q := q) (spq := spq) (a := a) (b := b) (c := c) (vr := vr) hn hk0 hkn MeasurableSet.univ).2
  simpa only [endsThen_univ, measure_univ, mul_one] using h

/-- Undefined behaviour of the loop. -/
theorem btrs_undefined (hn : I64 (n + 1)) :
    independentUniforms (⋃ f, {ω | btrsLoop n sw p q spq a b c vr f ω = .error .ub}) =
      (uniform01.prod uniform01) {z | ¬fits a b c z.1} + (uniform01 (outSet n a b c) +
        (uniform01.prod uniform01) (missSet n p q spq a b c vr)) *
          independentUniforms (⋃ f, {ω | btrsLoop n sw p q spq a b c vr f ω = .error .ub}) := by
  refine rejection_two (measurable_fst (measurableSet_fits a b c)).compl measurableSet_out measurableSet_miss ?_ ?_ _ ?_ ?_
  · exact fun z h => ⟨fun h' => h h'.1, fun h' => h h'.1⟩
  · exact fun z h h' => h.2.1 h'.2
  · ext ω
    rw [Set.mem_empty_iff_false, iff_false]
    intro h
    simp [btrsLoop, lift_error] at h
  · intro f
    ext ω
    simp only [Set.mem_ofPred_eq]
    by_cases h1 : fits a b c (ω 0)
    swap
    · exact iff_of_true (btrs_ub f h1) (.inl h1)
    by_cases h2 : ⌊shape a b c (ω 0)⌋ < 0 ∨ ⌊shape a b c (ω 0)⌋ > n
    · rw [btrs_out f h1 h2]
      constructor
      · exact fun h => .inr (.inl ⟨⟨h1, h2⟩, h⟩)
      · rintro (h | h | h)
        · exact (h h1).elim
        · exact h.2
        · exact (h.1.2.1 h2).elim
    by_cases h3 : accept n p q spq a b vr ⌊shape a b c (ω 0)⌋ (ω 0) (ω 1)
    · rw [btrs_hit f hn h1 h2 h3]
      refine iff_of_false (by simp) ?_
      rintro (h | h | h)
      · exact h h1
      · exact h2 h.1.2
      · exact h.1.2.2 h3
    · rw [btrs_miss f hn h1 h2 h3]
      constructor
      · exact fun h => .inr (.inr ⟨⟨h1, h2, h3⟩, h⟩)
      · rintro (h | h | h)
        · exact (h h1).elim
        · exact (h2 h.1.2).elim
        · exact h.2

/-- The four cases of a round. -/
theorem btrs_total (n : ℕ) : (∑ k ∈ Finset.range (n + 1), (uniform01.prod uniform01) (hitSet n p q spq a b c vr k)) +
    (uniform01.prod uniform01) {z | ¬fits a b c z.1} + (uniform01 (outSet n a b c) + (uniform01.prod uniform01) (missSet n p q spq a b c vr)) = 1 := by
  have e1 : uniform01 (outSet n a b c) = (uniform01.prod uniform01) (Prod.fst ⁻¹' outSet n a b c) := by
    rw [← Set.prod_univ, Measure.prod_prod, measure_univ, mul_one]
  rw [e1, ← measure_biUnion_finset, ← measure_union, ← measure_union, ← measure_union]
  · rw [← (measure_univ : (uniform01.prod uniform01) Set.univ = 1)]
    congr 1
    ext z
    simp only [Set.mem_univ, iff_true]
    by_cases h1 : fits a b c z.1
    swap
    · exact .inl (.inr h1)
    by_cases h2 : ⌊shape a b c z.1⌋ < 0 ∨ ⌊shape a b c z.1⌋ > n
    · exact .inr (.inl ⟨h1, h2⟩)
    by_cases h3 : accept n p q spq a b vr ⌊shape a b c z.1⌋ z.1 z.2
    · refine .inl (.inl ?_)
      simp only [Set.mem_iUnion, Finset.mem_range]
      have h4 : ((⌊shape a b c z.1⌋.toNat : ℕ) : ℤ) = ⌊shape a b c z.1⌋ := by omega
      refine ⟨⌊shape a b c z.1⌋.toNat, by omega, h1, h4.symm, ?_⟩
      rw [h4]
      exact h3
    · exact .inr (.inr ⟨h1, h2, h3⟩)
  · rw [Set.disjoint_left]
    rintro z (h | h) h'
    · simp only [Set.mem_iUnion, Finset.mem_range] at h
      obtain ⟨k, hk, h1, h2, h3⟩ := h
      rcases h' with h' | h'
      · have := h'.2
        rw [h2] at this
        omega
      · have := h'.2.2
        rw [h2] at this
        exact this h3
    · rcases h' with h' | h'
      · exact h h'.1
      · exact h h'.1
  · exact (measurable_fst measurableSet_out).union measurableSet_miss
  · rw [Set.disjoint_left]
    rintro z h h'
    exact h'.2.1 h.2
  · exact measurableSet_miss
  · rw [Set.disjoint_left]
    rintro z h h'
    simp only [Set.mem_iUnion, Finset.mem_range] at h
    obtain ⟨k, hk, h1, h2, h3⟩ := h
    exact h' h1
  · exact (measurable_fst (measurableSet_fits a b c)).compl
  · intro i _ j _ hij
    rw [Function.onFun, Set.disjoint_left]
    rintro z ⟨_, h1, _⟩ ⟨_, h2, _⟩
    exact hij (by omega)
  · exact fun k _ => measurableSet_hit k

/-- The probability that a round ends with `k`, if the test is a comparison with `r` times the derivative. -/
theorem hit_measure (ha : 0 < a) (hb : 0 ≤ b) {k : ℤ} (hk : I64 k) {r : ℝ} (hr : 0 ≤ r)
    (hacc : ∀ x, 0 < x → x < 1 → ⌊shape a b c x⌋ = k → ∀ v, 0 < v → v < 1 → (accept n p q spq a b vr k x v ↔ v ≤ r * slope a b x))
    (hle : ∀ x, 0 < x → x < 1 → ⌊shape a b c x⌋ = k → r * slope a b x ≤ 1) :
    (uniform01.prod uniform01) (hitSet n p q spq a b c vr k) = ENNReal.ofReal r := by
  rw [Measure.prod_apply (measurableSet_hit k)]
  have hae : ∀ᵐ x ∂uniform01, x ∈ Set.Ioo (0 : ℝ) 1 := ae_restrict_mem measurableSet_Ioo
  have e : ∀ᵐ x ∂uniform01, uniform01 (Prod.mk x ⁻¹' hitSet n p q spq a b c vr k) =
      ENNReal.ofReal r * {x | ⌊shape a b c x⌋ = k}.indicator (fun x => ENNReal.ofReal (slope a b x)) x := by
    filter_upwards [hae] with x hx
    by_cases h : ⌊shape a b c x⌋ = k
    · rw [Set.indicator_of_mem (show x ∈ {x | ⌊shape a b c x⌋ = k} from h), ← ENNReal.ofReal_mul hr]
      have hs : 0 ≤ slope a b x := by
        have := us_pos hx.1 hx.2
        unfold slope
        positivity
      have h1 := hle x hx.1 hx.2 h
      have h0 : 0 ≤ r * slope a b x := mul_nonneg hr hs
      have hm : MeasurableSet (Prod.mk x ⁻¹' hitSet n p q spq a b c vr k) := measurable_prodMk_left (measurableSet_hit k)
      rw [uniform01, Measure.restrict_apply hm]
      have e : Prod.mk x ⁻¹' hitSet n p q spq a b c vr k ∩ Set.Ioo 0 1 = Set.Ioc 0 (r * slope a b x) ∩ Set.Ioo 0 1 := by
        ext v
        constructor
        · rintro ⟨⟨_, _, h3⟩, h4⟩
          exact ⟨⟨h4.1, (hacc x hx.1 hx.2 h v h4.1 h4.2).1 h3⟩, h4⟩
        · rintro ⟨⟨_, h3⟩, h4⟩
          refine ⟨⟨⟨(us_pos hx.1 hx.2).ne', ?_⟩, h, (hacc x hx.1 hx.2 h v h4.1 h4.2).2 h3⟩, h4⟩
          show I64 ⌊shape a b c x⌋
          rw [h]
          exact hk
      rw [e]
      refine le_antisymm ((measure_mono Set.inter_subset_left).trans ?_) ?_
      · rw [Real.volume_Ioc, sub_zero]
      · have hsub : Set.Ioo 0 (r * slope a b x) ⊆ Set.Ioc 0 (r * slope a b x) ∩ Set.Ioo 0 1 := fun u hu => ⟨⟨hu.1, hu.2.le⟩, hu.1, hu.2.trans_le h1⟩
        refine le_trans ?_ (measure_mono hsub)
        rw [Real.volume_Ioo, sub_zero]
    · rw [Set.indicator_of_notMem (show x ∉ {x | ⌊shape a b c x⌋ = k} from h), mul_zero]
      refine measure_mono_null ?_ measure_empty
      rintro v ⟨_, h2, _⟩
      exact h h2
  rw [lintegral_congr_ae e, lintegral_const_mul, cell c ha hb k, mul_one]
  exact (ENNReal.measurable_ofReal.comp (measurable_slope a b)).indicator (measurable_floorShape a b c (measurableSet_singleton k))

/-- If the probabilities of a round are proportional to `w`, those of the loop are, too. -/
theorem btrs_law {n : ℕ} (hn : I64 ((n : ℤ) + 1)) (w : ℕ → ℝ) (hw : ∀ k, 0 ≤ w k) (hw1 : ∑ k ∈ Finset.range (n + 1), w k = 1) {C : ℝ} (hC : 0 < C)
    (hit : ∀ k ≤ n, (uniform01.prod uniform01) (hitSet n p q spq a b c vr k) = ENNReal.ofReal (w k * C)) {k : ℕ} (hk : k ≤ n) :
    independentUniforms (⋃ f, ends (btrsLoop n sw p q spq a b c vr f) {outcome n sw k}) =
      ENNReal.ofReal (w k) * (1 - independentUniforms (⋃ f, {ω | btrsLoop n sw p q spq a b c vr f ω = .error .ub})) := by
  have ht := btrs_total (p := p) (q := q) (spq := spq) (a := a) (b := b) (c := c) (vr := vr) n
  have h1 := btrs_ends (sw := sw) (p := p) (q := q) (spq := spq) (a := a) (b := b) (c := c) (vr := vr) hn (k := k) (by omega) (by omega)
  have h2 := btrs_undefined (sw := sw) (p := p) (q := q) (spq := spq) (a := a) (b := b) (c := c) (vr := vr) hn
  have hsum : (∑ k ∈ Finset.range (n + 1), (uniform01.prod uniform01) (hitSet n p q spq a b c vr k)) = ENNReal.ofReal C := by
    rw [Finset.sum_congr rfl fun k hk => hit k (by have := Finset.mem_range.1 hk; omega),
      ← ENNReal.ofReal_sum_of_nonneg fun k _ => mul_nonneg (hw k) hC.le, ← Finset.sum_mul, hw1, one_mul]
  rw [hsum] at ht
  rw [hit k hk] at h1
  generalize uniform01 (outSet n a b c) + (uniform01.prod uniform01) (missSet n p q spq a b c vr) = B at ht h1 h2
  generalize hU : (uniform01.prod uniform01) {z | ¬fits a b c z.1} = U at ht h2
  have hUt : U ≠ ⊤ := by rw [← hU]; exact measure_ne_top _ _
  have hCp : 0 < ENNReal.ofReal C := ENNReal.ofReal_pos.2 hC
  have hD0 : ENNReal.ofReal C + U ≠ 0 := (lt_of_lt_of_le hCp le_self_add).ne'
  have hDt : ENNReal.ofReal C + U ≠ ⊤ := ENNReal.add_ne_top.2 ⟨ENNReal.ofReal_ne_top, hUt⟩
  have hBt : B ≠ ⊤ := by
    rintro rfl
    simp at ht
  have hB : 1 - B = ENNReal.ofReal C + U := (ENNReal.eq_sub_of_add_eq hBt ht).symm
  have hB1 : B < 1 := by
    rw [← ht]
    exact ENNReal.lt_add_right hBt hD0 |>.trans_eq (add_comm _ _)
  have s1 := solve (measure_ne_top _ _) hB1 h1
  have s2 := solve (measure_ne_top _ _) hB1 h2
  rw [s1, s2, hB, ENNReal.ofReal_mul (hw k), mul_div_assoc]
  congr 1
  refine ENNReal.eq_sub_of_add_eq ?_ ?_
  · exact ENNReal.div_ne_top hUt hD0
  · rw [ENNReal.div_add_div_same, ENNReal.div_self hD0 hDt]

/-- The loop is undefined at most as often as a round, compared to the rounds that end. -/
theorem btrs_undefined_le {n : ℕ} (hn : I64 ((n : ℤ) + 1)) (w : ℕ → ℝ) (hw : ∀ k, 0 ≤ w k) (hw1 : ∑ k ∈ Finset.range (n + 1), w k = 1) {C : ℝ}
    (hC : 0 < C) (hit : ∀ k ≤ n, (uniform01.prod uniform01) (hitSet n p q spq a b c vr k) = ENNReal.ofReal (w k * C)) :
    independentUniforms (⋃ f, {ω | btrsLoop n sw p q spq a b c vr f ω = .error .ub}) ≤ uniform01 {x | ¬fits a b c x} / ENNReal.ofReal C := by
  have ht := btrs_total (p := p) (q := q) (spq := spq) (a := a) (b := b) (c := c) (vr := vr) n
  have h2 := btrs_undefined (sw := sw) (p := p) (q := q) (spq := spq) (a := a) (b := b) (c := c) (vr := vr) hn
  have hsum : (∑ k ∈ Finset.range (n + 1), (uniform01.prod uniform01) (hitSet n p q spq a b c vr k)) = ENNReal.ofReal C := by
    rw [Finset.sum_congr rfl fun k hk => hit k (by have := Finset.mem_range.1 hk; omega),
      ← ENNReal.ofReal_sum_of_nonneg fun k _ => mul_nonneg (hw k) hC.le, ← Finset.sum_mul, hw1, one_mul]
  have eU : (uniform01.prod uniform01) {z | ¬fits a b c z.1} = uniform01 {x | ¬fits a b c x} := by
    rw [show {z : ℝ × ℝ | ¬fits a b c z.1} = {x | ¬fits a b c x} ×ˢ Set.univ by ext z; simp, Measure.prod_prod, measure_univ, mul_one]
  rw [hsum, eU] at ht
  rw [eU] at h2
  generalize uniform01 (outSet n a b c) + (uniform01.prod uniform01) (missSet n p q spq a b c vr) = B at ht h2
  generalize uniform01 {x | ¬fits a b c x} = U at ht h2 ⊢
  have hCp : 0 < ENNReal.ofReal C := ENNReal.ofReal_pos.2 hC
  have hD0 : ENNReal.ofReal C + U ≠ 0 := (lt_of_lt_of_le hCp le_self_add).ne'
  have hBt : B ≠ ⊤ := by
    rintro rfl
    simp at ht
  have hB : 1 - B = ENNReal.ofReal C + U := (ENNReal.eq_sub_of_add_eq hBt ht).symm
  have hB1 : B < 1 := by
    rw [← ht]
    exact ENNReal.lt_add_right hBt hD0 |>.trans_eq (add_comm _ _)
  rw [solve (measure_ne_top _ _) hB1 h2, hB]
  exact ENNReal.div_le_div_left le_self_add U

theorem fits_of {x : ℝ} (ha : 0 < a) (hb : 0 ≤ b) (hc : 0 ≤ c) (hx0 : 0 < x) (hx1 : x < 1) (h : a / us x < 2 ^ 63 - c - b / 2) : fits a b c x := by
  have hu := us_pos hx0 hx1
  have h1 : |(2 * a / us x + b) * (x - 1 / 2)| ≤ a / us x + b / 2 := by
    have h2 : 0 ≤ 2 * a / us x + b := by positivity
    have h3 : |x - 1 / 2| ≤ 1 / 2 := by rw [abs_le]; constructor <;> linarith
    rw [abs_mul, abs_of_nonneg h2]
    calc (2 * a / us x + b) * |x - 1 / 2| ≤ (2 * a / us x + b) * (1 / 2) := mul_le_mul_of_nonneg_left h3 h2
      _ = a / us x + b / 2 := by ring
  rw [abs_le] at h1
  refine ⟨hu.ne', ?_, ?_⟩
  · rw [Int.le_floor]
    unfold shape
    norm_num at *
    linarith
  · have : ⌊shape a b c x⌋ < 2 ^ 63 := by
      rw [Int.floor_lt]
      unfold shape
      norm_num at *
      linarith
    omega

theorem unfit_le (ha : 0 < a) (hb : 0 ≤ b) (hc : 0 ≤ c) {L : ℝ} (hL : 0 < L) (h : L ≤ 2 ^ 63 - c - b / 2) :
    uniform01 {x | ¬fits a b c x} ≤ ENNReal.ofReal (2 * a / L) := by
  have hm : MeasurableSet {x | ¬fits a b c x} := (measurableSet_fits a b c).compl
  rw [uniform01, Measure.restrict_apply hm]
  have hsub : {x | ¬fits a b c x} ∩ Set.Ioo 0 1 ⊆ Set.Ioc 0 (a / L) ∪ Set.Ico (1 - a / L) 1 := by
    rintro x ⟨hf, hx0, hx1⟩
    by_contra hx
    rw [Set.mem_union, not_or] at hx
    refine hf (fits_of ha hb hc hx0 hx1 (lt_of_lt_of_le ?_ h))
    have hu : a / L < us x := by
      rcases le_total x (1 / 2) with h | h
      · rw [us_left h]
        by_contra h'
        exact hx.1 ⟨hx0, not_lt.1 h'⟩
      · rw [us_right h]
        by_contra h'
        exact hx.2 ⟨by linarith, hx1⟩
    rw [div_lt_iff₀ hL] at hu
    rw [div_lt_iff₀ (us_pos hx0 hx1)]
    linarith
  refine (measure_mono hsub).trans ((measure_union_le _ _).trans ?_)
  rw [Real.volume_Ioc, Real.volume_Ico, ← ENNReal.ofReal_add (by rw [sub_zero]; positivity) (by rw [sub_sub_cancel]; positivity)]
  refine le_of_eq ?_
  congr 1
  ring

end ICPC.Ideal
