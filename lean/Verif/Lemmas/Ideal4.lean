import Verif.Lemmas.Ideal3
import Verif.Lemmas.Num
import Mathlib.Data.Nat.Choose.Sum
import Mathlib.MeasureTheory.Function.Floor

/-!
# The geometric distribution, and the binomial distribution by geometric gaps
-/

namespace ICPC.Ideal

open MeasureTheory Spec ProbabilityTheory

/-- The value of `std::floor(std::log(u) / lg)`. -/
noncomputable def steps (p u : ℝ) : ℤ := ⌊Real.log u / Real.log (1 - p)⌋

theorem measurable_steps (p : ℝ) : Measurable (steps p) := by
  unfold steps
  exact (Real.measurable_log.div_const _).floor

/-- `u` is uniform, so at least `m` steps are taken with probability `(1 - p) ^ m`. -/
theorem steps_ge {p : ℝ} (hp : 0 < p) (hp1 : p < 1) (m : ℕ) : uniform01 {u | (m : ℤ) ≤ steps p u} = ENNReal.ofReal ((1 - p) ^ m) := by
  have hq : 0 < 1 - p := by linarith
  have hq1 : (1 - p) ^ m ≤ 1 := pow_le_one₀ hq.le (by linarith)
  have hm : MeasurableSet {u | (m : ℤ) ≤ steps p u} := measurable_steps p measurableSet_Ici
  rw [uniform01, Measure.restrict_apply hm]
  have e : {u | (m : ℤ) ≤ steps p u} ∩ Set.Ioo 0 1 = Set.Ioc 0 ((1 - p) ^ m) ∩ Set.Ioo 0 1 := by
    ext u
    simp only [Set.mem_inter_iff, Set.mem_ofPred_eq, Set.mem_Ioc, Set.mem_Ioo]
    constructor
    · rintro ⟨h1, h2, h3⟩
      exact ⟨⟨h2, (gap_iff hp hp1 h2 m).1 h1⟩, h2, h3⟩
    · rintro ⟨⟨h0, h1⟩, h2, h3⟩
      exact ⟨(gap_iff hp hp1 h2 m).2 h1, h2, h3⟩
  rw [e]
  refine le_antisymm ((measure_mono Set.inter_subset_left).trans ?_) ?_
  · rw [Real.volume_Ioc, sub_zero]
  · have hsub : Set.Ioo 0 ((1 - p) ^ m) ⊆ Set.Ioc 0 ((1 - p) ^ m) ∩ Set.Ioo 0 1 := fun u hu => ⟨⟨hu.1, hu.2.le⟩, hu.1, hu.2.trans_le hq1⟩
    refine le_trans ?_ (measure_mono hsub)
    rw [Real.volume_Ioo, sub_zero]

theorem steps_nonneg {p u : ℝ} (hp : 0 ≤ p) (hp1 : p < 1) (hu : 0 < u) (hu1 : u ≤ 1) : 0 ≤ steps p u := by
  unfold steps
  rw [Int.floor_nonneg]
  exact div_nonneg_of_nonpos (Real.log_nonpos hu.le hu1) (Real.log_nonpos (by linarith) (by linarith))

/-- Between `a` (included) and `b` (excluded) steps. -/
theorem steps_Ico {p : ℝ} (hp : 0 < p) (hp1 : p < 1) {a b : ℕ} (hab : a ≤ b) :
    uniform01 {u | (a : ℤ) ≤ steps p u ∧ steps p u < b} = ENNReal.ofReal ((1 - p) ^ a - (1 - p) ^ b) := by
  have hq : 0 < 1 - p := by linarith
  have e : {u | (a : ℤ) ≤ steps p u ∧ steps p u < b} = {u | (a : ℤ) ≤ steps p u} \ {u | (b : ℤ) ≤ steps p u} := by
    ext u
    simp [not_le]
  have hm : MeasurableSet {u | (b : ℤ) ≤ steps p u} := measurable_steps p measurableSet_Ici
  rw [e, measure_sdiff (show {u | (b : ℤ) ≤ steps p u} ⊆ {u | (a : ℤ) ≤ steps p u} from fun u (hu : (b : ℤ) ≤ steps p u) =>
    show (a : ℤ) ≤ steps p u from le_trans (Int.ofNat_le.2 hab) hu) hm.nullMeasurableSet (measure_ne_top _ _), steps_ge hp hp1,
    steps_ge hp hp1, ENNReal.ofReal_sub _ (by positivity)]

theorem steps_eq {p : ℝ} (hp : 0 < p) (hp1 : p < 1) (k : ℕ) : uniform01 {u | steps p u = k} = ENNReal.ofReal ((1 - p) ^ k * p) := by
  have e : {u | steps p u = k} = {u | (k : ℤ) ≤ steps p u ∧ steps p u < (k + 1 : ℕ)} := by
    ext u
    simp only [Set.mem_ofPred_eq]
    push_cast
    omega
  rw [e, steps_Ico hp hp1 (Nat.le_succ k)]
  congr 1
  rw [Nat.succ_eq_add_one, pow_succ]
  ring

theorem gap_ok {p u : ℝ} (hp : 0 < p) (hp1 : p < 1) (h : I64 (steps p u)) : gap u (Real.log (1 - p)) = .ok (steps p u) := by
  unfold gap
  rw [if_neg (Real.log_neg (by linarith) (by linarith)).ne]
  exact chk_ok h

theorem gap_ub {p u : ℝ} (hp : 0 < p) (hp1 : p < 1) (h : ¬I64 (steps p u)) : gap u (Real.log (1 - p)) = .error .ub := by
  unfold gap
  rw [if_neg (Real.log_neg (by linarith) (by linarith)).ne]
  exact if_neg h

/-- Only numbers between 0 and 1 matter. -/
theorem measure_congr_good {E F : Set (ℕ → ℝ)} (h : ∀ ω, 0 < ω 0 → ω 0 < 1 → (ω ∈ E ↔ ω ∈ F)) :
    independentUniforms E = independentUniforms F := by
  have h0 : independentUniforms {ω | ω 0 ∈ (Set.Ioo (0 : ℝ) 1)ᶜ} = 0 := by
    rw [splits_one.first measurableSet_Ioo.compl, uniform01, Measure.restrict_apply measurableSet_Ioo.compl, Set.compl_inter_self,
      measure_empty]
  refine measure_congr ?_
  have h1 : ∀ᵐ ω ∂independentUniforms, ω 0 ∈ Set.Ioo (0 : ℝ) 1 := h0
  filter_upwards [h1] with ω hω
  exact propext (h ω hω.1 hω.2)

/-! ## Geometric distribution -/

theorem geometric_run {p : ℝ} (hp : 0 ≤ p) (hp1 : p < 1) (ω : ℕ → ℝ) :
    geometric p ω = lift (gap (ω 0) (Real.log (1 - p))) (tail ω) := by
  unfold geometric
  rw [require_bind ⟨hp, hp1⟩, real_bind]

theorem geometric_ends {p : ℝ} (hp : 0 < p) (hp1 : p < 1) {k : ℤ} (hk : I64 k) (ω : ℕ → ℝ) :
    ω ∈ ends (geometric p) {k} ↔ steps p (ω 0) = k := by
  by_cases h : I64 (steps p (ω 0))
  · have e : geometric p ω = .ok (steps p (ω 0), tail ω) := by rw [geometric_run hp.le hp1, gap_ok hp hp1 h, lift_ok]
    exact ends_ok e _
  · have e : geometric p ω = .error .ub := by rw [geometric_run hp.le hp1, gap_ub hp hp1 h, lift_error]
    constructor
    · exact fun h2 => (ends_error e _ h2).elim
    · exact fun h2 => (h (h2 ▸ hk)).elim

theorem geometricLoop_ub1 {lower upper : ℤ} {p : ℝ} (hp : 0 < p) (hp1 : p < 1) (f : ℕ) {ω : ℕ → ℝ} (h : ¬I64 (steps p (ω 0))) :
    geometricLoop lower upper p (f + 1) ω = .error .ub := by
  rw [geometricLoop, real_bind, gap_ub hp hp1 h, lift_error_bind]

theorem geometricLoop_ub2 {lower upper : ℤ} {p : ℝ} (hp : 0 < p) (hp1 : p < 1) (f : ℕ) {ω : ℕ → ℝ} (h : I64 (steps p (ω 0)))
    (h2 : ¬I64 (lower + steps p (ω 0))) : geometricLoop lower upper p (f + 1) ω = .error .ub := by
  rw [geometricLoop, real_bind, gap_ok hp hp1 h, lift_ok_bind, show chk (lower + steps p (ω 0)) = .error .ub from if_neg h2, lift_error_bind]

theorem geometricLoop_ok {lower upper : ℤ} {p : ℝ} (hp : 0 < p) (hp1 : p < 1) (f : ℕ) {ω : ℕ → ℝ} (h : I64 (steps p (ω 0)))
    (h2 : I64 (lower + steps p (ω 0))) : geometricLoop lower upper p (f + 1) ω =
      if lower + steps p (ω 0) < upper then .ok (lower + steps p (ω 0), tail ω) else geometricLoop lower upper p f (tail ω) := by
  rw [geometricLoop, real_bind, gap_ok hp hp1 h, lift_ok_bind, chk_ok h2, lift_ok_bind]
  split <;> rfl

/-! ## Binomial distribution -/

theorem bg_ub {n : ℤ} {sw : Bool} {p : ℝ} (hp : 0 < p) (hp1 : p < 1) (f : ℕ) {y res : ℤ} {ω : ℕ → ℝ}
    (h : ¬(I64 (steps p (ω 0)) ∧ I64 (steps p (ω 0) + 1) ∧ I64 (y + (steps p (ω 0) + 1)))) :
    bgLoop n sw (Real.log (1 - p)) (f + 1) y res ω = .error .ub := by
  rw [bgLoop, real_bind]
  by_cases h1 : I64 (steps p (ω 0))
  · rw [gap_ok hp hp1 h1, lift_ok_bind]
    by_cases h2 : I64 (steps p (ω 0) + 1)
    · have h3 : ¬I64 (y + (steps p (ω 0) + 1)) := fun h3 => h ⟨h1, h2, h3⟩
      rw [chk_ok h2, lift_ok_bind, show chk (y + (steps p (ω 0) + 1)) = .error .ub from if_neg h3, lift_error_bind]
    · rw [show chk (steps p (ω 0) + 1) = .error .ub from if_neg h2, lift_error_bind]
  · rw [gap_ub hp hp1 h1, lift_error_bind]

theorem bg_ok {n : ℤ} {sw : Bool} {p : ℝ} (hp : 0 < p) (hp1 : p < 1) (f : ℕ) {y res : ℤ} {ω : ℕ → ℝ}
    (h : I64 (steps p (ω 0)) ∧ I64 (steps p (ω 0) + 1) ∧ I64 (y + (steps p (ω 0) + 1))) :
    bgLoop n sw (Real.log (1 - p)) (f + 1) y res ω =
      if y + (steps p (ω 0) + 1) > n then .ok (if sw then n - res else res, tail ω)
      else bgLoop n sw (Real.log (1 - p)) f (y + (steps p (ω 0) + 1)) (res + 1) (tail ω) := by
  rw [bgLoop, real_bind, gap_ok hp hp1 h.1, lift_ok_bind, chk_ok h.2.1, lift_ok_bind, chk_ok h.2.2, lift_ok_bind]
  split <;> rfl

/-- The value returned after `j` successes. -/
def outcome (n : ℤ) (sw : Bool) (j : ℤ) : ℤ := if sw then n - j else j

theorem outcome_inj {n : ℤ} {sw : Bool} {i j : ℤ} (h : outcome n sw i = outcome n sw j) : i = j := by
  unfold outcome at h
  split at h <;> omega

theorem bg_result {n : ℤ} {sw : Bool} {p : ℝ} (hp : 0 < p) (hp1 : p < 1) {f : ℕ} {y res : ℤ} {ω ω' : ℕ → ℝ} {v : ℤ}
    (h : bgLoop n sw (Real.log (1 - p)) f y res ω = .ok (v, ω')) : ∃ j : ℕ, v = outcome n sw (res + j) := by
  induction f generalizing y res ω with
  | zero => simp [bgLoop, lift_error] at h
  | succ f ih =>
    by_cases hs : I64 (steps p (ω 0)) ∧ I64 (steps p (ω 0) + 1) ∧ I64 (y + (steps p (ω 0) + 1))
    · rw [bg_ok hp hp1 f hs] at h
      split at h
      · simp only [Except.ok.injEq, Prod.mk.injEq] at h
        exact ⟨0, by rw [← h.1]; simp [outcome]⟩
      · obtain ⟨j, hj⟩ := ih h
        exact ⟨j + 1, by rw [hj]; congr 1; push_cast; ring⟩
    · rw [bg_ub hp hp1 f hs] at h
      simp at h

/-- The event that `k` more successes follow. -/
def bgEvent (n : ℤ) (sw : Bool) (p : ℝ) (y res : ℤ) (k f : ℕ) : Set (ℕ → ℝ) :=
  ends (bgLoop n sw (Real.log (1 - p)) f y res) {outcome n sw (res + k)}

theorem bgEvent_zero (n : ℤ) (sw : Bool) (p : ℝ) (y res : ℤ) (k : ℕ) : bgEvent n sw p y res k 0 = ∅ := by
  ext ω
  rw [Set.mem_empty_iff_false, iff_false]
  exact ends_error rfl _

theorem bgEvent_succ {n : ℤ} {sw : Bool} {p : ℝ} (hp : 0 < p) (hp1 : p < 1) (y res : ℤ) (k f : ℕ) (ω : ℕ → ℝ) :
    ω ∈ bgEvent n sw p y res k (f + 1) ↔
      (I64 (steps p (ω 0)) ∧ I64 (steps p (ω 0) + 1) ∧ I64 (y + (steps p (ω 0) + 1))) ∧
      ((y + (steps p (ω 0) + 1) > n ∧ k = 0) ∨
        (y + (steps p (ω 0) + 1) ≤ n ∧ ∃ k', k = k' + 1 ∧ tail ω ∈ bgEvent n sw p (y + (steps p (ω 0) + 1)) (res + 1) k' f)) := by
  by_cases hs : I64 (steps p (ω 0)) ∧ I64 (steps p (ω 0) + 1) ∧ I64 (y + (steps p (ω 0) + 1))
  · simp only [hs, true_and, and_self]
    by_cases hn : y + (steps p (ω 0) + 1) > n
    · have e := bg_ok (n := n) (sw := sw) hp hp1 f (res := res) hs
      rw [if_pos hn] at e
      unfold bgEvent
      rw [ends_ok e]
      simp only [Set.mem_singleton_iff, hn, true_and, not_le.2 hn, false_and, or_false]
      constructor
      · intro h
        have : outcome n sw res = outcome n sw (res + k) := h
        have := outcome_inj this
        omega
      · rintro rfl
        show outcome n sw res = _
        simp
    · have e := bg_ok (n := n) (sw := sw) hp hp1 f (res := res) hs
      rw [if_neg hn] at e
      unfold bgEvent
      rw [ends_congr e]
      simp only [hn, false_and, false_or, not_lt.1 hn, true_and]
      constructor
      · rintro ⟨v, ω', h1, h2⟩
        obtain ⟨j, hj⟩ := bg_result hp hp1 h1
        have : outcome n sw (res + 1 + j) = outcome n sw (res + k) := hj ▸ h2
        have := outcome_inj this
        refine ⟨j, by omega, v, ω', h1, ?_⟩
        rw [hj]
        rfl
      · rintro ⟨k', rfl, v, ω', h1, h2⟩
        refine ⟨v, ω', h1, ?_⟩
        rw [Set.mem_singleton_iff] at h2 ⊢
        rw [h2]
        congr 1
        push_cast
        ring
  · have e := bg_ub (n := n) (sw := sw) hp hp1 f (res := res) hs
    simp only [hs, false_and, iff_false]
    exact ends_error e _

theorem measurable_bgEvent {n : ℤ} {sw : Bool} {p : ℝ} (hp : 0 < p) (hp1 : p < 1) (f : ℕ) (y res : ℤ) (k : ℕ) :
    MeasurableSet (bgEvent n sw p y res k f) := by
  induction f generalizing y res k with
  | zero => rw [bgEvent_zero]; exact .empty
  | succ f ih =>
    have e : bgEvent n sw p y res k (f + 1) = ⋃ s : ℤ, ({ω | steps p (ω 0) = s} ∩ {ω |
        (I64 s ∧ I64 (s + 1) ∧ I64 (y + (s + 1))) ∧ ((y + (s + 1) > n ∧ k = 0) ∨
        (y + (s + 1) ≤ n ∧ ∃ k', k = k' + 1 ∧ tail ω ∈ bgEvent n sw p (y + (s + 1)) (res + 1) k' f))}) := by
      ext ω
      rw [bgEvent_succ hp hp1]
      simp only [Set.mem_iUnion, Set.mem_inter_iff, Set.mem_ofPred_eq]
      constructor
      · intro h
        exact ⟨_, rfl, h⟩
      · rintro ⟨s, rfl, h⟩
        exact h
    rw [e]
    refine .iUnion fun s => .inter ?_ ?_
    · exact (measurable_steps p).comp (measurable_pi_apply 0) (measurableSet_singleton s)
    · refine .inter (.const _) (.union (.const _) (.inter (.const _) ?_))
      have : {ω : ℕ → ℝ | ∃ k', k = k' + 1 ∧ tail ω ∈ bgEvent n sw p (y + (s + 1)) (res + 1) k' f}
          = ⋃ k', ({ω | k = k' + 1} ∩ tail ⁻¹' bgEvent n sw p (y + (s + 1)) (res + 1) k' f) := by
        ext ω
        simp
      rw [show (fun ω : ℕ → ℝ => ∃ k', k = k' + 1 ∧ tail ω ∈ bgEvent n sw p (y + (s + 1)) (res + 1) k' f) = _ from this]
      exact .iUnion fun k' => .inter (.const _) (measurable_tail (ih _ _ _))

/-- Probability of `k` successes in `m` trials. -/
def binomialPmf (m k : ℕ) (p : ℝ) : ℝ := m.choose k * p ^ k * (1 - p) ^ (m - k)

theorem binomialPmf_nonneg (m k : ℕ) {p : ℝ} (hp : 0 < p) (hp1 : p < 1) : 0 ≤ binomialPmf m k p := by
  have : 0 < 1 - p := by linarith
  unfold binomialPmf
  positivity

theorem binomialPmf_succ (m k : ℕ) (p : ℝ) :
    binomialPmf m (k + 1) p = ∑ j ∈ Finset.range m, (1 - p) ^ j * p * binomialPmf (m - 1 - j) k p := by
  have e : ∀ j ∈ Finset.range m, (1 - p) ^ j * p * binomialPmf (m - 1 - j) k p
      = p ^ (k + 1) * (1 - p) ^ (m - (k + 1)) * ((m - 1 - j).choose k : ℝ) := by
    intro j hj
    have hj := Finset.mem_range.1 hj
    unfold binomialPmf
    rcases lt_or_ge (m - 1 - j) k with h | h
    · rw [Nat.choose_eq_zero_of_lt h]
      simp
    · have : (1 - p) ^ (m - (k + 1)) = (1 - p) ^ j * (1 - p) ^ (m - 1 - j - k) := by
        rw [← pow_add]
        congr 1
        omega
      rw [this]
      ring
  rw [Finset.sum_congr rfl e, ← Finset.mul_sum, Finset.sum_range_reflect (fun i => ((i.choose k : ℕ) : ℝ)) m]
  unfold binomialPmf
  have : (m.choose (k + 1) : ℝ) = ∑ i ∈ Finset.range m, (i.choose k : ℝ) := by
    have h : m.choose (k + 1) = ∑ i ∈ Finset.range m, i.choose k := by
      clear e
      induction m with
      | zero => simp
      | succ m ih => rw [Finset.sum_range_succ, ← ih, Nat.choose_succ_succ, add_comm]
    exact_mod_cast h
  rw [this]
  ring

/-- The law of the number of successes that follow, where `m` trials remain. -/
theorem bg_law (n : ℕ) (hn : n < 2 ^ 63) (sw : Bool) {p : ℝ} (hp : 0 < p) (hp1 : p < 1) (k m : ℕ) (hm : m ≤ n) (res : ℤ) :
    independentUniforms (⋃ f, bgEvent n sw p ((n : ℤ) - m) res k f)
      = ENNReal.ofReal (binomialPmf m k p * (1 - (1 - p) ^ (2 ^ 63 - 1 - n))) := by
  have hq : 0 < 1 - p := by linarith
  have hq1 : 1 - p ≤ 1 := by linarith
  have hc : 0 ≤ 1 - (1 - p) ^ (2 ^ 63 - 1 - n) := sub_nonneg.2 (pow_le_one₀ hq.le hq1)
  induction k generalizing m res with
  | zero =>
    have e : independentUniforms (⋃ f, bgEvent n sw p ((n : ℤ) - m) res 0 f)
        = independentUniforms {ω | ω 0 ∈ {u | (m : ℤ) ≤ steps p u ∧ steps p u < ((2 ^ 63 - 1 - (n - m) : ℕ) : ℤ)}} := by
      refine measure_congr_good fun ω h0 h1 => ?_
      have hs := steps_nonneg hp.le hp1 h0 h1.le
      simp only [Set.mem_iUnion, Set.mem_ofPred_eq]
      generalize hg : steps p (ω 0) = s at hs
      constructor
      · rintro ⟨f, hf⟩
        cases f with
        | zero => rw [bgEvent_zero] at hf; exact hf.elim
        | succ f =>
          rw [bgEvent_succ hp hp1, hg] at hf
          obtain ⟨⟨i1, i2, i3⟩, ⟨h, _⟩ | ⟨_, k', h, _⟩⟩ := hf
          · unfold I64 at i3
            omega
          · omega
      · rintro ⟨h2, h3⟩
        refine ⟨1, ?_⟩
        rw [bgEvent_succ hp hp1, hg]
        unfold I64
        refine ⟨⟨⟨?_, ?_⟩, ⟨?_, ?_⟩, ?_, ?_⟩, .inl ⟨?_, rfl⟩⟩ <;> omega
    have hA : MeasurableSet {u | (m : ℤ) ≤ steps p u ∧ steps p u < ((2 ^ 63 - 1 - (n - m) : ℕ) : ℤ)} :=
      (measurable_steps p measurableSet_Ici).inter (measurable_steps p measurableSet_Iio)
    rw [e, splits_one.first hA,
      steps_Ico hp hp1 (by omega)]
    congr 1
    have : (1 - p) ^ (2 ^ 63 - 1 - (n - m)) = (1 - p) ^ m * (1 - p) ^ (2 ^ 63 - 1 - n) := by
      rw [← pow_add]
      congr 1
      omega
    rw [this]
    simp only [binomialPmf, Nat.choose_zero_right, Nat.cast_one, pow_zero, mul_one, one_mul, Nat.sub_zero]
    ring
  | succ k ih =>
    have e : independentUniforms (⋃ f, bgEvent n sw p ((n : ℤ) - m) res (k + 1) f)
        = independentUniforms (⋃ j ∈ Finset.range m, {ω | ω 0 ∈ {u | steps p u = (j : ℕ)} ∧
            tail ω ∈ ⋃ f, bgEvent n sw p ((n : ℤ) - (m - 1 - j : ℕ)) (res + 1) k f}) := by
      refine measure_congr_good fun ω h0 h1 => ?_
      have hs := steps_nonneg hp.le hp1 h0 h1.le
      simp only [Set.mem_iUnion, Set.mem_ofPred_eq, Finset.mem_range]
      generalize hg : steps p (ω 0) = s at hs
      constructor
      · rintro ⟨f, hf⟩
        cases f with
        | zero => rw [bgEvent_zero] at hf; exact hf.elim
        | succ f =>
          rw [bgEvent_succ hp hp1, hg] at hf
          obtain ⟨⟨i1, i2, i3⟩, ⟨_, h⟩ | ⟨h2, k', h, h3⟩⟩ := hf
          · omega
          · obtain rfl : k = k' := by omega
            refine ⟨s.toNat, by omega, by omega, f, ?_⟩
            have : (n : ℤ) - m + (s + 1) = n - (m - 1 - s.toNat : ℕ) := by omega
            rw [this] at h3
            exact h3
      · rintro ⟨j, hj, rfl, f, hf⟩
        refine ⟨f + 1, ?_⟩
        rw [bgEvent_succ hp hp1, hg]
        have : (n : ℤ) - m + ((j : ℤ) + 1) = n - (m - 1 - j : ℕ) := by omega
        refine ⟨?_, .inr ⟨by omega, k, rfl, ?_⟩⟩
        · unfold I64
          refine ⟨⟨?_, ?_⟩, ⟨?_, ?_⟩, ?_, ?_⟩ <;> omega
        · rw [this]
          exact hf
    have hmeas : ∀ j : ℕ, MeasurableSet (⋃ f, bgEvent n sw p ((n : ℤ) - (m - 1 - j : ℕ)) (res + 1) k f) :=
      fun j => .iUnion fun f => measurable_bgEvent hp hp1 _ _ _ _
    have hst : ∀ j : ℕ, MeasurableSet {u | steps p u = (j : ℤ)} := fun j => measurable_steps p (measurableSet_singleton _)
    rw [e, measure_biUnion_finset]
    · rw [binomialPmf_succ, Finset.sum_mul, ENNReal.ofReal_sum_of_nonneg]
      · refine Finset.sum_congr rfl fun j hj => ?_
        have hj := Finset.mem_range.1 hj
        rw [splits_one.both (hst j) (hmeas j), steps_eq hp hp1, ih (m - 1 - j) (by omega), ← ENNReal.ofReal_mul (by positivity)]
        congr 1
        ring
      · intro j _
        have := binomialPmf_nonneg (m - 1 - j) k hp hp1
        positivity
    · intro i _ j _ hij
      rw [Function.onFun, Set.disjoint_left]
      rintro ω ⟨h1, _⟩ ⟨h2, _⟩
      have h1 : steps p (ω 0) = i := h1
      have h2 : steps p (ω 0) = j := h2
      exact hij (by omega)
    · intro j _
      exact (splits_one.measurable_head (hst j)).inter (measurable_tail (hmeas j))

end ICPC.Ideal
