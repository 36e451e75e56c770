import Verif.Props.RealUniform
import Verif.Model.FloatDist
import Verif.Spec.FloatDist
import Mathlib.Analysis.Complex.Exponential

/-!
# Lemmas for `exponential` and `geometric` in floating point
-/

namespace ICPC

open MeasureTheory Spec ICPC.Engine ICPC.Fp ICPC.Spec.Fp ICPC.Props

instance engine_isProb : IsProbabilityMeasure engine := by
  have := uniformBelow_isProb (show 0 < 2 ^ 64 from Nat.two_pow_pos 64)
  unfold engine; infer_instance

theorem mul_exp_neg_le (x : ℝ) : x * Real.exp (-x) ≤ 1 / 2 := by
  rcases le_or_gt x 0 with h | h
  · have : x * Real.exp (-x) ≤ 0 := mul_nonpos_of_nonpos_of_nonneg h (Real.exp_pos _).le
    linarith
  · have h1 := Real.quadratic_le_exp_of_nonneg h.le
    rw [Real.exp_neg, ← div_eq_mul_inv, div_le_iff₀ (Real.exp_pos x)]
    nlinarith [sq_nonneg (x - 1)]

/-- The exponential function with a relative error of its argument. -/
theorem exp_neg_sub_le {x r : ℝ} (hr : 1 ≤ r) : Real.exp (-x) - Real.exp (-(x * r)) ≤ (r - 1) / 2 := by
  have e : Real.exp (-(x * r)) = Real.exp (-x) * Real.exp (-(x * (r - 1))) := by rw [← Real.exp_add]; ring_nf
  have h1 : 1 - x * (r - 1) ≤ Real.exp (-(x * (r - 1))) := by have := Real.add_one_le_exp (-(x * (r - 1))); linarith
  have h2 := mul_exp_neg_le x
  have h3 := Real.exp_pos (-x)
  rw [e]
  nlinarith [mul_le_mul_of_nonneg_right h2 (by linarith : 0 ≤ r - 1)]

theorem not_words_real : engine.real {ω | ¬ Words ω} = 0 := by
  have : {ω : ℕ → ℕ | ¬ Words ω} = {ω | ∃ i, 2 ^ 64 ≤ ω i} := by
    ext ω; simp [Words]
  rw [this, Measure.real, show engine = words (2 ^ 64) from rfl, not_words_null (Nat.two_pow_pos 64)]
  rfl

theorem first_ends : engine.real {ω | ∃ v, First ω v} = 1 := by
  have e : {ω : ℕ → ℕ | ∃ v, First ω v} = {ω | ∃ n v rest, realWords ((List.range n).map ω) = some (v, rest)} := by
    ext ω
    constructor
    · rintro ⟨v, n, rest, h⟩; exact ⟨n, v, rest, h⟩
    · rintro ⟨n, v, rest, h⟩; exact ⟨v, n, rest, h⟩
  rw [e]; exact C98_real_ends

theorem below_ge (s : ℝ) (h1 : s ≤ 1) : s - 1 / 2 ^ 52 ≤ engine.real {ω | ∃ v : ℚ, First ω v ∧ (v : ℝ) < s} := by
  by_contra hc
  have hc := not_le.1 hc
  have h0 : 0 ≤ engine.real {ω | ∃ v : ℚ, First ω v ∧ (v : ℝ) < s} := measureReal_nonneg
  have hκ : (0 : ℝ) < 1 / 2 ^ 52 := by positivity
  obtain ⟨r, hr1, hr2⟩ := exists_rat_btwn (show engine.real {ω | ∃ v : ℚ, First ω v ∧ (v : ℝ) < s} + 1 / 2 ^ 52 < s by linarith)
  have hr0 : 0 ≤ r := by have : (0 : ℝ) ≤ r := by linarith
                         exact_mod_cast this
  have hr3 : r ≤ 1 := by have : (r : ℝ) ≤ 1 := by linarith
                         exact_mod_cast this
  have hl := (abs_le.1 (first_law r hr0 hr3)).1
  have hm : engine.real {ω | ∃ v, First ω v ∧ v < r} ≤ engine.real {ω | ∃ v : ℚ, First ω v ∧ (v : ℝ) < s} := by
    refine measureReal_mono ?_
    rintro ω ⟨v, h, hv⟩
    refine ⟨v, h, lt_trans ?_ hr2⟩
    exact_mod_cast hv
  linarith

theorem below_le (s : ℝ) (h0 : 0 ≤ s) : engine.real {ω | ∃ v : ℚ, First ω v ∧ (v : ℝ) < s} ≤ s + 1 / 2 ^ 52 := by
  by_contra hc
  have hc := not_le.1 hc
  have h1 : engine.real {ω | ∃ v : ℚ, First ω v ∧ (v : ℝ) < s} ≤ 1 := measureReal_le_one
  have hκ : (0 : ℝ) < 1 / 2 ^ 52 := by positivity
  obtain ⟨r, hr1, hr2⟩ := exists_rat_btwn (show s < engine.real {ω | ∃ v : ℚ, First ω v ∧ (v : ℝ) < s} - 1 / 2 ^ 52 by linarith)
  have hr0 : 0 ≤ r := by have : (0 : ℝ) ≤ r := by linarith
                         exact_mod_cast this
  have hr3 : r ≤ 1 := by have : (r : ℝ) ≤ 1 := by linarith
                         exact_mod_cast this
  have hl := (abs_le.1 (first_law r hr0 hr3)).2
  have hm : engine.real {ω | ∃ v : ℚ, First ω v ∧ (v : ℝ) < s} ≤ engine.real {ω | ∃ v, First ω v ∧ v < r} := by
    refine measureReal_mono ?_
    rintro ω ⟨v, h, hv⟩
    refine ⟨v, h, ?_⟩
    have := lt_trans hv hr1
    exact_mod_cast this
  linarith

/-- An event that needs a large first value. -/
theorem above_le (T : Set (ℕ → ℕ)) (s : ℝ) (h1 : s ≤ 1)
    (h : ∀ ω, Words ω → ω ∈ T → ∃ v : ℚ, First ω v ∧ s ≤ v) : engine.real T ≤ 1 - s + 1 / 2 ^ 52 := by
  have hm : MeasurableSet {ω : ℕ → ℕ | ∃ v : ℚ, First ω v ∧ (v : ℝ) < s} := by
    have e : {ω : ℕ → ℕ | ∃ v : ℚ, First ω v ∧ (v : ℝ) < s} =
        {ω | ∃ n, ∃ (v : ℚ) (rest : _), realWords ((List.range n).map ω) = some (v, rest) ∧ (v : ℝ) < s} := by
      ext ω
      constructor
      · rintro ⟨v, ⟨n, rest, h⟩, hv⟩; exact ⟨n, v, rest, h, hv⟩
      · rintro ⟨n, v, rest, h, hv⟩; exact ⟨v, ⟨n, rest, h⟩, hv⟩
    rw [e]
    exact measurable_prefix fun _ ws => ∃ (v : ℚ) (rest : _), realWords ws = some (v, rest) ∧ (v : ℝ) < s
  have hsub : T ⊆ {ω | ∃ v : ℚ, First ω v ∧ (v : ℝ) < s}ᶜ ∪ {ω | ¬ Words ω} := by
    intro ω hω
    by_cases hw : Words ω
    · obtain ⟨v, hv, hs⟩ := h ω hw hω
      refine .inl ?_
      rintro ⟨x, hx, hx2⟩
      rw [hx.unique hv] at hx2
      linarith
    · exact .inr hw
  have h2 := (measureReal_mono (μ := engine) hsub).trans (measureReal_union_le _ _)
  rw [not_words_real, probReal_compl_eq_one_sub hm] at h2
  have := below_ge s h1
  linarith

/-- An event that a large first value ensures. -/
theorem above_ge (T : Set (ℕ → ℕ)) (s : ℝ) (h0 : 0 ≤ s)
    (h : ∀ ω, Words ω → ∀ v : ℚ, First ω v → s ≤ v → ω ∈ T) : 1 - s - 1 / 2 ^ 52 ≤ engine.real T := by
  have hsub : {ω | ∃ v, First ω v} ⊆ T ∪ ({ω | ∃ v : ℚ, First ω v ∧ (v : ℝ) < s} ∪ {ω | ¬ Words ω}) := by
    rintro ω ⟨v, hv⟩
    by_cases hw : Words ω
    · by_cases hs : s ≤ v
      · exact .inl (h ω hw v hv hs)
      · exact .inr (.inl ⟨v, hv, not_le.1 hs⟩)
    · exact .inr (.inr hw)
  have h1 := (measureReal_mono (μ := engine) hsub).trans (measureReal_union_le _ _)
  have h2 := measureReal_union_le (μ := engine) {ω | ∃ v : ℚ, First ω v ∧ (v : ℝ) < s} {ω | ¬ Words ω}
  rw [not_words_real] at h2
  rw [first_ends] at h1
  have := below_le s h0
  linarith

/-- The logarithm of a number in `(0, 1]` with its error. -/
theorem log_within {ε : ℚ} {log : Flt → Flt} (h : LogWithin ε log) (hε : ε < 1) {x : ℚ} (h0 : 0 < x) (h1 : x ≤ 1) :
    ∃ y : ℚ, log (.fin x) = .fin y ∧ y ≤ 0 ∧ (1 - ε) * (-Real.log x) ≤ ((-y : ℚ) : ℝ) ∧ ((-y : ℚ) : ℝ) ≤ (1 + ε) * (-Real.log x) := by
  obtain ⟨y, hy, he⟩ := h x h0 h1
  have hl : Real.log x ≤ 0 := Real.log_nonpos (by exact_mod_cast h0.le) (by exact_mod_cast h1)
  rw [abs_of_nonpos hl] at he
  have := abs_le.1 he
  have hε' : (ε : ℝ) < 1 := by exact_mod_cast hε
  refine ⟨y, hy, ?_, ?_, ?_⟩
  · have : (y : ℝ) ≤ 0 := by nlinarith
    exact_mod_cast this
  · push_cast; nlinarith
  · push_cast; nlinarith

theorem lt_fin (a b : ℚ) : Fp.lt (.fin a) (.fin b) = decide (a < b) := by
  unfold Fp.lt
  rw [show Fp.le (.fin a) (.fin b) = decide (a ≤ b) from rfl, show Fp.le (.fin b) (.fin a) = decide (b ≤ a) from rfl]
  by_cases h : a < b
  · simp [h, h.le]
  · simp [h, not_lt.1 h]

theorem round_cases (F : Format) {z : ℚ} (hz : 0 ≤ z) : (∃ q, Fp.round F z = .fin q ∧ 0 ≤ q) ∨ Fp.round F z = .inf false := by
  by_cases h : roundMag F |z| < 2 ^ (F.emax + F.p)
  · left
    have e : Fp.round F z = .fin (if z < 0 then -roundMag F |z| else roundMag F |z|) := by unfold Fp.round; rw [if_pos h]
    exact ⟨_, e, round_nonneg e hz⟩
  · right
    unfold Fp.round
    rw [if_neg h]
    simp [not_lt.2 hz]

/-- Rounding does not fall below a number of the format. -/
theorem le_round {F : Format} {l z : ℚ} (hl : Rep F l) (h : l ≤ z) : Fp.le (.fin l) (Fp.round F z) = true := by
  rcases lt_or_ge z 0 with hz | hz
  · obtain ⟨q, hq⟩ := round_fin (F := F) (z := z) hl (by rw [abs_of_neg hz, abs_of_neg (by linarith)]; linarith)
    rw [hq]
    exact decide_eq_true (nearest_ge (round_nearest hq) hl h)
  · rcases round_cases F hz with ⟨q, hq, -⟩ | hq
    · rw [hq]
      exact decide_eq_true (nearest_ge (round_nearest hq) hl h)
    · rw [hq]; rfl

/-- Rounding does not exceed a number of the format. -/
theorem round_le {F : Format} {u z : ℚ} (hu : Rep F u) (hz : 0 ≤ z) (h : z ≤ u) : ∃ q, Fp.round F z = .fin q ∧ 0 ≤ q ∧ q ≤ u := by
  obtain ⟨q, hq⟩ := round_fin (F := F) (z := z) hu (by rw [abs_of_nonneg hz, abs_of_nonneg (by linarith)]; exact h)
  exact ⟨q, hq, round_nonneg hq hz, nearest_le (round_nearest hq) hu h⟩

/-- `std::llround` of `std::floor` of a number that is not negative. -/
theorem llround_floor {q : ℚ} (h0 : 0 ≤ q) : Fp.llround (Fp.floor (.fin q)) = chk ⌊q⌋ := by
  have h : (0 : ℚ) ≤ (⌊q⌋ : ℤ) := by exact_mod_cast Int.floor_nonneg.2 h0
  show chk (if 0 ≤ ((⌊q⌋ : ℤ) : ℚ) then ⌊((⌊q⌋ : ℤ) : ℚ) + 1 / 2⌋ else _) = _
  rw [if_pos h, Int.floor_intCast_add]
  norm_num

end ICPC
