import Verif.Lemmas.Ideal4

/-!
# C73: geometric and binomial distribution, in exact arithmetic
-/

namespace ICPC.Props

open MeasureTheory ProbabilityTheory Spec ICPC.Ideal

/-- **C73**: `geometric(p)` is the number of failures before the first success of probability `p`, as long as this number fits into the type of the
result; if it does not fit the behaviour is undefined.  (Partial: exact arithmetic, `real()` uniform.) -/
theorem C73_geometric_partial {p : ℝ} (hp : 0 < p) (hp1 : p < 1) :
    (∀ k : ℕ, k < 2 ^ 63 → probIn (fun _ => geometric p) {(k : ℤ)} = ENNReal.ofReal ((1 - p) ^ k * p)) ∧
    probUndefined (fun _ => geometric p) = ENNReal.ofReal ((1 - p) ^ 2 ^ 63) := by
  constructor
  · intro k hk
    have hA : MeasurableSet {u | steps p u = (k : ℤ)} := measurable_steps p (measurableSet_singleton _)
    rw [probIn_const, ← steps_eq hp hp1, ← splits_one.first hA]
    congr 1
    ext ω
    exact geometric_ends hp hp1 (by unfold I64; omega) ω
  · have hA : MeasurableSet {u | ((2 ^ 63 : ℕ) : ℤ) ≤ steps p u} := measurable_steps p measurableSet_Ici
    rw [probUndefined, ← steps_ge hp hp1, ← splits_one.first hA]
    refine measure_congr_good fun ω h0 h1 => ?_
    have hs := steps_nonneg hp.le hp1 h0 h1.le
    simp only [Set.mem_ofPred_eq, exists_const]
    by_cases h : I64 (steps p (ω 0))
    · rw [geometric_run hp.le hp1, gap_ok hp hp1 h, lift_ok]
      unfold I64 at h
      simp only [reduceCtorEq, false_iff, not_le]
      omega
    · rw [geometric_run hp.le hp1, gap_ub hp hp1 h, lift_error]
      unfold I64 at h
      simp only [true_iff]
      omega

/-- **C73**: `p = 0` is accepted, but the behaviour is undefined: there is a division by zero and its result is converted to an integer. -/
theorem C73_geometric_zero_refuted {lower upper : ℤ} (hb : lower < upper) (fuel : ℕ) (ω : ℕ → ℝ) :
    geometric 0 ω = .error .ub ∧ geometricIn (fuel + 1) lower upper 0 ω = .error .ub := by
  have hg : ∀ u, gap u (Real.log (1 - 0)) = .error .ub := fun u => by simp [gap]
  constructor
  · rw [geometric_run le_rfl one_pos, hg, lift_error]
  · unfold geometricIn
    rw [require_bind hb, require_bind ⟨le_rfl, one_pos⟩, geometricLoop, real_bind, hg, lift_error_bind]

/-- **C73**: `geometric(lower, upper, p)` returns `lower + k` with a probability proportional to `(1 - p) ^ k`.  The denominator is
the probability that a round is the last one: `w` is the size of the interval, and a round with at least `M` failures is undefined. -/
theorem C73_geometricIn_partial {lower upper : ℤ} (hl : I64 lower) (hu : I64 upper) (hb : lower < upper) {p : ℝ} (hp : 0 < p) (hp1 : p < 1)
    {w M : ℕ} (hw : (w : ℤ) = upper - lower) (hM : (M : ℤ) = min (2 ^ 63) (2 ^ 63 - lower)) {k : ℕ} (hk : k < w) (hk2 : k < 2 ^ 63) :
    probIn (fun f => geometricIn f lower upper p) {lower + k}
      = ENNReal.ofReal ((1 - p) ^ k * p) / (1 - ENNReal.ofReal ((1 - p) ^ w - (1 - p) ^ M)) := by
  have hrun : ∀ f ω, geometricIn f lower upper p ω = geometricLoop lower upper p f ω := by
    intro f ω
    unfold geometricIn
    rw [require_bind hb, require_bind ⟨hp.le, hp1⟩]
  have hq : 0 < 1 - p := by linarith
  have hA : MeasurableSet {u | steps p u = (k : ℤ)} := measurable_steps p (measurableSet_singleton _)
  have hR : MeasurableSet {u | (w : ℤ) ≤ steps p u ∧ steps p u < M} :=
    (measurable_steps p measurableSet_Ici).inter (measurable_steps p measurableSet_Iio)
  have hnu : uniform01 {u | (w : ℤ) ≤ steps p u ∧ steps p u < M} = ENNReal.ofReal ((1 - p) ^ w - (1 - p) ^ M) := by
    rcases le_or_gt w M with h | h
    · exact steps_Ico hp hp1 h
    · have : {u | (w : ℤ) ≤ steps p u ∧ steps p u < M} = ∅ := by
        ext u
        simp only [Set.mem_ofPred_eq, Set.mem_empty_iff_false, iff_false, not_and, not_lt]
        omega
      rw [this, measure_empty, ENNReal.ofReal_of_nonpos]
      exact sub_nonpos.2 (pow_le_pow_of_le_one hq.le (by linarith) h.le)
  unfold I64 at hl hu
  rw [probIn_eq, ← steps_eq hp hp1, ← hnu]
  refine solve (measure_ne_top _ _) ?_ (splits_one.rejection hA hR ?_ _ ?_ ?_)
  · rw [hnu, ENNReal.ofReal_lt_one]
    have h1 : (1 - p) ^ w ≤ 1 - p := by
      have := pow_le_pow_of_le_one hq.le (by linarith) (show 1 ≤ w by omega)
      rwa [pow_one] at this
    have := pow_pos hq M
    linarith
  · rw [Set.disjoint_left]
    intro u (h1 : steps p u = (k : ℤ)) h2
    have : (w : ℤ) ≤ steps p u := h2.1
    omega
  · ext ω
    rw [Set.mem_empty_iff_false, iff_false]
    exact ends_error ((hrun 0 ω).trans rfl) _
  · intro f
    ext ω
    show ω ∈ ends (geometricIn (f + 1) lower upper p) _ ↔ steps p (ω 0) = k ∨ (((w : ℤ) ≤ steps p (ω 0) ∧ steps p (ω 0) < M) ∧
      tail ω ∈ ends (geometricIn f lower upper p) _)
    by_cases h1 : I64 (steps p (ω 0))
    · by_cases h2 : I64 (lower + steps p (ω 0))
      · have e := geometricLoop_ok (upper := upper) hp hp1 f h1 h2
        unfold I64 at h1 h2
        by_cases h3 : lower + steps p (ω 0) < upper
        · rw [if_pos h3] at e
          rw [ends_ok ((hrun _ _).trans e), Set.mem_singleton_iff]
          omega
        · rw [if_neg h3] at e
          rw [ends_congr ((hrun _ _).trans (e.trans (hrun _ _).symm))]
          have : ¬steps p (ω 0) = k := by omega
          have h4 : (w : ℤ) ≤ steps p (ω 0) ∧ steps p (ω 0) < M := by omega
          simp only [this, h4, false_or, true_and, and_self]
      · have e := ends_error ((hrun _ _).trans (geometricLoop_ub2 (upper := upper) hp hp1 f h1 h2)) {lower + (k : ℤ)}
        unfold I64 at h1 h2
        simp only [e, false_iff, not_or, not_and]
        refine ⟨by omega, fun h => ?_⟩
        omega
    · have e := ends_error ((hrun _ _).trans (geometricLoop_ub1 (lower := lower) (upper := upper) hp hp1 f h1)) {lower + (k : ℤ)}
      unfold I64 at h1
      simp only [e, false_iff, not_or, not_and]
      refine ⟨by omega, fun h => ?_⟩
      omega

theorem binomial_small {n : ℤ} {p : ℝ} (hn : 0 ≤ n) (hp : 0 < p) (hp1 : p < 1) (hs : min p (1 - p) * n < 10) (fuel : ℕ) (ω : ℕ → ℝ) :
    binomial fuel n p ω = bgLoop n (@decide (p > 1 / 2) (Classical.propDecidable _)) (Real.log (1 - min p (1 - p))) fuel 0 0 ω := by
  have hm : 0 < min p (1 - p) := lt_min hp (by linarith)
  have hm1 : min p (1 - p) < 1 := lt_of_le_of_lt (min_le_left _ _) hp1
  have hlog : ¬Real.log (1 - min p (1 - p)) ≥ 0 := not_le.2 (Real.log_neg (by linarith) (by linarith))
  unfold binomial
  rw [require_bind hn, require_bind ⟨hp.le, hp1.le⟩]
  simp only [hs, if_true, hlog, if_false]

/-- **C73**: for `0 < p < 1` and `min(p, 1 - p) * n < 10`, `binomial(n, p)` is the number of successes in `n` trials of probability `p`, up to a
factor that is the probability that the run is not undefined (next theorem).  (Partial: exact arithmetic, and not for larger `n`.) -/
theorem C73_binomial_partial {n : ℕ} (hn : n < 2 ^ 63) {p : ℝ} (hp : 0 < p) (hp1 : p < 1) (hs : min p (1 - p) * n < 10) {k : ℕ} (hk : k ≤ n) :
    probIn (fun f => binomial f n p) {(k : ℤ)}
      = ENNReal.ofReal (n.choose k * p ^ k * (1 - p) ^ (n - k) * (1 - max p (1 - p) ^ (2 ^ 63 - 1 - n))) := by
  have hm : 0 < min p (1 - p) := lt_min hp (by linarith)
  have hm1 : min p (1 - p) < 1 := lt_of_le_of_lt (min_le_left _ _) hp1
  have hmax : 1 - min p (1 - p) = max p (1 - p) := by
    rcases le_total p (1 - p) with h | h
    · rw [min_eq_left h, max_eq_right h]
    · rw [min_eq_right h, max_eq_left h]
      ring
  have hsn : min p (1 - p) * ((n : ℤ) : ℝ) < 10 := by exact_mod_cast hs
  rw [probIn_eq]
  by_cases h2 : p > 1 / 2
  · have e := bg_law n hn true hm hm1 (n - k) n le_rfl 0
    have hset : (⋃ f, ends (binomial f n p) {(k : ℤ)}) = ⋃ f, bgEvent n true (min p (1 - p)) ((n : ℤ) - n) 0 (n - k) f := by
      refine Set.iUnion_congr fun f => ?_
      ext ω
      unfold bgEvent
      rw [ends_congr (binomial_small (by omega) hp hp1 hsn f ω), @decide_eq_true _ (Classical.propDecidable _) h2, sub_self,
        show outcome n true (0 + ((n - k : ℕ) : ℤ)) = k by simp only [outcome, if_true]; omega]
    rw [hset, e, hmax]
    have hmin : min p (1 - p) = 1 - p := min_eq_right (by linarith)
    congr 2
    unfold binomialPmf
    rw [hmin, Nat.choose_symm hk, Nat.sub_sub_self hk]
    ring
  · have e := bg_law n hn false hm hm1 k n le_rfl 0
    have hset : (⋃ f, ends (binomial f n p) {(k : ℤ)}) = ⋃ f, bgEvent n false (min p (1 - p)) ((n : ℤ) - n) 0 k f := by
      refine Set.iUnion_congr fun f => ?_
      ext ω
      unfold bgEvent
      rw [ends_congr (binomial_small (by omega) hp hp1 hsn f ω), @decide_eq_false _ (Classical.propDecidable _) h2, sub_self,
        show outcome n false (0 + (k : ℤ)) = k by simp [outcome]]
    rw [hset, e, hmax]
    have hmin : min p (1 - p) = p := min_eq_left (by linarith)
    congr 2
    unfold binomialPmf
    rw [hmin]

/-- **C73**: with `p = 0` or `p = 1` the result is certain. -/
theorem C73_binomial_certain {n : ℤ} (hn : 0 ≤ n) (fuel : ℕ) (ω : ℕ → ℝ) :
    binomial fuel n 0 ω = .ok (0, ω) ∧ binomial fuel n 1 ω = .ok (n, ω) := by
  constructor
  · unfold binomial
    rw [require_bind hn, require_bind ⟨le_rfl, zero_le_one⟩]
    simp [pure_apply]
  · unfold binomial
    rw [require_bind hn, require_bind ⟨zero_le_one, le_rfl⟩]
    have h' : (2⁻¹ : ℝ) < 1 := by norm_num
    simp [h', pure_apply]

theorem bg_range {n : ℤ} {sw : Bool} {p : ℝ} (hp : 0 < p) (hp1 : p < 1) (f : ℕ) {y res : ℤ} {ω : ℕ → ℝ} (hω : ∀ k, 0 < ω k ∧ ω k ≤ 1)
    (h0 : 0 ≤ res) (h1 : res ≤ y) (h2 : y ≤ n) :
    (∀ x ω', bgLoop n sw (Real.log (1 - p)) f y res ω = .ok (x, ω') → 0 ≤ x ∧ x ≤ n) ∧
    (n - y < f → bgLoop n sw (Real.log (1 - p)) f y res ω ≠ .error .fuel) := by
  induction f generalizing y res ω with
  | zero =>
    constructor
    · intro x ω' h
      simp [bgLoop, lift_error] at h
    · intro h
      omega
  | succ f ih =>
    have hs := steps_nonneg hp.le hp1 (hω 0).1 (hω 0).2
    by_cases hi : I64 (steps p (ω 0)) ∧ I64 (steps p (ω 0) + 1) ∧ I64 (y + (steps p (ω 0) + 1))
    · rw [bg_ok hp hp1 f hi]
      split
      · constructor
        · intro x ω' h
          simp only [Except.ok.injEq, Prod.mk.injEq] at h
          rw [← h.1]
          split <;> omega
        · intro _ h
          simp at h
      · have := ih (y := y + (steps p (ω 0) + 1)) (res := res + 1) (ω := tail ω) (fun k => hω (k + 1)) (by omega) (by omega) (by omega)
        exact ⟨this.1, fun h => this.2 (by push_cast at h; omega)⟩
    · rw [bg_ub hp hp1 f hi]
      constructor
      · intro x ω' h
        simp at h
      · intro _ h
        simp at h

theorem bg_error {n : ℤ} {sw : Bool} {p : ℝ} (hp : 0 < p) (hp1 : p < 1) {f : ℕ} {y res : ℤ} {ω : ℕ → ℝ} {s : Stop}
    (h : bgLoop n sw (Real.log (1 - p)) f y res ω = .error s) (hs : s ≠ .fuel) : s = .ub := by
  induction f generalizing y res ω with
  | zero =>
    simp only [bgLoop, lift_error, Except.error.injEq] at h
    exact (hs h.symm).elim
  | succ f ih =>
    by_cases hi : I64 (steps p (ω 0)) ∧ I64 (steps p (ω 0) + 1) ∧ I64 (y + (steps p (ω 0) + 1))
    · rw [bg_ok hp hp1 f hi] at h
      split at h
      · simp at h
      · exact ih h
    · rw [bg_ub hp hp1 f hi] at h
      simp only [Except.error.injEq] at h
      exact h.symm

theorem btrs_range {n : ℤ} {sw : Bool} {p q spq a b c vr : ℝ} (f : ℕ) {ω ω' : ℕ → ℝ} {x : ℤ}
    (h : btrsLoop n sw p q spq a b c vr f ω = .ok (x, ω')) : 0 ≤ x ∧ x ≤ n := by
  induction f generalizing ω with
  | zero => simp [btrsLoop, lift_error] at h
  | succ f ih =>
    rw [btrsLoop, real_bind] at h
    unfold quot at h
    split at h
    · rw [lift_error_bind] at h
      simp at h
    · rw [lift_ok_bind] at h
      unfold chk at h
      split at h
      · rw [lift_ok_bind] at h
        split at h
        · exact ih h
        · rename_i hr
          rw [real_bind] at h
          split at h
          · rw [pure_apply] at h
            simp only [Except.ok.injEq, Prod.mk.injEq] at h
            rw [← h.1]
            split <;> omega
          · split at h
            · rw [lift_ok_bind] at h
              split at h
              · rw [pure_apply] at h
                simp only [Except.ok.injEq, Prod.mk.injEq] at h
                rw [← h.1]
                split <;> omega
              · exact ih h
            · rw [lift_error_bind] at h
              simp at h
      · rw [lift_error_bind] at h
        simp at h

/-- **C73**: the results of `binomial(n, p)` are in `[0, n]`, for both methods and whatever values in `(0, 1]` `real()` returns. -/
theorem C73_binomial_range {n : ℤ} {p : ℝ} (fuel : ℕ) {ω ω' : ℕ → ℝ} (hω : ∀ k, 0 < ω k ∧ ω k ≤ 1) {x : ℤ}
    (h : binomial fuel n p ω = .ok (x, ω')) : 0 ≤ x ∧ x ≤ n := by
  unfold binomial at h
  by_cases hn : n ≥ 0
  swap
  · rw [require_error hn] at h; simp at h
  by_cases hp : 0 ≤ p ∧ p ≤ 1
  swap
  · rw [require_bind hn, require_error hp] at h; simp at h
  rw [require_bind hn, require_bind hp] at h
  split at h
  · split at h
    · rw [pure_apply] at h
      simp only [Except.ok.injEq, Prod.mk.injEq] at h
      rw [← h.1]
      split <;> omega
    · rename_i hlog
      have hm : 0 < min p (1 - p) := by
        rcases lt_or_ge 0 (min p (1 - p)) with hm | hm
        · exact hm
        · exact (hlog (Real.log_nonneg (by linarith))).elim
      have hm1 : min p (1 - p) < 1 := by
        rcases le_total p (1 - p) with h | h
        · rw [min_eq_left h]; linarith
        · rw [min_eq_right h]; linarith
      exact (bg_range hm hm1 fuel hω le_rfl le_rfl hn).1 x ω' h
  · exact btrs_range fuel h

/-- **C73**: where `min(p, 1 - p) * n < 10` the call returns, or is undefined, after at most `n + 1` rounds. -/
theorem C73_binomial_terminates {n : ℕ} {p : ℝ} (hp : 0 < p) (hp1 : p < 1) (hs : min p (1 - p) * n < 10) {ω : ℕ → ℝ}
    (hω : ∀ k, 0 < ω k ∧ ω k ≤ 1) : binomial (n + 1) n p ω ≠ .error .fuel := by
  have hsn : min p (1 - p) * ((n : ℤ) : ℝ) < 10 := by exact_mod_cast hs
  rw [binomial_small (by omega) hp hp1 hsn]
  exact (bg_range (lt_min hp (by linarith)) (lt_of_le_of_lt (min_le_left _ _) hp1) (n + 1) hω le_rfl le_rfl (by omega)).2 (by push_cast; omega)

theorem bg_mono {n : ℤ} {sw : Bool} {lg : ℝ} (f d : ℕ) {y res : ℤ} {ω : ℕ → ℝ} (h : bgLoop n sw lg f y res ω ≠ .error .fuel) :
    bgLoop n sw lg (f + d) y res ω = bgLoop n sw lg f y res ω := by
  induction f generalizing y res ω with
  | zero => exact (h rfl).elim
  | succ f ih =>
    rw [Nat.add_right_comm]
    rw [bgLoop, real_bind] at h ⊢
    rw [bgLoop, real_bind]
    cases hg : gap (ω 0) lg with
    | error e => rfl
    | ok g =>
      rw [hg, lift_ok_bind] at h
      rw [lift_ok_bind, lift_ok_bind]
      cases hg2 : chk (g + 1) with
      | error e => rfl
      | ok g2 =>
        rw [hg2, lift_ok_bind] at h
        rw [lift_ok_bind, lift_ok_bind]
        cases hg3 : chk (y + g2) with
        | error e => rfl
        | ok g3 =>
          rw [hg3, lift_ok_bind] at h
          rw [lift_ok_bind, lift_ok_bind]
          split
          · rfl
          · rename_i hn
            rw [if_neg hn] at h
            exact ih h

/-- **C73**: where `min(p, 1 - p) * n < 10` a run of `binomial(n, p)` is undefined (a gap does not fit) with probability
`max(p, 1 - p) ^ (2 ^ 63 - 1 - n)`. -/
theorem C73_binomial_undefined_partial {n : ℕ} (hn : n < 2 ^ 63) {p : ℝ} (hp : 0 < p) (hp1 : p < 1) (hs : min p (1 - p) * n < 10) :
    probUndefined (fun f => binomial f n p) = ENNReal.ofReal (max p (1 - p) ^ (2 ^ 63 - 1 - n)) := by
  have hsn : min p (1 - p) * ((n : ℤ) : ℝ) < 10 := by exact_mod_cast hs
  have hm : 0 < min p (1 - p) := lt_min hp (by linarith)
  have hm1 : min p (1 - p) < 1 := lt_of_le_of_lt (min_le_left _ _) hp1
  have hc0 : 0 ≤ max p (1 - p) ^ (2 ^ 63 - 1 - n) := pow_nonneg (le_max_of_le_left hp.le) _
  have hc1 : max p (1 - p) ^ (2 ^ 63 - 1 - n) ≤ 1 := pow_le_one₀ (le_max_of_le_left hp.le) (max_le hp1.le (by linarith))
  -- all runs of the same length suffice
  have hall : ∀ f ω, (∀ k, 0 < ω k ∧ ω k ≤ 1) → binomial f n p ω ≠ .error .fuel → binomial f n p ω = binomial (n + 1) n p ω := by
    intro f ω hω h
    have h2 := C73_binomial_terminates hp hp1 hs hω
    rw [binomial_small (by omega) hp hp1 hsn] at h h2 ⊢
    rw [binomial_small (by omega) hp hp1 hsn]
    rw [← bg_mono f (n + 1) h, add_comm, bg_mono (n + 1) f h2]
  have hgood : ∀ᵐ ω ∂independentUniforms, ∀ k, 0 < ω k ∧ ω k ≤ 1 := by
    rw [ae_all_iff]
    intro k
    have : Measure.map (fun ω : ℕ → ℝ => ω k) independentUniforms = uniform01 := Measure.infinitePi_map_eval (fun _ => uniform01) k
    have h1 : ∀ᵐ u ∂uniform01, 0 < u ∧ u ≤ 1 := by
      unfold uniform01
      filter_upwards [ae_restrict_mem measurableSet_Ioo] with u hu
      exact ⟨hu.1, hu.2.le⟩
    rw [← this] at h1
    exact ae_of_ae_map (measurable_pi_apply k).aemeasurable h1
  set E : ℕ → Set (ℕ → ℝ) := fun k => ⋃ f, ends (binomial f n p) {(k : ℤ)} with hE
  have hmeasE : ∀ k ≤ n, MeasurableSet (E k) := by
    intro k hk
    have h : ∃ sw j, E k = ⋃ f, bgEvent n sw (min p (1 - p)) 0 0 j f := by
      by_cases h2 : p > 1 / 2
      · refine ⟨true, n - k, Set.iUnion_congr fun f => ?_⟩
        ext ω
        unfold bgEvent
        rw [ends_congr (binomial_small (by omega) hp hp1 hsn f ω), @decide_eq_true _ (Classical.propDecidable _) h2,
          show outcome n true (0 + ((n - k : ℕ) : ℤ)) = k by simp only [outcome, if_true]; omega]
      · refine ⟨false, k, Set.iUnion_congr fun f => ?_⟩
        ext ω
        unfold bgEvent
        rw [ends_congr (binomial_small (by omega) hp hp1 hsn f ω), @decide_eq_false _ (Classical.propDecidable _) h2,
          show outcome n false (0 + (k : ℤ)) = k by simp [outcome]]
    obtain ⟨sw, j, h⟩ := h
    rw [h]
    exact .iUnion fun f => measurable_bgEvent hm hm1 _ _ _ _
  have hmeas : MeasurableSet (⋃ k ∈ Finset.range (n + 1), E k) :=
    .biUnion (Finset.countable_toSet _) fun k hk => hmeasE k (by have := Finset.mem_range.1 hk; omega)
  have hsum : independentUniforms (⋃ k ∈ Finset.range (n + 1), E k) = ENNReal.ofReal (1 - max p (1 - p) ^ (2 ^ 63 - 1 - n)) := by
    have hdis : ∀ i j, i ≠ j → independentUniforms (E i ∩ E j) = 0 := by
      intro i j hij
      rw [← nonpos_iff_eq_zero, ← measure_empty (μ := independentUniforms)]
      refine measure_mono_ae ?_
      filter_upwards [hgood] with ω hω
      rintro ⟨h1, h2⟩
      obtain ⟨f, x, ω', e1, rfl⟩ := Set.mem_iUnion.1 h1
      obtain ⟨g, x, ω'', e2, rfl⟩ := Set.mem_iUnion.1 h2
      rw [hall f ω hω (by rw [e1]; simp)] at e1
      rw [hall g ω hω (by rw [e2]; simp), e1] at e2
      simp only [Except.ok.injEq, Prod.mk.injEq] at e2
      exact (hij (by omega)).elim
    rw [measure_biUnion_finset₀ (fun i _ j _ hij => hdis i j hij)
      (fun k hk => (hmeasE k (by have := Finset.mem_range.1 hk; omega)).nullMeasurableSet)]
    have h1 : ∀ k ∈ Finset.range (n + 1), independentUniforms (E k)
        = ENNReal.ofReal (p ^ k * (1 - p) ^ (n - k) * n.choose k * (1 - max p (1 - p) ^ (2 ^ 63 - 1 - n))) := by
      intro k hk
      have hk := Finset.mem_range.1 hk
      have h := C73_binomial_partial hn hp hp1 hs (k := k) (by omega)
      rw [probIn_eq] at h
      rw [hE]
      refine h.trans ?_
      congr 1
      ring
    have hq : 0 < 1 - p := by linarith
    have hc : 0 ≤ 1 - max p (1 - p) ^ (2 ^ 63 - 1 - n) := by linarith
    rw [Finset.sum_congr rfl h1, ← ENNReal.ofReal_sum_of_nonneg (fun k _ => by positivity), ← Finset.sum_mul, ← add_pow]
    congr 1
    ring
  have hcompl : probUndefined (fun f => binomial f n p) = independentUniforms (⋃ k ∈ Finset.range (n + 1), E k)ᶜ := by
    refine measure_congr ?_
    filter_upwards [hgood] with ω hω
    refine propext ?_
    show (∃ f, binomial f n p ω = .error .ub) ↔ ω ∉ ⋃ k ∈ Finset.range (n + 1), E k
    simp only [Set.mem_iUnion, Finset.mem_range, not_exists, hE, exists_prop, not_and]
    constructor
    · rintro ⟨f, hf⟩ k _ g ⟨x, ω', e, _⟩
      rw [hall f ω hω (by rw [hf]; simp)] at hf
      rw [hall g ω hω (by rw [e]; simp), hf] at e
      simp at e
    · intro h
      refine ⟨n + 1, ?_⟩
      cases e : binomial (n + 1) n p ω with
      | ok v =>
        obtain ⟨x, ω'⟩ := v
        have hr := C73_binomial_range (n + 1) hω e
        exact (h x.toNat (by omega) (n + 1) ⟨x, ω', e, by rw [Set.mem_singleton_iff]; omega⟩).elim
      | error s =>
        have h2 := C73_binomial_terminates hp hp1 hs hω
        rw [e] at h2
        rw [binomial_small (by omega) hp hp1 hsn] at e
        exact congrArg _ (bg_error hm hm1 e (by rintro rfl; exact h2 rfl))
  rw [hcompl, prob_compl_eq_one_sub hmeas, hsum]
  rw [← ENNReal.ofReal_one, ← ENNReal.ofReal_sub _ (by linarith)]
  congr 1
  ring

/-- **C73**: the results of the bounded versions are in `[lower, upper)`. -/
theorem C73_range {lower upper : ℤ} {p : ℝ} (fuel : ℕ) {ω ω' : ℕ → ℝ} (hω : ∀ k, 0 < ω k ∧ ω k ≤ 1) {x : ℤ} :
    (geometricIn fuel lower upper p ω = .ok (x, ω') → lower ≤ x ∧ x < upper) ∧
    (∀ n, binomialIn fuel lower upper n p ω = .ok (x, ω') → lower ≤ x ∧ x < upper) := by
  constructor
  · intro h
    unfold geometricIn at h
    by_cases hb : lower < upper
    swap
    · rw [require_error hb] at h; simp at h
    by_cases hr : 0 ≤ p ∧ p < 1
    swap
    · rw [require_bind hb, require_error hr] at h; simp at h
    rw [require_bind hb, require_bind hr] at h
    induction fuel generalizing ω with
    | zero => simp [geometricLoop, lift_error] at h
    | succ f ih =>
      rcases hr.1.eq_or_lt with h0 | h0
      · rw [geometricLoop, real_bind, ← h0] at h
        simp [gap, lift_error_bind] at h
      · have hs := steps_nonneg hr.1 hr.2 (hω 0).1 (hω 0).2
        by_cases h1 : I64 (steps p (ω 0))
        · by_cases h2 : I64 (lower + steps p (ω 0))
          · rw [geometricLoop_ok h0 hr.2 f h1 h2] at h
            split at h
            · simp only [Except.ok.injEq, Prod.mk.injEq] at h
              rw [← h.1]
              omega
            · exact ih (ω := tail ω) (fun k => hω (k + 1)) h
          · rw [geometricLoop_ub2 h0 hr.2 f h1 h2] at h
            simp at h
        · rw [geometricLoop_ub1 h0 hr.2 f h1] at h
          simp at h
  · intro n h
    unfold binomialIn at h
    by_cases hb : lower < upper
    swap
    · rw [require_error hb] at h; simp at h
    rw [require_bind hb] at h
    clear hω
    induction fuel generalizing ω with
    | zero => simp [binomialLoop, lift_error] at h
    | succ f ih =>
      rw [binomialLoop] at h
      change (binomial f n p ω).bind _ = _ at h
      cases e : binomial f n p ω with
      | error e' => rw [e] at h; simp [Except.bind] at h
      | ok v =>
        rw [e] at h
        simp only [Except.bind] at h
        split at h
        · rename_i hr
          rw [pure_apply] at h
          simp only [Except.ok.injEq, Prod.mk.injEq] at h
          rw [← h.1]
          exact hr
        · exact ih h

/-- **C73**: wrong arguments throw. -/
theorem C73_throws (fuel : ℕ) (ω : ℕ → ℝ) (lower upper n : ℤ) (p : ℝ) :
    (p < 0 ∨ 1 ≤ p → geometric p ω = .error .throw) ∧ (n < 0 ∨ p < 0 ∨ 1 < p → binomial fuel n p ω = .error .throw) ∧
    (upper ≤ lower → geometricIn fuel lower upper p ω = .error .throw ∧ binomialIn fuel lower upper n p ω = .error .throw) := by
  refine ⟨fun h => ?_, fun h => ?_, fun h => ⟨?_, ?_⟩⟩
  · unfold geometric
    rw [require_error]
    rintro ⟨h1, h2⟩
    rcases h with h | h <;> linarith
  · unfold binomial
    by_cases hn : n ≥ 0
    · rw [require_bind hn, require_error]
      rintro ⟨h1, h2⟩
      rcases h with h | h | h
      · omega
      · linarith
      · linarith
    · rw [require_error hn]
  · unfold geometricIn
    rw [require_error (by omega)]
  · unfold binomialIn
    rw [require_error (by omega)]

/-- Two failures before a success of probability 1/3. -/
example : probIn (fun _ => geometric (1 / 3)) {2} = ENNReal.ofReal (4 / 27) := by
  have := (C73_geometric_partial (p := 1 / 3) (by norm_num) (by norm_num)).1 2 (by norm_num)
  rw [show ((2 : ℕ) : ℤ) = 2 from rfl] at this
  rw [this]
  norm_num

/-- Exactly the middle value of four fair trials; the factor is the probability that nothing overflows. -/
example : probIn (fun f => binomial f 4 (1 / 2)) {2} = ENNReal.ofReal (6 / 16 * (1 - (1 / 2) ^ (2 ^ 63 - 5))) := by
  have := C73_binomial_partial (n := 4) (by norm_num) (p := 1 / 2) (by norm_num) (by norm_num) (by norm_num) (k := 2) (by norm_num)
  rw [show ((2 : ℕ) : ℤ) = 2 from rfl, show ((4 : ℕ) : ℤ) = 4 from rfl] at this
  rw [this]
  have h : max (1 / 2 : ℝ) (1 - 1 / 2) = 1 / 2 := by norm_num
  have h2 : 2 ^ 63 - 1 - 4 = 2 ^ 63 - 5 := rfl
  rw [h, h2, show Nat.choose 4 2 = 6 from rfl]
  generalize ((1 / 2 : ℝ) ^ (2 ^ 63 - 5)) = t
  congr 1
  push_cast
  ring

/-- `geometric(0, 2, 1/2)` returns 0 with twice the probability of 1. -/
example : probIn (fun f => geometricIn f 0 2 (1 / 2)) {0} = 2 * probIn (fun f => geometricIn f 0 2 (1 / 2)) {1} := by
  have h := @C73_geometricIn_partial 0 2 (by unfold I64; norm_num) (by unfold I64; norm_num) (by norm_num) (1 / 2) (by norm_num) (by norm_num)
    2 (2 ^ 63) (by norm_num) (by norm_num)
  have h0 := @h 0 (by norm_num) (by norm_num)
  have h1 := @h 1 (by norm_num) (by norm_num)
  simp only [Nat.cast_zero, Nat.cast_one, zero_add] at h0 h1
  rw [h0, h1, show (2 : ENNReal) = ENNReal.ofReal 2 by simp, ← mul_div_assoc (ENNReal.ofReal 2), ← ENNReal.ofReal_mul (by norm_num)]
  congr 2
  norm_num

end ICPC.Props
