import Verif.Lemmas.Fresh2
import Verif.Props.Btrs

/-!
# C73: the law of `binomial(lower, upper, n, p)`
-/

namespace ICPC.Props

open MeasureTheory Spec _root_.ICPC.Ideal

/-- The parameters for which the law of `binomial` is proved: geometric gaps, or a rejection method whose constants are right. -/
def BinomialKnown (n : ℕ) (p : ℝ) : Prop :=
  min p (1 - p) * n < 10 ∨ 10 ≤ min p (1 - p) * n ∧ BtrsHat n (min p (1 - p)) ∧ BtrsSqueeze n (min p (1 - p))

/-- **C73**: the law of `binomial(n, p)` for both methods at once. -/
theorem C73_binomial_law_partial {n : ℕ} (hn : n + 1 < 2 ^ 63) {p : ℝ} (hp : 0 < p) (hp1 : p < 1) (hk : BinomialKnown n p) {k : ℕ} (hkn : k ≤ n) :
    probIn (fun f => binomial f n p) {(k : ℤ)} =
      ENNReal.ofReal (n.choose k * p ^ k * (1 - p) ^ (n - k)) * (1 - probUndefined fun f => binomial f n p) := by
  have hq : 0 < 1 - p := by linarith
  rcases hk with hs | ⟨hs, hat, squeeze⟩
  · have h1 : 0 ≤ max p (1 - p) := le_max_of_le_left hp.le
    rw [C73_binomial_partial (by omega) hp hp1 hs hkn, C73_binomial_undefined_partial (by omega) hp hp1 hs,
      ENNReal.ofReal_mul (p := n.choose k * p ^ k * (1 - p) ^ (n - k)) (by positivity), ENNReal.ofReal_sub _ (pow_nonneg h1 _), ENNReal.ofReal_one]
  · exact C73_btrs_partial hn hp hp1 hs hat squeeze hkn

theorem binomial_fresh {n : ℕ} (hn : n + 1 < 2 ^ 63) {p : ℝ} (hp : 0 < p) (hp1 : p < 1) (hk : BinomialKnown n p) :
    Fresh fun f => binomial f n p := by
  have hm : 0 < min p (1 - p) := lt_min hp (by linarith)
  have hm2 := min_half p
  rcases hk with hs | ⟨hs, hat, squeeze⟩
  · have e : (fun f => binomial f n p) = fun f => bgLoop n (@decide (p > 1 / 2) (Classical.propDecidable _)) (Real.log (1 - min p (1 - p))) f 0 0 := by
      funext f ω
      exact binomial_small (by omega) hp hp1 (by exact_mod_cast hs) f ω
    rw [e]
    exact bg_fresh (by omega) _ hm (by linarith)
  · have e := funext fun f => funext fun ω => binomial_large hp hp1 hs f ω
    rw [e]
    have hI : I64 ((n : ℤ) + 1) := by unfold I64; omega
    refine btrs_fresh hI ⟨0, by omega, ?_⟩
    have hn1 : 1 ≤ n := by
      rcases Nat.eq_zero_or_pos n with rfl | h
      · norm_num at hs
      · exact h
    rw [btrs_hit_measure hI hm hm2 hs hat squeeze (by omega)]
    have h1 := alpha_pos hm2 hs
    have h2 := weight_pos hm (by linarith) (mode_le hn1 hm2)
    have h3 := weight_pos hm (by linarith) (Nat.zero_le n)
    exact (ENNReal.ofReal_pos.2 (by positivity)).ne'

theorem binomialIn_run {lower upper : ℤ} (hb : lower < upper) {n : ℤ} {p : ℝ} (f : ℕ) :
    binomialIn f lower upper n p = rejectLoop (fun f => binomial f n p) {r | lower ≤ r ∧ r < upper} f := by
  funext ω
  unfold binomialIn
  rw [require_bind hb]
  induction f generalizing ω with
  | zero => rfl
  | succ f ih =>
    rw [binomialLoop]
    show (binomial f n p ω >>= fun v => _) = _
    cases e : binomial f n p ω with
    | error s => exact (reject_error (prog := fun f => binomial f n p) e).symm
    | ok v =>
      obtain ⟨r, ω'⟩ := v
      show (if lower ≤ r ∧ r < upper then _ else _ : Draw ℤ) ω' = _
      by_cases hr : lower ≤ r ∧ r < upper
      · rw [if_pos hr, reject_good (prog := fun f => binomial f n p) e hr]
        rfl
      · rw [if_neg hr, reject_bad (prog := fun f => binomial f n p) e hr, ih]

/-- Results outside of the range have probability zero. -/
theorem binomial_outside {n : ℤ} {p : ℝ} {x : ℤ} (h : ¬ (0 ≤ x ∧ x ≤ n)) : probIn (fun f => binomial f n p) {x} = 0 := by
  have good : ∀ᵐ ω ∂independentUniforms, ∀ k, 0 < ω k ∧ ω k ≤ 1 := by
    rw [ae_all_iff]
    intro k
    have : Measure.map (fun ω : ℕ → ℝ => ω k) independentUniforms = uniform01 := Measure.infinitePi_map_eval (fun _ => uniform01) k
    have h1 : ∀ᵐ u ∂uniform01, 0 < u ∧ u ≤ 1 := by
      unfold uniform01
      filter_upwards [ae_restrict_mem measurableSet_Ioo] with u hu
      exact ⟨hu.1, hu.2.le⟩
    rw [← this] at h1
    exact ae_of_ae_map (measurable_pi_apply k).aemeasurable h1
  unfold probIn
  rw [← nonpos_iff_eq_zero, ← measure_empty (μ := independentUniforms)]
  refine measure_mono_ae ?_
  filter_upwards [good] with ω hω
  rintro ⟨fuel, y, ω', h1, rfl⟩
  exact (h (C73_binomial_range fuel hω h1)).elim

/-- **C73**: `binomial(lower, upper, n, p)` is `binomial(n, p)` conditioned on the interval, up to the undefined runs: with `d` the probability that a
call of `binomial` is defined, `k` in the interval has the probability `d * w k / (1 - d * w(outside))`.  (Partial: exact arithmetic, and the parameters of
`BinomialKnown`.) -/
theorem C73_binomialIn_partial {n : ℕ} (hn : n + 1 < 2 ^ 63) {p : ℝ} (hp : 0 < p) (hp1 : p < 1) (hk : BinomialKnown n p) {lower upper : ℤ}
    {k : ℕ} (hkn : k ≤ n) (hl : lower ≤ k) (hu : k < upper) :
    probIn (fun f => binomialIn f lower upper n p) {(k : ℤ)} =
      ENNReal.ofReal (n.choose k * p ^ k * (1 - p) ^ (n - k)) * (1 - probUndefined fun f => binomial f n p) /
        (1 - ENNReal.ofReal (∑ j ∈ (Finset.range (n + 1)).filter fun j : ℕ => ¬(lower ≤ (j : ℤ) ∧ (j : ℤ) < upper), n.choose j * p ^ j * (1 - p) ^ (n - j)) *
          (1 - probUndefined fun f => binomial f n p)) := by
  have hq : 0 < 1 - p := by linarith
  have law := fun j hj => C73_binomial_law_partial hn hp hp1 hk (k := j) hj
  have hd : (1 - probUndefined fun f => binomial f n p) ≠ 0 := by
    rcases hk with hs | ⟨hs, hat, squeeze⟩
    · have h1 : 0 < max p (1 - p) := lt_of_lt_of_le hp (le_max_left _ _)
      have h2 : max p (1 - p) < 1 := max_lt hp1 (by linarith)
      rw [C73_binomial_undefined_partial (by omega) hp hp1 hs]
      refine (tsub_pos_of_lt ?_).ne'
      rw [← ENNReal.ofReal_one, ENNReal.ofReal_lt_ofReal_iff one_pos]
      exact pow_lt_one₀ h1.le h2 (by omega)
    · intro h0
      have hf := binomial_fresh hn hp hp1 (.inr ⟨hs, hat, squeeze⟩)
      have hm : 0 < min p (1 - p) := lt_min hp hq
      have hm2 := min_half p
      have hI : I64 ((n : ℤ) + 1) := by unfold I64; omega
      have hn1 : 1 ≤ n := by
        rcases Nat.eq_zero_or_pos n with rfl | h
        · norm_num at hs
        · exact h
      have h1 := law 0 (by omega)
      rw [h0, mul_zero] at h1
      have h2 : 0 < independentUniforms (⋃ f, ends (binomial f n p) {((0 : ℕ) : ℤ)}) := by
        have h3 := alpha_pos hm2 hs
        have h4 := weight_pos hm (by linarith) (mode_le hn1 hm2)
        have key : ∀ j : ℕ, j ≤ n → 0 < independentUniforms (⋃ f, ends (btrsLoop n (@decide (p > 1 / 2) (Classical.propDecidable _)) (min p (1 - p))
            (1 - min p (1 - p)) √(n * min p (1 - p) * (1 - min p (1 - p))) (btrsA n (min p (1 - p))) (btrsB n (min p (1 - p)))
            (n * min p (1 - p) + 1 / 2) (btrsV n (min p (1 - p))) f) {outcome n (@decide (p > 1 / 2) (Classical.propDecidable _)) (j : ℤ)}) := by
          intro j hj
          rw [btrs_ends hI (by omega) (by omega), btrs_hit_measure hI hm hm2 hs hat squeeze hj]
          have h5 := weight_pos hm (by linarith) hj
          exact lt_of_lt_of_le (ENNReal.ofReal_pos.2 (by positivity)) le_self_add
        have e : ∀ x : ℤ, (⋃ f, ends (binomial f n p) {x}) = ⋃ f, ends (btrsLoop n (@decide (p > 1 / 2) (Classical.propDecidable _)) (min p (1 - p))
            (1 - min p (1 - p)) √(n * min p (1 - p) * (1 - min p (1 - p))) (btrsA n (min p (1 - p))) (btrsB n (min p (1 - p)))
            (n * min p (1 - p) + 1 / 2) (btrsV n (min p (1 - p))) f) {x} :=
          fun x => Set.iUnion_congr fun f => Set.ext fun ω => ends_congr (binomial_large hp hp1 hs f ω) _
        rw [e]
        by_cases h2 : p > 1 / 2
        · have := key n le_rfl
          rw [@decide_eq_true _ (Classical.propDecidable _) h2] at this ⊢
          rwa [show outcome n true (n : ℤ) = ((0 : ℕ) : ℤ) by simp [outcome]] at this
        · have := key 0 (by omega)
          rw [@decide_eq_false _ (Classical.propDecidable _) h2] at this ⊢
          rwa [show outcome n false ((0 : ℕ) : ℤ) = ((0 : ℕ) : ℤ) by simp [outcome]] at this
      rw [← probIn_eq, h1] at h2
      exact lt_irrefl _ h2
  have hk0 : probIn (fun f => binomial f n p) {(k : ℤ)} ≠ 0 := by
    rw [law k hkn]
    have : 0 < n.choose k := Nat.choose_pos hkn
    exact mul_ne_zero (ENNReal.ofReal_pos.2 (by positivity)).ne' hd
  have h := reject_law (good := {r | lower ≤ r ∧ r < upper}) (binomial_fresh hn hp hp1 hk) ⟨hl, hu⟩ hk0
  have e : (fun f => binomialIn f lower upper n p) = rejectLoop (fun f => binomial f n p) {r | lower ≤ r ∧ r < upper} :=
    funext fun f => binomialIn_run (by omega) f
  rw [e, h, law k hkn]
  congr 2
  rw [tsum_subtype ({r : ℤ | lower ≤ r ∧ r < upper}ᶜ) (fun j => probIn (fun f => binomial f n p) {j}),
    tsum_eq_sum (s := (Finset.range (n + 1)).map Nat.castEmbedding), Finset.sum_map, ENNReal.ofReal_sum_of_nonneg (fun j _ => by positivity),
    Finset.sum_mul, Finset.sum_filter]
  · refine Finset.sum_congr rfl fun j hj => ?_
    have hj := Finset.mem_range.1 hj
    by_cases hr : lower ≤ (j : ℤ) ∧ (j : ℤ) < upper
    · rw [if_neg (not_not.2 hr), Set.indicator_of_notMem]
      exact fun h => h hr
    · rw [if_pos hr, Set.indicator_of_mem (show Nat.castEmbedding j ∈ {r : ℤ | lower ≤ r ∧ r < upper}ᶜ from hr)]
      exact law j (by omega)
  · intro j hj
    have : ¬(0 ≤ j ∧ j ≤ n) := by
      rintro ⟨h1, h2⟩
      refine hj (Finset.mem_map.2 ⟨j.toNat, Finset.mem_range.2 (by omega), ?_⟩)
      show ((j.toNat : ℕ) : ℤ) = j
      omega
    rw [Set.indicator_apply]
    split
    · exact binomial_outside this
    · rfl

/-- Two coins of which at least one shows heads: exactly one does with probability 2/3, up to the undefined runs. -/
example : probIn (fun f => binomialIn f 1 3 (2 : ℕ) (1 / 2)) {((1 : ℕ) : ℤ)} =
    ENNReal.ofReal (1 / 2) * (1 - probUndefined fun f => binomial f (2 : ℕ) (1 / 2)) /
      (1 - ENNReal.ofReal (1 / 4) * (1 - probUndefined fun f => binomial f (2 : ℕ) (1 / 2))) := by
  have h := C73_binomialIn_partial (n := 2) (by norm_num) (p := 1 / 2) (by norm_num) (by norm_num) (.inl (by norm_num)) (lower := 1) (upper := 3)
    (k := 1) (by norm_num) (by norm_num) (by norm_num)
  have e1 : ((Nat.choose 2 1 : ℕ) : ℝ) * (1 / 2) ^ 1 * (1 - 1 / 2) ^ (2 - 1) = 1 / 2 := by norm_num [Nat.choose]
  have e2 : (Finset.range (2 + 1)).filter (fun j : ℕ => ¬((1 : ℤ) ≤ (j : ℤ) ∧ (j : ℤ) < 3)) = {0} := by decide
  rw [e1, e2, Finset.sum_singleton, show ((Nat.choose 2 0 : ℕ) : ℝ) * (1 / 2) ^ 0 * (1 - 1 / 2) ^ (2 - 0) = 1 / 4 by norm_num [Nat.choose]] at h
  exact h

/-! ## Intervals without a possible result -/

/-- A program takes numbers from the front of the sequence. -/
def Drops {α : Type} (prog : Draw α) : Prop := ∀ ω x ω', prog ω = .ok (x, ω') → ∃ m, ω' = fun k => ω (k + m)

theorem drops_lift {α : Type} (o : Out α) : Drops (lift o) := by
  intro ω x ω' h
  cases o with
  | error e => simp [lift_error] at h
  | ok a =>
    rw [lift_ok] at h
    simp only [Except.ok.injEq, Prod.mk.injEq] at h
    exact ⟨0, h.2.symm⟩

theorem drops_pure {α : Type} (a : α) : Drops (pure a : Draw α) := drops_lift (.ok a)

theorem drops_real : Drops real := by
  intro ω x ω' h
  have h : Except.ok (ω 0, tail ω) = Except.ok (x, ω') := h
  simp only [Except.ok.injEq, Prod.mk.injEq] at h
  exact ⟨1, h.2.symm⟩

theorem drops_bind {α β : Type} {prog : Draw α} {f : α → Draw β} (h1 : Drops prog) (h2 : ∀ a, Drops (f a)) : Drops (prog >>= f) := by
  intro ω x ω' h
  change (prog ω >>= fun v => f v.1 v.2) = _ at h
  cases e : prog ω with
  | error s => rw [e] at h; simp [bind, Except.bind] at h
  | ok v =>
    obtain ⟨a, ω1⟩ := v
    rw [e] at h
    obtain ⟨m1, rfl⟩ := h1 ω a ω1 e
    obtain ⟨m2, rfl⟩ := h2 a _ x ω' h
    exact ⟨m2 + m1, by funext k; simp only [add_assoc]⟩

theorem drops_bg (n : ℤ) (sw : Bool) (lg : ℝ) (f : ℕ) (y res : ℤ) : Drops (bgLoop n sw lg f y res) := by
  induction f generalizing y res with
  | zero => exact drops_lift _
  | succ f ih =>
    rw [bgLoop]
    refine drops_bind drops_real fun u => drops_bind (drops_lift _) fun g => drops_bind (drops_lift _) fun g' => drops_bind (drops_lift _) fun y' => ?_
    split
    · exact drops_pure _
    · exact ih _ _

theorem drops_btrs (n : ℤ) (sw : Bool) (p q spq a b c vr : ℝ) (f : ℕ) : Drops (btrsLoop n sw p q spq a b c vr f) := by
  induction f with
  | zero => exact drops_lift _
  | succ f ih =>
    rw [btrsLoop]
    refine drops_bind drops_real fun x => drops_bind (drops_lift _) fun d => drops_bind (drops_lift _) fun res => ?_
    split
    · exact ih
    · refine drops_bind drops_real fun v => ?_
      split
      · exact drops_pure _
      · refine drops_bind (drops_lift _) fun _ => ?_
        split
        · exact drops_pure _
        · exact ih

theorem drops_binomial (f : ℕ) (n : ℤ) (p : ℝ) : Drops (binomial f n p) := by
  have hr : ∀ c, Drops (require c) := fun c => drops_lift _
  unfold binomial
  refine drops_bind (hr _) fun _ => drops_bind (hr _) fun _ => ?_
  simp only
  split
  · split
    · exact drops_pure _
    · exact drops_bg _ _ _ _ _ _
  · exact drops_btrs _ _ _ _ _ _ _ _ _ _

/-- **C73**: an interval without a possible result is not refused, and no run of the loop returns. -/
theorem C73_binomialIn_endless {n : ℤ} {p : ℝ} {lower upper : ℤ} (h : upper ≤ 0 ∨ n < lower) (fuel : ℕ) {ω ω' : ℕ → ℝ}
    (hω : ∀ k, 0 < ω k ∧ ω k ≤ 1) (x : ℤ) : binomialIn fuel lower upper n p ω ≠ .ok (x, ω') := by
  intro e
  by_cases hb : lower < upper
  swap
  · rw [((C73_throws fuel ω lower upper n p).2.2 (by omega)).2] at e
    simp at e
  rw [binomialIn_run hb] at e
  induction fuel generalizing ω with
  | zero => simp [rejectLoop, lift_error] at e
  | succ f ih =>
    cases e2 : binomial f n p ω with
    | error s =>
      rw [reject_error (prog := fun f => binomial f n p) e2] at e
      simp at e
    | ok v =>
      obtain ⟨r, ω1⟩ := v
      have hr := C73_binomial_range f hω e2
      have hbad : r ∉ {r | lower ≤ r ∧ r < upper} := by
        rintro ⟨h1, h2⟩
        omega
      rw [reject_bad (prog := fun f => binomial f n p) e2 hbad] at e
      obtain ⟨m, rfl⟩ := drops_binomial f n p ω r ω1 e2
      exact ih (fun k => hω (k + m)) e

end ICPC.Props
