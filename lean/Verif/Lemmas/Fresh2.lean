import Verif.Lemmas.Fresh
import Verif.Lemmas.Btrs3
import Verif.Props.Ideal2

/-!
# The numbers that `binomial` leaves are independent of its result
-/

namespace ICPC.Ideal

open MeasureTheory Spec

variable {G : Set (ℕ → ℝ)}

/-- The event that `k` more successes follow, and then numbers in `G`. -/
def bgThen (G : Set (ℕ → ℝ)) (n : ℤ) (sw : Bool) (p : ℝ) (y res : ℤ) (k f : ℕ) : Set (ℕ → ℝ) :=
  endsThen (bgLoop n sw (Real.log (1 - p)) f y res) (outcome n sw (res + k)) G

theorem bgThen_zero (n : ℤ) (sw : Bool) (p : ℝ) (y res : ℤ) (k : ℕ) : bgThen G n sw p y res k 0 = ∅ := by
  ext ω
  rw [Set.mem_empty_iff_false, iff_false]
  exact endsThen_error rfl _ _

theorem bgThen_succ {n : ℤ} {sw : Bool} {p : ℝ} (hp : 0 < p) (hp1 : p < 1) (y res : ℤ) (k f : ℕ) (ω : ℕ → ℝ) :
    ω ∈ bgThen G n sw p y res k (f + 1) ↔
      (I64 (steps p (ω 0)) ∧ I64 (steps p (ω 0) + 1) ∧ I64 (y + (steps p (ω 0) + 1))) ∧
      ((y + (steps p (ω 0) + 1) > n ∧ k = 0 ∧ tail ω ∈ G) ∨
        (y + (steps p (ω 0) + 1) ≤ n ∧ ∃ k', k = k' + 1 ∧ tail ω ∈ bgThen G n sw p (y + (steps p (ω 0) + 1)) (res + 1) k' f)) := by
  by_cases hs : I64 (steps p (ω 0)) ∧ I64 (steps p (ω 0) + 1) ∧ I64 (y + (steps p (ω 0) + 1))
  · simp only [hs, true_and, and_self]
    by_cases hn : y + (steps p (ω 0) + 1) > n
    · have e := bg_ok (n := n) (sw := sw) hp hp1 f (res := res) hs
      rw [if_pos hn] at e
      unfold bgThen
      rw [endsThen_ok e]
      simp only [hn, true_and, not_le.2 hn, false_and, or_false]
      constructor
      · rintro ⟨h, hG⟩
        have : outcome n sw res = outcome n sw (res + k) := h
        have := outcome_inj this
        exact ⟨by omega, hG⟩
      · rintro ⟨rfl, hG⟩
        refine ⟨?_, hG⟩
        show outcome n sw res = _
        simp
    · have e := bg_ok (n := n) (sw := sw) hp hp1 f (res := res) hs
      rw [if_neg hn] at e
      unfold bgThen
      rw [endsThen_congr e]
      simp only [hn, false_and, false_or, not_lt.1 hn, true_and]
      constructor
      · rintro ⟨ω', h1, h2⟩
        obtain ⟨j, hj⟩ := bg_result hp hp1 h1
        have := outcome_inj hj
        refine ⟨j, by omega, ω', ?_, h2⟩
        rw [h1]
        congr 3
      · rintro ⟨k', rfl, ω', h1, h2⟩
        refine ⟨ω', ?_, h2⟩
        rw [h1]
        congr 3
        push_cast
        omega
  · have e := bg_ub (n := n) (sw := sw) hp hp1 f (res := res) hs
    simp only [hs, false_and, iff_false]
    exact endsThen_error e _ _

theorem measurable_bgThen (hG : MeasurableSet G) {n : ℤ} {sw : Bool} {p : ℝ} (hp : 0 < p) (hp1 : p < 1) (f : ℕ) (y res : ℤ) (k : ℕ) :
    MeasurableSet (bgThen G n sw p y res k f) := by
  induction f generalizing y res k with
  | zero => rw [bgThen_zero]; exact .empty
  | succ f ih =>
    have e : bgThen G n sw p y res k (f + 1) = ⋃ s : ℤ, ({ω | steps p (ω 0) = s} ∩ {ω |
        (I64 s ∧ I64 (s + 1) ∧ I64 (y + (s + 1))) ∧ ((y + (s + 1) > n ∧ k = 0 ∧ tail ω ∈ G) ∨
        (y + (s + 1) ≤ n ∧ ∃ k', k = k' + 1 ∧ tail ω ∈ bgThen G n sw p (y + (s + 1)) (res + 1) k' f))}) := by
      ext ω
      rw [bgThen_succ hp hp1]
      simp only [Set.mem_iUnion, Set.mem_inter_iff, Set.mem_ofPred_eq]
      constructor
      · intro h
        exact ⟨_, rfl, h⟩
      · rintro ⟨s, rfl, h⟩
        exact h
    rw [e]
    refine .iUnion fun s => .inter ?_ ?_
    · exact (measurable_steps p).comp (measurable_pi_apply 0) (measurableSet_singleton s)
    · refine .inter (.const _) (.union (.inter (.const _) (.inter (.const _) (measurable_tail hG))) (.inter (.const _) ?_))
      have : {ω : ℕ → ℝ | ∃ k', k = k' + 1 ∧ tail ω ∈ bgThen G n sw p (y + (s + 1)) (res + 1) k' f}
          = ⋃ k', ({ω | k = k' + 1} ∩ tail ⁻¹' bgThen G n sw p (y + (s + 1)) (res + 1) k' f) := by
        ext ω
        simp
      rw [show (fun ω : ℕ → ℝ => ∃ k', k = k' + 1 ∧ tail ω ∈ bgThen G n sw p (y + (s + 1)) (res + 1) k' f) = _ from this]
      exact .iUnion fun k' => .inter (.const _) (measurable_tail (ih _ _ _))

/-- `bg_law`, with what follows. -/
theorem bg_law_then (hG : MeasurableSet G) (n : ℕ) (hn : n < 2 ^ 63) (sw : Bool) {p : ℝ} (hp : 0 < p) (hp1 : p < 1) (k m : ℕ) (hm : m ≤ n) (res : ℤ) :
    independentUniforms (⋃ f, bgThen G n sw p ((n : ℤ) - m) res k f)
      = ENNReal.ofReal (binomialPmf m k p * (1 - (1 - p) ^ (2 ^ 63 - 1 - n))) * independentUniforms G := by
  have hq : 0 < 1 - p := by linarith
  have hq1 : 1 - p ≤ 1 := by linarith
  have hc : 0 ≤ 1 - (1 - p) ^ (2 ^ 63 - 1 - n) := sub_nonneg.2 (pow_le_one₀ hq.le hq1)
  induction k generalizing m res with
  | zero =>
    have e : independentUniforms (⋃ f, bgThen G n sw p ((n : ℤ) - m) res 0 f)
        = independentUniforms {ω | ω 0 ∈ {u | (m : ℤ) ≤ steps p u ∧ steps p u < ((2 ^ 63 - 1 - (n - m) : ℕ) : ℤ)} ∧ tail ω ∈ G} := by
      refine measure_congr_good fun ω h0 h1 => ?_
      have hs := steps_nonneg hp.le hp1 h0 h1.le
      simp only [Set.mem_iUnion, Set.mem_ofPred_eq]
      generalize hg : steps p (ω 0) = s at hs
      constructor
      · rintro ⟨f, hf⟩
        cases f with
        | zero => rw [bgThen_zero] at hf; exact hf.elim
        | succ f =>
          rw [bgThen_succ hp hp1, hg] at hf
          obtain ⟨⟨i1, i2, i3⟩, ⟨h, _, ht⟩ | ⟨_, k', h, _⟩⟩ := hf
          · unfold I64 at i3
            exact ⟨⟨by omega, by omega⟩, ht⟩
          · omega
      · rintro ⟨⟨h2, h3⟩, ht⟩
        refine ⟨1, ?_⟩
        rw [bgThen_succ hp hp1, hg]
        unfold I64
        refine ⟨⟨⟨?_, ?_⟩, ⟨?_, ?_⟩, ?_, ?_⟩, .inl ⟨?_, rfl, ht⟩⟩ <;> omega
    have hA : MeasurableSet {u | (m : ℤ) ≤ steps p u ∧ steps p u < ((2 ^ 63 - 1 - (n - m) : ℕ) : ℤ)} :=
      (measurable_steps p measurableSet_Ici).inter (measurable_steps p measurableSet_Iio)
    rw [e, splits_one.both hA hG,
      steps_Ico hp hp1 (by omega)]
    congr 2
    have : (1 - p) ^ (2 ^ 63 - 1 - (n - m)) = (1 - p) ^ m * (1 - p) ^ (2 ^ 63 - 1 - n) := by
      rw [← pow_add]
      congr 1
      omega
    rw [this]
    simp only [binomialPmf, Nat.choose_zero_right, Nat.cast_one, pow_zero, mul_one, one_mul, Nat.sub_zero]
    ring
  | succ k ih =>
    have e : independentUniforms (⋃ f, bgThen G n sw p ((n : ℤ) - m) res (k + 1) f)
        = independentUniforms (⋃ j ∈ Finset.range m, {ω | ω 0 ∈ {u | steps p u = (j : ℕ)} ∧
            tail ω ∈ ⋃ f, bgThen G n sw p ((n : ℤ) - (m - 1 - j : ℕ)) (res + 1) k f}) := by
      refine measure_congr_good fun ω h0 h1 => ?_
      have hs := steps_nonneg hp.le hp1 h0 h1.le
      simp only [Set.mem_iUnion, Set.mem_ofPred_eq, Finset.mem_range]
      generalize hg : steps p (ω 0) = s at hs
      constructor
      · rintro ⟨f, hf⟩
        cases f with
        | zero => rw [bgThen_zero] at hf; exact hf.elim
        | succ f =>
          rw [bgThen_succ hp hp1, hg] at hf
          obtain ⟨⟨i1, i2, i3⟩, ⟨_, h, _⟩ | ⟨h2, k', h, h3⟩⟩ := hf
          · omega
          · obtain rfl : k = k' := by omega
            refine ⟨s.toNat, by omega, by omega, f, ?_⟩
            have : (n : ℤ) - m + (s + 1) = n - (m - 1 - s.toNat : ℕ) := by omega
            rw [this] at h3
            exact h3
      · rintro ⟨j, hj, rfl, f, hf⟩
        refine ⟨f + 1, ?_⟩
        rw [bgThen_succ hp hp1, hg]
        have : (n : ℤ) - m + ((j : ℤ) + 1) = n - (m - 1 - j : ℕ) := by omega
        refine ⟨?_, .inr ⟨by omega, k, rfl, ?_⟩⟩
        · unfold I64
          refine ⟨⟨?_, ?_⟩, ⟨?_, ?_⟩, ?_, ?_⟩ <;> omega
        · rw [this]
          exact hf
    have hmeas : ∀ j : ℕ, MeasurableSet (⋃ f, bgThen G n sw p ((n : ℤ) - (m - 1 - j : ℕ)) (res + 1) k f) :=
      fun j => .iUnion fun f => measurable_bgThen hG hp hp1 _ _ _ _
    have hst : ∀ j : ℕ, MeasurableSet {u | steps p u = (j : ℤ)} := fun j => measurable_steps p (measurableSet_singleton _)
    rw [e, measure_biUnion_finset]
    · rw [binomialPmf_succ, Finset.sum_mul, ENNReal.ofReal_sum_of_nonneg, Finset.sum_mul]
      · refine Finset.sum_congr rfl fun j hj => ?_
        have hj := Finset.mem_range.1 hj
        rw [splits_one.both (hst j) (hmeas j), steps_eq hp hp1, ih (m - 1 - j) (by omega), ← mul_assoc, ← ENNReal.ofReal_mul (by positivity)]
        congr 2
        ring
      · intro j _
        have := binomialPmf_nonneg (m - 1 - j) k hp hp1
        positivity
    · intro i _ j _ hij
      rw [Function.onFun, Set.disjoint_left]
      rintro ω ⟨h1, _⟩ ⟨h2, _⟩
      have h1 : steps p (ω 0) = i := h1
      have h2 : steps p (ω 0) = j := h2
      exact hij (by omega)
    · intro j _
      exact (splits_one.measurable_head (hst j)).inter (measurable_tail (hmeas j))


theorem outcome_outcome (n : ℤ) (sw : Bool) (x : ℤ) : outcome n sw (outcome n sw x) = x := by
  unfold outcome
  split <;> omega

theorem bg_fresh {n : ℕ} (hn : n < 2 ^ 63) (sw : Bool) {p : ℝ} (hp : 0 < p) (hp1 : p < 1) :
    Fresh fun f => bgLoop n sw (Real.log (1 - p)) f 0 0 := by
  have key : ∀ x, (∃ k : ℕ, x = outcome n sw (0 + k)) ∨ ∀ f G, endsThen (bgLoop n sw (Real.log (1 - p)) f 0 0) x G = ∅ := by
    intro x
    by_cases h : ∃ k : ℕ, x = outcome n sw (0 + k)
    · exact .inl h
    · refine .inr fun f G => Set.eq_empty_of_forall_notMem ?_
      rintro ω ⟨ω', h1, _⟩
      exact h (bg_result hp hp1 h1)
  refine ⟨fun f d ω h => Props.bg_mono f d h, ?_, ?_⟩
  · intro f x G hG
    rcases key x with ⟨k, rfl⟩ | h
    · exact measurable_bgThen hG hp hp1 f 0 0 k
    · rw [h]
      exact .empty
  · intro x G hG
    rw [probIn_eq]
    simp only [← endsThen_univ]
    rcases key x with ⟨k, rfl⟩ | h
    · have h1 := bg_law_then hG n hn sw hp hp1 k n le_rfl 0
      have h2 := bg_law_then (MeasurableSet.univ) n hn sw hp hp1 k n le_rfl 0
      rw [measure_univ, mul_one, sub_self] at h2
      rw [sub_self] at h1
      unfold bgThen at h1 h2
      rw [h1, h2]
    · simp only [h, Set.iUnion_empty, measure_empty, zero_mul]

theorem btrs_mono {n : ℤ} (hn : I64 (n + 1)) {sw : Bool} {p q spq a b c vr : ℝ} (f d : ℕ) {ω : ℕ → ℝ}
    (h : btrsLoop n sw p q spq a b c vr f ω ≠ .error .fuel) : btrsLoop n sw p q spq a b c vr (f + d) ω = btrsLoop n sw p q spq a b c vr f ω := by
  induction f generalizing ω with
  | zero => exact (h rfl).elim
  | succ f ih =>
    rw [Nat.add_right_comm]
    by_cases h1 : fits a b c (ω 0)
    swap
    · rw [btrs_ub _ h1, btrs_ub _ h1]
    by_cases h2 : ⌊shape a b c (ω 0)⌋ < 0 ∨ ⌊shape a b c (ω 0)⌋ > n
    · rw [btrs_out f h1 h2] at h ⊢
      rw [btrs_out _ h1 h2, ih h]
    by_cases h3 : accept n p q spq a b vr ⌊shape a b c (ω 0)⌋ (ω 0) (ω 1)
    · rw [btrs_hit _ hn h1 h2 h3, btrs_hit _ hn h1 h2 h3]
    · rw [btrs_miss f hn h1 h2 h3] at h ⊢
      rw [btrs_miss _ hn h1 h2 h3, ih h]

theorem btrs_result {n : ℤ} (hn : I64 (n + 1)) {sw : Bool} {p q spq a b c vr : ℝ} {f : ℕ} {ω ω' : ℕ → ℝ} {x : ℤ}
    (h : btrsLoop n sw p q spq a b c vr f ω = .ok (x, ω')) : ∃ k, 0 ≤ k ∧ k ≤ n ∧ x = outcome n sw k := by
  induction f generalizing ω with
  | zero => simp [btrsLoop, lift_error] at h
  | succ f ih =>
    by_cases h1 : fits a b c (ω 0)
    swap
    · rw [btrs_ub _ h1] at h
      simp at h
    by_cases h2 : ⌊shape a b c (ω 0)⌋ < 0 ∨ ⌊shape a b c (ω 0)⌋ > n
    · rw [btrs_out f h1 h2] at h
      exact ih h
    by_cases h3 : accept n p q spq a b vr ⌊shape a b c (ω 0)⌋ (ω 0) (ω 1)
    · rw [btrs_hit _ hn h1 h2 h3] at h
      simp only [Except.ok.injEq, Prod.mk.injEq] at h
      exact ⟨_, by omega, by omega, h.1.symm⟩
    · rw [btrs_miss f hn h1 h2 h3] at h
      exact ih h

theorem btrs_fresh {n : ℕ} (hn : I64 ((n : ℤ) + 1)) {sw : Bool} {p q spq a b c vr : ℝ}
    (hpos : ∃ k ≤ n, (uniform01.prod uniform01) (hitSet n p q spq a b c vr k) ≠ 0) :
    Fresh fun f => btrsLoop n sw p q spq a b c vr f := by
  have key : ∀ x, (∃ k : ℤ, 0 ≤ k ∧ k ≤ n ∧ x = outcome n sw k) ∨ ∀ f G, endsThen (btrsLoop n sw p q spq a b c vr f) x G = ∅ := by
    intro x
    by_cases h : ∃ k : ℤ, 0 ≤ k ∧ k ≤ n ∧ x = outcome n sw k
    · exact .inl h
    · refine .inr fun f G => Set.eq_empty_of_forall_notMem ?_
      rintro ω ⟨ω', h1, _⟩
      exact h (btrs_result hn h1)
  have hB : uniform01 (outSet n a b c) + (uniform01.prod uniform01) (missSet n p q spq a b c vr) < 1 := by
    have ht := btrs_total (p := p) (q := q) (spq := spq) (a := a) (b := b) (c := c) (vr := vr) n
    obtain ⟨k, hk, h0⟩ := hpos
    generalize hBd : uniform01 (outSet n a b c) + (uniform01.prod uniform01) (missSet n p q spq a b c vr) = B at ht
    have hBt : B ≠ ⊤ := by
      rintro rfl
      simp at ht
    rw [← ht]
    refine (ENNReal.lt_add_right hBt ?_).trans_eq (add_comm _ _)
    intro h
    rw [add_eq_zero, Finset.sum_eq_zero_iff] at h
    exact h0 (h.1 k (Finset.mem_range.2 (by omega)))
  refine ⟨fun f d ω h => btrs_mono hn f d h, ?_, ?_⟩
  · intro f x G hG
    rcases key x with ⟨k, h0, h1, rfl⟩ | h
    · exact (btrs_ends_then hn h0 h1 hG).1 f
    · rw [h]
      exact .empty
  · intro x G hG
    rw [probIn_eq]
    simp only [← endsThen_univ]
    rcases key x with ⟨k, h0, h1, rfl⟩ | h
    · have e1 := solve (measure_ne_top _ _) hB (btrs_ends_then (sw := sw) hn h0 h1 hG).2
      have e2 := solve (measure_ne_top _ _) hB (btrs_ends_then (sw := sw) hn h0 h1 MeasurableSet.univ).2
      rw [measure_univ, mul_one] at e2
      rw [e1, e2, ENNReal.mul_div_right_comm]
    · simp only [h, Set.iUnion_empty, measure_empty, zero_mul]

end ICPC.Ideal
