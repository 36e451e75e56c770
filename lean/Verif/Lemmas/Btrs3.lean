import Verif.Lemmas.Btrs2
import Verif.Spec.Btrs

/-!
# The acceptance probability of the rejection method of `binomial`
-/

namespace ICPC.Ideal

open MeasureTheory Spec

theorem lgamma_nat (k : ℕ) : lgamma ((k : ℝ) + 1) = Real.log (k.factorial : ℝ) := by
  unfold lgamma
  rw [Real.Gamma_nat_eq_factorial]

theorem weight_pos {n : ℕ} {p : ℝ} (hp : 0 < p) (hp1 : p < 1) {k : ℕ} (hk : k ≤ n) : 0 < binomialWeight n p k := by
  have h1 : 0 < 1 - p := by linarith
  have h2 : 0 < n.choose k := Nat.choose_pos hk
  unfold binomialWeight
  positivity

theorem weight_nonneg {n : ℕ} {p : ℝ} (hp : 0 < p) (hp1 : p < 1) (k : ℕ) : 0 ≤ binomialWeight n p k := by
  have h1 : 0 < 1 - p := by linarith
  unfold binomialWeight
  positivity

theorem weight_sum (n : ℕ) (p : ℝ) : ∑ k ∈ Finset.range (n + 1), binomialWeight n p k = 1 := by
  have h := add_pow p (1 - p) n
  rw [show p + (1 - p) = 1 by ring, one_pow] at h
  rw [h]
  refine Finset.sum_congr rfl fun k _ => ?_
  unfold binomialWeight
  ring

theorem log_weight {n : ℕ} {p : ℝ} (hp : 0 < p) (hp1 : p < 1) {k : ℕ} (hk : k ≤ n) :
    Real.log (binomialWeight n p k) = Real.log (n.factorial : ℝ) - Real.log (k.factorial : ℝ) - Real.log ((n - k).factorial : ℝ)
      + k * Real.log p + (n - k : ℕ) * Real.log (1 - p) := by
  have h1 : 0 < 1 - p := by linarith
  have f1 : (n.factorial : ℝ) ≠ 0 := by exact_mod_cast n.factorial_ne_zero
  have f2 : (k.factorial : ℝ) ≠ 0 := by exact_mod_cast k.factorial_ne_zero
  have f3 : ((n - k).factorial : ℝ) ≠ 0 := by exact_mod_cast (n - k).factorial_ne_zero
  unfold binomialWeight
  rw [Nat.cast_choose ℝ hk, Real.log_mul (by positivity) (by positivity), Real.log_mul (by positivity) (by positivity), Real.log_pow, Real.log_pow,
    Real.log_div f1 (by positivity), Real.log_mul f2 f3]
  ring

theorem mode_le {n : ℕ} (hn : 1 ≤ n) {p : ℝ} (hp : p ≤ 1 / 2) : binomialMode n p ≤ n := by
  unfold binomialMode
  refine Nat.le_of_lt_succ ((Nat.floor_lt' (by omega)).2 ?_)
  have h : (1 : ℝ) ≤ n := by exact_mod_cast hn
  push_cast
  nlinarith

/-- The last test compares with the exact probability. -/
theorem late_iff {n : ℕ} (hn : 1 ≤ n) {p : ℝ} (hp : 0 < p) (hp2 : p ≤ 1 / 2) {k : ℕ} (hk : k ≤ n) {spq a b x v : ℝ} (ha : 0 < a) (hb : 0 < b)
    (hs : 0 < spq) (hx0 : 0 < x) (hx1 : x < 1) (hv : 0 < v) :
    btrsLate n k p (1 - p) spq a b (us x) v ↔
      v ≤ binomialWeight n p k * (1 / ((2.83 + 5.1 / b) * spq * binomialWeight n p (binomialMode n p))) * slope a b x := by
  have hp1 : p < 1 := by linarith
  have hq : 0 < 1 - p := by linarith
  have hm := mode_le hn hp2
  have wk := weight_pos hp hp1 hk
  have wm := weight_pos hp hp1 hm
  have hu := us_pos hx0 hx1
  have hsl : 0 < slope a b x := by unfold slope; positivity
  have hal : 0 < (2.83 + 5.1 / b) * spq := by positivity
  unfold btrsLate
  have hmode : ((⌊(((n : ℤ) : ℝ) + 1) * p⌋ : ℤ) : ℝ) = (binomialMode n p : ℝ) := by
    rw [Int.cast_natCast]
    unfold binomialMode
    rw [← natCast_floor_eq_intCast_floor (by positivity)]
  simp only [Int.cast_natCast] at hmode ⊢
  simp only [hmode]
  generalize binomialMode n p = m at *
  have c1 : (n : ℝ) - m + 1 = ((n - m : ℕ) : ℝ) + 1 := by rw [Nat.cast_sub hm]
  have c2 : (n : ℝ) - k + 1 = ((n - k : ℕ) : ℝ) + 1 := by rw [Nat.cast_sub hk]
  rw [c1, c2, lgamma_nat, lgamma_nat, lgamma_nat, lgamma_nat, Real.log_div hp.ne' hq.ne']
  have e : Real.log (m.factorial : ℝ) + Real.log ((n - m).factorial : ℝ) - Real.log (k.factorial : ℝ) - Real.log ((n - k).factorial : ℝ)
      + ((k : ℝ) - m) * (Real.log p - Real.log (1 - p)) = Real.log (binomialWeight n p k / binomialWeight n p m) := by
    rw [Real.log_div wk.ne' wm.ne', log_weight hp hp1 hk, log_weight hp hp1 hm, Nat.cast_sub hk, Nat.cast_sub hm]
    ring
  rw [e]
  generalize hA : (2.83 + 5.1 / b) * spq = A at hal
  change Real.log (v * (A / slope a b x)) ≤ _ ↔ _
  rw [Real.log_le_log_iff (by positivity) (by positivity)]
  generalize slope a b x = s at hsl
  generalize binomialWeight n p k = K at wk
  generalize binomialWeight n p m = M at wm
  rw [le_div_iff₀ wm, show v * (A / s) * M = v * (A * M) / s by ring, div_le_iff₀ hsl,
    show K * (1 / (A * M)) * s = K * s / (A * M) by ring, le_div_iff₀ (by positivity)]

/-! ## The constants -/

theorem spq_ge {n : ℕ} {p : ℝ} (hp2 : p ≤ 1 / 2) (hnp : 10 ≤ p * n) : 2.2 ≤ √(n * p * (1 - p)) := by
  refine Real.le_sqrt_of_sq_le ?_
  nlinarith

theorem b_ge {n : ℕ} {p : ℝ} (hp2 : p ≤ 1 / 2) (hnp : 10 ≤ p * n) : 6.7 ≤ btrsB n p := by
  have := spq_ge hp2 hnp
  unfold btrsB
  norm_num at *
  linarith

theorem a_pos {n : ℕ} {p : ℝ} (hp : 0 < p) (hp2 : p ≤ 1 / 2) (hnp : 10 ≤ p * n) : 0 < btrsA n p := by
  have := b_ge hp2 hnp
  unfold btrsA
  norm_num at *
  linarith

theorem alpha_pos {n : ℕ} {p : ℝ} (hp2 : p ≤ 1 / 2) (hnp : 10 ≤ p * n) : 0 < btrsAlpha n p := by
  have h1 := b_ge hp2 hnp
  have h2 := spq_ge hp2 hnp
  have h3 : 0 < btrsB n p := by norm_num at h1; linarith
  have h4 : 0 < √(n * p * (1 - p)) := by norm_num at h2; linarith
  unfold btrsAlpha
  positivity

/-- The probability that a round of the loop ends with `k`. -/
theorem btrs_hit_measure {n : ℕ} (hn : I64 ((n : ℤ) + 1)) {p : ℝ} (hp : 0 < p) (hp2 : p ≤ 1 / 2) (hnp : 10 ≤ p * n) (hat : BtrsHat n p)
    (squeeze : BtrsSqueeze n p) {k : ℕ} (hk : k ≤ n) :
    (uniform01.prod uniform01) (hitSet n p (1 - p) √(n * p * (1 - p)) (btrsA n p) (btrsB n p) (n * p + 1 / 2) (btrsV n p) k) =
      ENNReal.ofReal (binomialWeight n p k * (1 / (btrsAlpha n p * binomialWeight n p (binomialMode n p)))) := by
  have hn1 : 1 ≤ n := by
    rcases Nat.eq_zero_or_pos n with rfl | h
    · norm_num at hnp
    · exact h
  have hp1 : p < 1 := by linarith
  have ha := a_pos hp hp2 hnp
  have hb : 0 < btrsB n p := by have := b_ge hp2 hnp; norm_num at this; linarith
  have hs : 0 < √(n * p * (1 - p)) := by have := spq_ge hp2 hnp; norm_num at this; linarith
  have hal := alpha_pos hp2 hnp
  have wk := weight_pos hp hp1 hk
  have wm := weight_pos hp hp1 (mode_le hn1 hp2)
  have hsl : ∀ x, slope (btrsA n p) (btrsB n p) x = btrsDeriv n p x := by
    intro x
    unfold slope btrsDeriv border us
    ring
  refine hit_measure ha hb.le (by unfold I64 at *; omega) (by positivity) ?_ ?_
  · intro x hx0 hx1 hf v hv0 hv1
    rw [accept, late_iff hn1 hp hp2 hk ha hb hs hx0 hx1 hv0]
    refine ⟨?_, .inr⟩
    rintro (⟨h1, h2⟩ | h)
    · have h3 := squeeze x hx0 hx1 h1 k hk hf
      rw [hsl, show binomialWeight n p k * (1 / (btrsAlpha n p * binomialWeight n p (binomialMode n p))) * btrsDeriv n p x =
        binomialWeight n p k * btrsDeriv n p x / (btrsAlpha n p * binomialWeight n p (binomialMode n p)) by ring, le_div_iff₀ (by positivity)]
      refine le_trans ?_ h3
      exact mul_le_mul_of_nonneg_right h2 (by positivity)
    · exact h
  · intro x hx0 hx1 hf
    have h3 := hat x hx0 hx1 k hk hf
    rw [hsl, show binomialWeight n p k * (1 / (btrsAlpha n p * binomialWeight n p (binomialMode n p))) * btrsDeriv n p x =
        binomialWeight n p k * btrsDeriv n p x / (btrsAlpha n p * binomialWeight n p (binomialMode n p)) by ring, div_le_one (by positivity)]
    exact h3

theorem binomial_large {n : ℕ} {p : ℝ} (hp : 0 < p) (hp1 : p < 1) (hs : 10 ≤ min p (1 - p) * n) (fuel : ℕ) (ω : ℕ → ℝ) :
    binomial fuel n p ω = btrsLoop n (@decide (p > 1 / 2) (Classical.propDecidable _)) (min p (1 - p)) (1 - min p (1 - p))
      √(n * min p (1 - p) * (1 - min p (1 - p))) (btrsA n (min p (1 - p))) (btrsB n (min p (1 - p))) (n * min p (1 - p) + 1 / 2)
      (btrsV n (min p (1 - p))) fuel ω := by
  unfold binomial
  rw [require_bind (Int.natCast_nonneg n), require_bind ⟨hp.le, hp1.le⟩]
  have h : ¬min p (1 - p) * ((n : ℤ) : ℝ) < 10 := by
    rw [Int.cast_natCast]
    exact not_lt.2 hs
  simp only [h, if_false]
  unfold btrs
  simp only [Int.cast_natCast]
  rw [show ((0.5 : ℝ)) = 1 / 2 by norm_num]
  rfl

end ICPC.Ideal
