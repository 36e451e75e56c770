import Verif.Model.FloatBinomial
import Verif.Spec.FloatBinomial
import Verif.Lemmas.TwoReals

/-!
# The geometric method for binomially distributed numbers, with an error for every gap
-/

namespace ICPC.Bg

open MeasureTheory Spec ICPC.Engine ICPC.Fp ICPC.Calls Finset

variable {p : ℝ}

private def term (p : ℝ) (n j : ℕ) : ℝ := n.choose j * p ^ j * (1 - p) ^ (n - j)

private theorem term_succ (n j : ℕ) : term p (n + 1) (j + 1) = p * term p n j + (1 - p) * term p n (j + 1) := by
  unfold term
  rw [Nat.choose_succ_succ, Nat.add_sub_add_right]
  rcases Nat.lt_or_ge j n with h | h
  · have e : n - j = (n - (j + 1)) + 1 := by omega
    rw [e]
    push_cast
    ring
  · have : n.choose (j + 1) = 0 := Nat.choose_eq_zero_of_lt (by omega)
    rw [this]
    push_cast
    ring

private theorem tail_eq (k n : ℕ) : atLeast p k n = ∑ j ∈ Finset.range (n + 1), if k ≤ j then term p n j else 0 := by
  unfold atLeast
  rw [sum_filter]
  rfl

private theorem tail_extra (k n : ℕ) : atLeast p k n = ∑ j ∈ Finset.range (n + 2), if k ≤ j then term p n j else 0 := by
  rw [sum_range_succ, ← tail_eq]
  have : term p n (n + 1) = 0 := by unfold term; rw [Nat.choose_eq_zero_of_lt (by omega)]; simp
  rw [this]; simp

/-- The first trial succeeds or not. -/
theorem tail_step (k n : ℕ) : atLeast p (k + 1) (n + 1) = p * atLeast p k n + (1 - p) * atLeast p (k + 1) n := by
  rw [tail_eq (k + 1) (n + 1), tail_extra (k + 1) n, sum_range_succ' _ (n + 1), sum_range_succ' _ (n + 1), tail_eq k n]
  simp only [Nat.add_le_add_iff_right, Nat.le_zero, Nat.add_eq_zero_iff, one_ne_zero, and_false, if_false, add_zero]
  rw [mul_sum, mul_sum, ← sum_add_distrib]
  refine sum_congr rfl fun j _ => ?_
  split
  · exact term_succ n j
  · ring

theorem tail_zero (n : ℕ) : atLeast p 0 n = 1 := by
  have h := add_pow p (1 - p) n
  rw [add_sub_cancel, one_pow] at h
  rw [tail_eq, h]
  refine sum_congr rfl fun j _ => ?_
  rw [if_pos (Nat.zero_le j)]
  unfold term
  ring

private theorem term_nonneg (h0 : 0 ≤ p) (h1 : p ≤ 1) (n j : ℕ) : 0 ≤ term p n j :=
  mul_nonneg (mul_nonneg (Nat.cast_nonneg _) (pow_nonneg h0 _)) (pow_nonneg (by linarith) _)

theorem tail_swap {k n : ℕ} (hk : k ≤ n) : atLeast p k n = 1 - atLeast (1 - p) (n - k + 1) n := by
  have h := tail_zero (p := 1 - p) n
  rw [eq_sub_iff_add_eq]
  refine Eq.trans ?_ h
  rw [tail_eq, tail_eq, tail_eq, ← sum_range_reflect, ← sum_add_distrib]
  refine sum_congr rfl fun j hj => ?_
  have hj := mem_range.1 hj
  have ht : term p n (n - j) = term (1 - p) n j := by
    unfold term
    rw [Nat.choose_symm (show j ≤ n by omega), show n - (n - j) = j by omega, sub_sub_cancel]
    ring
  rw [show n + 1 - 1 - j = n - j by omega, ht, if_pos (Nat.zero_le j)]
  by_cases h1 : k ≤ n - j
  · rw [if_pos h1, if_neg (by omega), add_zero]
  · rw [if_neg h1, if_pos (by omega), zero_add]

theorem tail_nonneg (h0 : 0 ≤ p) (h1 : p ≤ 1) (k n : ℕ) : 0 ≤ atLeast p k n := sum_nonneg fun j _ => term_nonneg h0 h1 n j

theorem tail_anti (h0 : 0 ≤ p) (h1 : p ≤ 1) (k n : ℕ) : atLeast p (k + 1) n ≤ atLeast p k n := by
  rw [tail_eq, tail_eq]
  refine sum_le_sum fun j _ => ?_
  have := term_nonneg h0 h1 n j
  split
  · rw [if_pos (by omega)]
  · split <;> first | exact this | exact le_rfl

theorem tail_le_one (h0 : 0 ≤ p) (h1 : p ≤ 1) (k n : ℕ) : atLeast p k n ≤ 1 := by
  induction k with
  | zero => rw [tail_zero]
  | succ k ih => exact (tail_anti h0 h1 k n).trans ih

theorem tail_mono (h0 : 0 ≤ p) (h1 : p ≤ 1) (k n : ℕ) : atLeast p k n ≤ atLeast p k (n + 1) := by
  cases k with
  | zero => rw [tail_zero, tail_zero]
  | succ k =>
    rw [tail_step]
    have := tail_anti h0 h1 k n
    nlinarith

/-- The chance of `k` further successes after a success with `i` trials left, counted from the success. -/
def after (p : ℝ) (k : ℕ) : ℕ → ℝ
  | 0 => 0
  | i + 1 => atLeast p k i

/-- The increments. -/
def incr (p : ℝ) (k i : ℕ) : ℝ := after p k (i + 1) - after p k i

theorem incr_nonneg (h0 : 0 ≤ p) (h1 : p ≤ 1) (k i : ℕ) : 0 ≤ incr p k i := by
  unfold incr
  cases i with
  | zero => simpa [after] using tail_nonneg h0 h1 k 0
  | succ i => simpa [after] using tail_mono h0 h1 k i

theorem incr_sum (k M : ℕ) : ∑ i ∈ Finset.range M, incr p k i = after p k M := by
  unfold incr
  rw [sum_range_sub]
  simp [after]

theorem after_le_one (h0 : 0 ≤ p) (h1 : p ≤ 1) (k M : ℕ) : after p k M ≤ 1 := by
  cases M with
  | zero => simp [after]
  | succ M => exact tail_le_one h0 h1 k M

/-- The chance of a further success after a gap of any length. -/
theorem gaps (k M : ℕ) : ∑ i ∈ Finset.range M, incr p k i * (1 - (1 - p) ^ (M - i)) = atLeast p (k + 1) M := by
  induction M with
  | zero =>
    rw [tail_eq]
    simp
  | succ M ih =>
    rw [tail_step, ← ih, mul_sum, sum_range_succ]
    have e : ∀ i ∈ Finset.range M, incr p k i * (1 - (1 - p) ^ (M + 1 - i)) = p * incr p k i + (1 - p) * (incr p k i * (1 - (1 - p) ^ (M - i))) := by
      intro i hi
      have : M + 1 - i = (M - i) + 1 := by have := Finset.mem_range.1 hi; omega
      rw [this]
      ring
    rw [sum_congr rfl e, sum_add_distrib, ← mul_sum, incr_sum]
    have : M + 1 - M = 1 := by omega
    rw [this]
    unfold incr
    show _ + (atLeast p k M - after p k M) * _ = _
    ring

theorem cut (k M : ℕ) (g : ℕ) : ∑ i ∈ Finset.range M, (if g < M - i then incr p k i else 0) = after p k (M - g) := by
  rw [← incr_sum, ← sum_filter]
  refine sum_congr ?_ fun _ _ => rfl
  ext i
  simp only [mem_filter, Finset.mem_range]
  omega

end ICPC.Bg
