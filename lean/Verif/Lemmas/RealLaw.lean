import Verif.Props.RandGeo
import Mathlib.Data.Int.CardIntervalMod

/-!
# Lemmas about the distribution of `Random::real`
-/

namespace ICPC
/-! ### Trailing zeros -/

theorem countP_lt (k : ℕ) : ∀ n, k ≤ n → (List.range n).countP (fun i => decide (i < k)) = k := by
  intro n h
  induction n with
  | zero => simp; omega
  | succ n ih =>
    rw [List.range_succ, List.countP_append]
    rcases h.eq_or_lt with rfl | h
    · have : (List.range n).countP (fun i => decide (i < n + 1)) = n := by
        rw [List.countP_eq_length.2]
        · simp
        · intro a ha; have := List.mem_range.1 ha; exact decide_eq_true (by omega)
      rw [this]; simp
    · rw [ih (by omega)]
      have : ¬ n < k := by omega
      simp [this]

theorem trailingZeros_eq (k m : ℕ) (h : 2 ^ k * (2 * m + 1) < 2 ^ 64) : trailingZeros (2 ^ k * (2 * m + 1)) = k := by
  have hk : k < 64 := by
    by_contra hc
    have : 2 ^ 64 ≤ 2 ^ k := Nat.pow_le_pow_right (by norm_num) (by omega)
    nlinarith
  have hp := Nat.two_pow_pos k
  unfold trailingZeros popcount64
  set x := 2 ^ k * (2 * m + 1) with hx
  have hxp : 0 < x := by positivity
  rw [show 2 ^ 64 - 1 - x = 2 ^ 64 - (x + 1) by omega, show (x + 2 ^ 64 - 1) % 2 ^ 64 = x - 1 by omega]
  have : ∀ i ∈ List.range 64, ((2 ^ 64 - (x + 1)) &&& (x - 1)).testBit i = decide (i < k) := by
    intro i hi
    have hi := List.mem_range.1 hi
    rw [Nat.testBit_and, Nat.testBit_two_pow_sub_succ h]
    have e : x - 1 = 2 ^ k * (2 * m) + (2 ^ k - 1) := by rw [hx, Nat.mul_add]; omega
    rw [e, Nat.testBit_two_pow_mul_add _ (by omega), hx, Nat.testBit_two_pow_mul]
    by_cases hik : i < k
    · rw [if_pos hik, Nat.testBit_two_pow_sub_one]
      have : ¬ k ≤ i := by omega
      simp [hi, hik, this]
    · rw [if_neg hik]
      rcases Nat.eq_or_lt_of_le (not_lt.1 hik) with rfl | hlt
      · simp [hi]
      · obtain ⟨d, hd⟩ : ∃ d, i - k = d + 1 := ⟨i - k - 1, by omega⟩
        rw [hd, Nat.testBit_succ, Nat.testBit_succ, show (2 * m + 1) / 2 = m by omega, show 2 * m / 2 = m by omega]
        simp [hik, hlt.le]
  rw [List.countP_congr (q := fun i => decide (i < k)) (by intro i hi; rw [this i hi])]
  exact countP_lt k 64 hk.le

theorem or_top_eq {w : ℕ} (hw : w < 2 ^ 64) : w ||| 2 ^ 63 = 2 ^ 63 + w % 2 ^ 63 := by
  by_cases hlt : w < 2 ^ 63
  · rw [Nat.or_two_pow_eq_add_of_lt hlt, Nat.mod_eq_of_lt hlt, Nat.add_comm]
  · have hw' : w = 2 ^ 63 * 1 + w % 2 ^ 63 := by omega
    have h2 := Nat.two_pow_add_eq_or_of_lt (b := w % 2 ^ 63) (i := 63) (by omega) 1
    rw [← hw', Nat.mul_one] at h2
    conv_lhs => rw [h2]
    rw [Nat.or_comm, ← Nat.or_assoc, Nat.or_self, ← h2]
    omega

/-- Every positive word is a power of two times an odd number. -/
theorem exists_odd {x : ℕ} (hx : x ≠ 0) : ∃ k m, x = 2 ^ k * (2 * m + 1) := by
  obtain ⟨k, n, hn, rfl⟩ := Nat.exists_eq_two_pow_mul_odd hx
  obtain ⟨m, rfl⟩ := hn
  exact ⟨k, m, rfl⟩

/-! ### Counting -/

theorem card_mod (j r : ℕ) (hj : j < 64) : ((Finset.range (2 ^ 64)).filter fun x => x % 2 ^ (j + 1) = r % 2 ^ (j + 1)).card = 2 ^ (63 - j) := by
  have h := Nat.count_modEq_card (2 ^ 64) (r := 2 ^ (j + 1)) (by positivity) r
  rw [Nat.count_eq_card_filter_range] at h
  have h0 : 2 ^ 64 % 2 ^ (j + 1) = 0 := Nat.mod_eq_zero_of_dvd (pow_dvd_pow 2 (by omega))
  rw [h0, if_neg (by omega), Nat.add_zero, Nat.pow_div (by omega) (by norm_num), show 64 - (j + 1) = 63 - j by omega] at h
  exact h

theorem card_below (n : ℕ) (z : ℚ) : ((Finset.range n).filter fun r : ℕ => (r : ℚ) < z).card = min n ⌈z⌉₊ := by
  have : ((Finset.range n).filter fun r : ℕ => (r : ℚ) < z) = Finset.range (min n ⌈z⌉₊) := by
    ext r
    rw [Finset.mem_filter, Finset.mem_range, Finset.mem_range, lt_min_iff, Nat.lt_ceil]
  rw [this, Finset.card_range]

theorem toDouble_err {m : ℕ} : toDouble m ≤ m + 2 ^ 10 ∧ m ≤ toDouble m + 2 ^ 10 := by
  unfold toDouble
  dsimp only
  split <;> omega

/-- The number of mantissas below a bound. -/
theorem card_mantissa {s : ℚ} (h1 : 2 ^ 63 < s) (h2 : s ≤ 2 ^ 64) :
    ∃ c : ℕ, ((Finset.range (2 ^ 64)).filter fun w => (toDouble (w ||| 2 ^ 63) : ℚ) < s).card = 2 * c ∧ |(c : ℚ) - (s - 2 ^ 63)| ≤ 2 ^ 11 := by
  refine ⟨((Finset.range (2 ^ 63)).filter fun r => (toDouble (2 ^ 63 + r) : ℚ) < s).card, ?_, ?_⟩
  · rw [Finset.card_filter, Finset.card_filter, show 2 ^ 64 = 2 ^ 63 + 2 ^ 63 by norm_num, Finset.sum_range_add, two_mul]
    refine congrArg₂ (· + ·) ?_ ?_
    · refine Finset.sum_congr rfl fun w hw => ?_
      have hw := Finset.mem_range.1 hw
      rw [or_top_eq (by omega), Nat.mod_eq_of_lt hw]
    · refine Finset.sum_congr rfl fun w hw => ?_
      have hw := Finset.mem_range.1 hw
      rw [or_top_eq (by omega), Nat.add_mod_left, Nat.mod_eq_of_lt hw]
  · have hlo : ((Finset.range (2 ^ 63)).filter fun r : ℕ => (r : ℚ) < s - 2 ^ 63 - 2 ^ 10).card ≤
        ((Finset.range (2 ^ 63)).filter fun r => (toDouble (2 ^ 63 + r) : ℚ) < s).card := by
      refine Finset.card_le_card fun r hr => ?_
      rw [Finset.mem_filter] at hr ⊢
      refine ⟨hr.1, ?_⟩
      have : (toDouble (2 ^ 63 + r) : ℚ) ≤ 2 ^ 63 + r + 2 ^ 10 := by exact_mod_cast (toDouble_err (m := 2 ^ 63 + r)).1
      linarith [hr.2]
    have hhi : ((Finset.range (2 ^ 63)).filter fun r => (toDouble (2 ^ 63 + r) : ℚ) < s).card ≤
        ((Finset.range (2 ^ 63)).filter fun r : ℕ => (r : ℚ) < s - 2 ^ 63 + 2 ^ 10).card := by
      refine Finset.card_le_card fun r hr => ?_
      rw [Finset.mem_filter] at hr ⊢
      refine ⟨hr.1, ?_⟩
      have : (2 ^ 63 + r : ℚ) ≤ toDouble (2 ^ 63 + r) + 2 ^ 10 := by exact_mod_cast (toDouble_err (m := 2 ^ 63 + r)).2
      linarith [hr.2]
    rw [card_below] at hlo hhi
    generalize ((Finset.range (2 ^ 63)).filter fun r => (toDouble (2 ^ 63 + r) : ℚ) < s).card = c at *
    have a1 : s - 2 ^ 63 - 2 ^ 10 ≤ (min (2 ^ 63) ⌈s - 2 ^ 63 - 2 ^ 10⌉₊ : ℕ) := by
      rw [Nat.cast_min, le_min_iff]
      refine ⟨?_, Nat.le_ceil _⟩
      push_cast
      linarith
    have a2 : ((min (2 ^ 63) ⌈s - 2 ^ 63 + 2 ^ 10⌉₊ : ℕ) : ℚ) ≤ s - 2 ^ 63 + 2 ^ 10 + 1 := by
      rw [Nat.cast_min]
      refine le_trans (min_le_right _ _) (Nat.ceil_lt_add_one ?_).le
      linarith
    have b1 : ((min (2 ^ 63) ⌈s - 2 ^ 63 - 2 ^ 10⌉₊ : ℕ) : ℚ) ≤ c := by exact_mod_cast hlo
    have b2 : (c : ℚ) ≤ (min (2 ^ 63) ⌈s - 2 ^ 63 + 2 ^ 10⌉₊ : ℕ) := by exact_mod_cast hhi
    rw [abs_le]
    constructor <;> linarith

end ICPC
