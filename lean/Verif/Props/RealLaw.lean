import Verif.Lemmas.RealLaw

/-!
# C85: the distribution of `Random::real`
-/

namespace ICPC.Props

/-- Whatever words follow the first two, the value of `real()` is less than `t`. -/
def Below (t : ℚ) (w x : ℕ) : Prop := ∀ ws v rest, realWords (w :: x :: ws) = some (v, rest) → v < t

private theorem realWords_odd {w k m : ℕ} (h : 2 ^ k * (2 * m + 1) < 2 ^ 64) (ws : List ℕ) :
    realWords (w :: 2 ^ k * (2 * m + 1) :: ws) = some ((toDouble (w ||| 2 ^ 63) : ℚ) / 2 ^ (64 + k), ws) := by
  have he : exponentLoop (2 ^ k * (2 * m + 1) :: ws) = some (k, ws) := by
    unfold exponentLoop
    rw [if_neg (by positivity), trailingZeros_eq k m h]
  unfold realWords
  simp only [he, Option.map_some]

private theorem below_odd {t : ℚ} {w k m : ℕ} (h : 2 ^ k * (2 * m + 1) < 2 ^ 64) :
    Below t w (2 ^ k * (2 * m + 1)) ↔ (toDouble (w ||| 2 ^ 63) : ℚ) < t * 2 ^ (64 + k) := by
  rw [← div_lt_iff₀ (by positivity)]
  constructor
  · intro hb
    exact hb [] _ _ (realWords_odd h [])
  · intro hlt ws v rest he
    rw [realWords_odd h] at he
    injection he with he
    injection he with he _
    rw [← he]; exact hlt

theorem below_zero {t : ℚ} {w : ℕ} (hw : w < 2 ^ 64) (ht : 1 / 2 ^ 64 < t) : Below t w 0 := by
  intro ws v rest h
  unfold realWords at h
  rw [Option.map_eq_some_iff] at h
  obtain ⟨⟨e, r⟩, he, hv⟩ := h
  injection hv with hv _
  dsimp only at hv
  have he64 : 64 ≤ e := by
    unfold exponentLoop at he
    rw [if_pos rfl, Option.map_eq_some_iff] at he
    obtain ⟨p, _, hp⟩ := he
    injection hp with hp _
    have h64 : trailingZeros 0 = 64 := by decide +kernel
    omega
  obtain ⟨m1, m2⟩ := or_top hw
  have b2 := (toDouble_bounds m1 m2).2
  refine lt_of_le_of_lt ?_ ht
  rw [← hv, div_le_div_iff₀ (by positivity) (by positivity)]
  have h1 : (toDouble (w ||| 2 ^ 63) : ℚ) ≤ 2 ^ 64 := by exact_mod_cast b2
  have h2 : (2 : ℚ) ^ 128 ≤ 2 ^ (64 + e) := pow_le_pow_right₀ (by norm_num) (by omega)
  nlinarith

/-- A word with `k` trailing zeros modulo `2 ^ (j + 1)`. -/
private theorem odd_mod (j k m : ℕ) :
    (j < k → 2 ^ k * (2 * m + 1) % 2 ^ (j + 1) = 0) ∧ (k = j → 2 ^ k * (2 * m + 1) % 2 ^ (j + 1) = 2 ^ j) ∧
    (k < j → 2 ^ k * (2 * m + 1) % 2 ^ (j + 1) ≠ 0 ∧ 2 ^ k * (2 * m + 1) % 2 ^ (j + 1) ≠ 2 ^ j) := by
  refine ⟨fun h => ?_, ?_, fun h => ?_⟩
  · exact Nat.mod_eq_zero_of_dvd (Dvd.dvd.mul_right (pow_dvd_pow 2 (by omega)) _)
  · rintro rfl
    rw [show 2 ^ k * (2 * m + 1) = 2 ^ k + 2 ^ (k + 1) * m by ring, Nat.add_mul_mod_self_left]
    exact Nat.mod_eq_of_lt (Nat.pow_lt_pow_right (by norm_num) (by omega))
  · have hj : 2 ^ (j + 1) = 2 ^ k * (2 * 2 ^ (j - k)) := by
      rw [← pow_succ', ← pow_add]; congr 1; omega
    have hj2 : 2 ^ j = 2 ^ k * (2 * 2 ^ (j - k - 1)) := by
      rw [← pow_succ', ← pow_add]; congr 1; omega
    have hp := Nat.two_pow_pos k
    rw [hj, hj2, Nat.mul_mod_mul_left]
    have hodd : (2 * m + 1) % (2 * 2 ^ (j - k)) % 2 = 1 := by
      rw [Nat.mod_mul_right_mod]; omega
    generalize (2 * m + 1) % (2 * 2 ^ (j - k)) = r at *
    constructor
    · intro h0
      rcases Nat.mul_eq_zero.1 h0 with h0 | h0 <;> omega
    · intro h0
      have := Nat.eq_of_mul_eq_mul_left hp h0
      omega

open Classical in
/-- The pairs of words that give a value less than `t`, counted by the second word. -/
private theorem card_split {t : ℚ} {j T : ℕ} (hT : T = 2 ^ 64) (hj : j < 64) (h1 : 1 / 2 ^ (j + 1) < t) (h2 : t ≤ 1 / 2 ^ j) :
    (((Finset.range T ×ˢ Finset.range T).filter fun p => Below t p.1 p.2).card : ℕ) =
      2 ^ (63 - j) * T + 2 ^ (63 - j) * ((Finset.range T).filter fun w => (toDouble (w ||| 2 ^ 63) : ℚ) < t * 2 ^ (64 + j)).card := by
  have ht : 1 / 2 ^ 64 < t := by
    refine lt_of_le_of_lt ?_ h1
    exact one_div_le_one_div_of_le (by positivity) (pow_le_pow_right₀ (by norm_num) (by omega))
  set C := ((Finset.range T).filter fun w => (toDouble (w ||| 2 ^ 63) : ℚ) < t * 2 ^ (64 + j)).card with hC
  have hx : ∀ x ∈ Finset.range T, ((Finset.range T).filter fun w => Below t w x).card =
      (if x % 2 ^ (j + 1) = 0 % 2 ^ (j + 1) then T else 0) + (if x % 2 ^ (j + 1) = 2 ^ j % 2 ^ (j + 1) then C else 0) := by
    intro x hx
    have hx := Finset.mem_range.1 hx
    rw [hT] at hx
    have hj2 : 2 ^ j % 2 ^ (j + 1) = 2 ^ j := Nat.mod_eq_of_lt (Nat.pow_lt_pow_right (by norm_num) (by omega))
    have hjp := Nat.two_pow_pos j
    rw [hj2, Nat.zero_mod]
    rcases Nat.eq_zero_or_pos x with rfl | hpos
    · rw [Nat.zero_mod, if_pos rfl, if_neg (by omega), Finset.filter_true_of_mem, Finset.card_range, Nat.add_zero]
      intro w hw
      exact below_zero (hT ▸ Finset.mem_range.1 hw) ht
    · obtain ⟨k, m, rfl⟩ := exists_odd hpos.ne'
      obtain ⟨o1, o2, o3⟩ := odd_mod j k m
      rcases lt_trichotomy j k with hk | hk | hk
      · rw [o1 hk, if_pos rfl, if_neg (by omega), Finset.filter_true_of_mem, Finset.card_range, Nat.add_zero]
        intro w hw
        rw [below_odd hx]
        obtain ⟨m1, m2⟩ := or_top (hT ▸ Finset.mem_range.1 hw)
        have b2 : (toDouble (w ||| 2 ^ 63) : ℚ) ≤ 2 ^ 64 := by exact_mod_cast (toDouble_bounds m1 m2).2
        refine lt_of_le_of_lt b2 ?_
        rw [div_lt_iff₀ (by positivity)] at h1
        have h3 : (2 : ℚ) ^ (64 + k) = 2 ^ (j + 1) * 2 ^ (64 + k - (j + 1)) := by rw [← pow_add]; congr 1; omega
        have h4 : (2 : ℚ) ^ 64 ≤ 2 ^ (64 + k - (j + 1)) := pow_le_pow_right₀ (by norm_num) (by omega)
        rw [h3, ← mul_assoc]
        nlinarith
      · rw [o2 hk.symm, if_neg (by omega), if_pos rfl, Nat.zero_add, hC]
        subst hk
        refine congrArg _ (Finset.filter_congr fun w _ => below_odd hx)
      · rw [if_neg (o3 hk).1, if_neg (o3 hk).2, Nat.add_zero, Finset.card_eq_zero, Finset.filter_eq_empty_iff]
        intro w hw
        rw [below_odd hx, not_lt]
        obtain ⟨m1, m2⟩ := or_top (hT ▸ Finset.mem_range.1 hw)
        have b1 : (2 : ℚ) ^ 63 ≤ toDouble (w ||| 2 ^ 63) := by exact_mod_cast (toDouble_bounds m1 m2).1
        refine le_trans ?_ b1
        rw [le_div_iff₀ (by positivity)] at h2
        have h3 : (2 : ℚ) ^ (64 + k) * 2 ^ (j - k - 1) = 2 ^ 63 * 2 ^ j := by rw [← pow_add, ← pow_add]; congr 1; omega
        have h4 : (1 : ℚ) ≤ 2 ^ (j - k - 1) := one_le_pow₀ (by norm_num)
        have ht0 : 0 < t := lt_trans (by positivity) ht
        have h5 : (0 : ℚ) < 2 ^ (64 + k) := by positivity
        nlinarith [mul_pos ht0 h5]
  have card_mod' : T = 2 ^ 64 → ∀ j r, j < 64 → ((Finset.range T).filter fun x => x % 2 ^ (j + 1) = r % 2 ^ (j + 1)).card = 2 ^ (63 - j) := by
    rintro rfl; exact card_mod
  rw [Finset.card_filter, Finset.sum_product_right]
  simp only [← Finset.card_filter]
  rw [Finset.sum_congr rfl hx]
  rw [Finset.sum_add_distrib, Finset.sum_ite, Finset.sum_ite, Finset.sum_const_zero, Finset.sum_const_zero, Finset.sum_const, Finset.sum_const,
    card_mod' hT j 0 hj, card_mod' hT j (2 ^ j) hj, smul_eq_mul, smul_eq_mul, Nat.add_zero, Nat.add_zero]

private theorem mantissa_bound {t : ℚ} {j : ℕ} (_ : j < 64) (g1 : 1 / 2 ^ (j + 1) < t) (g2 : t ≤ 1 / 2 ^ j) :
    ∃ c : ℕ, ((Finset.range (2 ^ 64)).filter fun w => (toDouble (w ||| 2 ^ 63) : ℚ) < t * 2 ^ (64 + j)).card = 2 * c ∧
      |(c : ℚ) - (t * 2 ^ (64 + j) - 2 ^ 63)| ≤ 2 ^ 11 := by
  have e1 : (2 : ℚ) ^ (64 + j) = 2 ^ 64 * 2 ^ j := pow_add _ _ _
  have e2 : (2 : ℚ) ^ (64 + j) = 2 ^ 63 * 2 ^ (j + 1) := by rw [← pow_add]; congr 1; omega
  refine card_mantissa ?_ ?_
  · rw [div_lt_iff₀ (by positivity)] at g1; rw [e2]; nlinarith
  · rw [le_div_iff₀ (by positivity)] at g2; rw [e1]; nlinarith

private theorem law_arith {t : ℚ} {j c : ℕ} (hj : j < 64) (g1 : 1 / 2 ^ (j + 1) < t) (hcerr : |(c : ℚ) - (t * 2 ^ (64 + j) - 2 ^ 63)| ≤ 2 ^ 11) :
    |((2 ^ (63 - j) * 2 ^ 64 + 2 ^ (63 - j) * (2 * c) : ℕ) : ℚ) / 2 ^ 128 - t| ≤ t / 2 ^ 52 := by
  have e2 : (2 : ℚ) ^ (64 + j) = 2 ^ 63 * 2 ^ (j + 1) := by rw [← pow_add]; congr 1; omega
  have e3 : (2 : ℚ) ^ (63 - j) * 2 ^ (64 + j) = 2 ^ 127 := by rw [← pow_add]; congr 1; omega
  have hA : (0 : ℚ) < 2 ^ (63 - j) := by positivity
  rw [Nat.cast_add, Nat.cast_mul, Nat.cast_mul, Nat.cast_mul, Nat.cast_pow, Nat.cast_pow, Nat.cast_ofNat]
  rw [div_lt_iff₀ (by positivity)] at g1
  generalize (2 : ℚ) ^ (63 - j) = A at *
  generalize hs : t * 2 ^ (64 + j) = s at *
  have hts : t * 2 ^ 127 = A * s := by rw [← hs, ← e3]; ring
  have hlow : A * 2 ^ 63 ≤ t * 2 ^ 127 := by
    rw [hts]
    refine mul_le_mul_of_nonneg_left ?_ hA.le
    rw [← hs, e2]; nlinarith
  rw [div_sub' (by positivity), abs_div, abs_of_pos (show (0 : ℚ) < 2 ^ 128 by positivity), div_le_div_iff₀ (by positivity) (by positivity)]
  have e4 : A * 2 ^ 64 + A * (2 * c) - 2 ^ 128 * t = 2 * A * (c - (s - 2 ^ 63)) := by
    rw [show (2 : ℚ) ^ 128 * t = 2 * (t * 2 ^ 127) by ring, hts]; ring
  rw [e4, abs_mul, abs_of_pos (by linarith)]
  calc 2 * A * |(c : ℚ) - (s - 2 ^ 63)| * 2 ^ 52 ≤ 2 * A * 2 ^ 11 * 2 ^ 52 := by
        refine mul_le_mul_of_nonneg_right (mul_le_mul_of_nonneg_left hcerr (by linarith)) (by positivity)
    _ = 2 * (A * 2 ^ 63) := by ring
    _ ≤ 2 * (t * 2 ^ 127) := by linarith
    _ = t * 2 ^ 128 := by ring

open Classical in
/-- **C85.** Among the pairs of the first two words those for which the value of `real()` is less than `t` are the fraction `t` of all
pairs, up to a relative error of `2 ^ -52`. -/
theorem C85_uniform (t : ℚ) (h1 : 1 / 2 ^ 64 < t) (h2 : t ≤ 1) :
    |((((Finset.range (2 ^ 64) ×ˢ Finset.range (2 ^ 64)).filter fun p => ∀ ws v rest,
      realWords (p.1 :: p.2 :: ws) = some (v, rest) → v < t).card : ℕ) : ℚ) / 2 ^ 128 - t| ≤ t / 2 ^ 52 := by
  obtain ⟨j, hj, g1, g2⟩ : ∃ j < 64, 1 / 2 ^ (j + 1) < t ∧ t ≤ 1 / 2 ^ j := by
    have hex : ∃ j : ℕ, (1 : ℚ) / 2 ^ (j + 1) < t := ⟨63, h1⟩
    refine ⟨Nat.find hex, ?_, Nat.find_spec hex, ?_⟩
    · have := Nat.find_min' hex (m := 63) h1
      omega
    · rcases Nat.eq_zero_or_pos (Nat.find hex) with h0 | h0
      · rw [h0]; simpa using h2
      · have := Nat.find_min hex (m := Nat.find hex - 1) (by omega)
        rw [show Nat.find hex - 1 + 1 = Nat.find hex by omega] at this
        exact not_lt.1 this
  have hcard := card_split rfl hj g1 g2
  unfold Below at hcard
  obtain ⟨c, hc, hcerr⟩ := mantissa_bound hj g1 g2
  rw [hcard, hc]
  exact law_arith hj g1 hcerr

-- three quarters of all pairs of words give a value below `3 / 4`: the mantissa decides for odd second words
example : realWords [2 ^ 62, 1, 7] = some (3 / 4, [7]) ∧ realWords [2 ^ 62 - 2048, 1] = some (3 / 4 - 1 / 2 ^ 53, []) ∧
    realWords [2 ^ 64 - 1, 2] = some (1 / 2, []) := by decide +kernel

end ICPC.Props
