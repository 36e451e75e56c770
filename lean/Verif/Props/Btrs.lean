import Verif.Lemmas.Btrs3

/-!
# C73: the binomial distribution by rejection
-/

namespace ICPC.Props

open MeasureTheory Spec _root_.ICPC.Ideal

theorem min_half (p : ℝ) : min p (1 - p) ≤ 1 / 2 := by
  rcases le_total p (1 / 2) with h | h
  · exact (min_le_left _ _).trans h
  · exact (min_le_right _ _).trans (by linarith)

/-- **C73**: for `0 < p < 1` and `min(p, 1 - p) * n ≥ 10`, `binomial(n, p)` is the number of successes in `n` trials of probability `p`, up to a
factor that is the probability that the run is not undefined: if the hat and the squeeze hold for the numbers at hand.
(Partial: exact arithmetic; and that the hat and the squeeze hold for all `n` and `p` is a numerical fact that is not proved here, but
for one case below.) -/
theorem C73_btrs_partial {n : ℕ} (hn : n + 1 < 2 ^ 63) {p : ℝ} (hp : 0 < p) (hp1 : p < 1) (hs : 10 ≤ min p (1 - p) * n)
    (hat : BtrsHat n (min p (1 - p))) (squeeze : BtrsSqueeze n (min p (1 - p))) {k : ℕ} (hk : k ≤ n) :
    probIn (fun f => binomial f n p) {(k : ℤ)} =
      ENNReal.ofReal (n.choose k * p ^ k * (1 - p) ^ (n - k)) * (1 - probUndefined fun f => binomial f n p) := by
  have hm : 0 < min p (1 - p) := lt_min hp (by linarith)
  have hm2 := min_half p
  have hI : I64 ((n : ℤ) + 1) := by unfold I64; omega
  have hn1 : 1 ≤ n := by
    rcases Nat.eq_zero_or_pos n with rfl | h
    · norm_num at hs
    · exact h
  have hC : 0 < 1 / (btrsAlpha n (min p (1 - p)) * binomialWeight n (min p (1 - p)) (binomialMode n (min p (1 - p)))) := by
    have h1 := alpha_pos hm2 hs
    have h2 := weight_pos hm (by linarith) (mode_le hn1 hm2)
    positivity
  have law := fun sw (j : ℕ) (hj : j ≤ n) => btrs_law (sw := sw) hI (binomialWeight n (min p (1 - p))) (weight_nonneg hm (by linarith))
    (weight_sum n _) hC (fun k hk => btrs_hit_measure hI hm hm2 hs hat squeeze hk) hj
  have hu : (probUndefined fun f => binomial f n p) = independentUniforms (⋃ f, {ω | btrsLoop n (@decide (p > 1 / 2) (Classical.propDecidable _))
      (min p (1 - p)) (1 - min p (1 - p)) √(n * min p (1 - p) * (1 - min p (1 - p))) (btrsA n (min p (1 - p))) (btrsB n (min p (1 - p)))
      (n * min p (1 - p) + 1 / 2) (btrsV n (min p (1 - p))) f ω = .error .ub}) := by
    unfold probUndefined
    congr 1
    ext ω
    simp only [Set.mem_iUnion, Set.mem_ofPred_eq, binomial_large hp hp1 hs]
  rw [hu, probIn_eq]
  by_cases h2 : p > 1 / 2
  · have hmin : min p (1 - p) = 1 - p := min_eq_right (by linarith)
    have e : n.choose k * p ^ k * (1 - p) ^ (n - k) = binomialWeight n (min p (1 - p)) (n - k) := by
      unfold binomialWeight
      rw [hmin, Nat.choose_symm hk, Nat.sub_sub_self hk]
      ring
    rw [e, @decide_eq_true _ (Classical.propDecidable _) h2, ← law true (n - k) (by omega)]
    congr 1
    refine Set.iUnion_congr fun f => ?_
    ext ω
    rw [ends_congr (binomial_large hp hp1 hs f ω), @decide_eq_true _ (Classical.propDecidable _) h2,
      show outcome n true ((n - k : ℕ) : ℤ) = k by simp only [outcome, if_true]; omega]
  · have hmin : min p (1 - p) = p := min_eq_left (by linarith)
    have e : n.choose k * p ^ k * (1 - p) ^ (n - k) = binomialWeight n (min p (1 - p)) k := by
      unfold binomialWeight
      rw [hmin]
    rw [e, @decide_eq_false _ (Classical.propDecidable _) h2, ← law false k hk]
    congr 1
    refine Set.iUnion_congr fun f => ?_
    ext ω
    rw [ends_congr (binomial_large hp hp1 hs f ω), @decide_eq_false _ (Classical.propDecidable _) h2,
      show outcome n false (k : ℤ) = k by simp [outcome]]

/-- The constants are of the order of the standard deviation. -/
theorem btrs_sizes {n : ℕ} {p : ℝ} (hp : 0 < p) (hp2 : p ≤ 1 / 2) (hnp : 10 ≤ p * n) :
    2 * btrsA n p * btrsAlpha n p ≤ n / 4 ∧ (n * p + 1 / 2) + btrsB n p / 2 ≤ n := by
  have hs := spq_ge hp2 hnp
  have hn : (20 : ℝ) ≤ n := by nlinarith
  have hq : 0 ≤ 1 - p := by linarith
  have hsq : √(n * p * (1 - p)) ^ 2 = n * p * (1 - p) := Real.sq_sqrt (by positivity)
  have hs4 : √(n * p * (1 - p)) ^ 2 ≤ n / 4 := by
    rw [hsq]
    nlinarith [sq_nonneg (1 - 2 * p)]
  unfold btrsA btrsAlpha btrsB
  generalize √(n * p * (1 - p)) = s at *
  norm_num at hs ⊢
  have hb : 0 < 23 / 20 + 253 / 100 * s := by linarith
  have h1 : 51 / 10 / (23 / 20 + 253 / 100 * s) * s ≤ 2.02 := by
    rw [div_mul_eq_mul_div, div_le_iff₀ hb]
    norm_num
    linarith
  constructor
  · have h2 : -(873 / 10000) + 31 / 1250 * (23 / 20 + 253 / 100 * s) + 1 / 100 * p ≤ 0.063 * s := by norm_num; linarith
    have h3 : (283 / 100 + 51 / 10 / (23 / 20 + 253 / 100 * s)) * s ≤ 3.75 * s := by norm_num at h1 ⊢; linarith
    have h4 : 0 ≤ (283 / 100 + 51 / 10 / (23 / 20 + 253 / 100 * s)) * s := by
      have : 0 < s := by linarith
      positivity
    have h5 : 0 ≤ 0.063 * s := by norm_num; linarith
    calc 2 * (-(873 / 10000) + 31 / 1250 * (23 / 20 + 253 / 100 * s) + 1 / 100 * p) * ((283 / 100 + 51 / 10 / (23 / 20 + 253 / 100 * s)) * s)
        = 2 * ((-(873 / 10000) + 31 / 1250 * (23 / 20 + 253 / 100 * s) + 1 / 100 * p) * ((283 / 100 + 51 / 10 / (23 / 20 + 253 / 100 * s)) * s)) := by ring
      _ ≤ 2 * ((0.063 * s) * (3.75 * s)) := by
        refine mul_le_mul_of_nonneg_left (mul_le_mul h2 h3 h4 h5) (by norm_num)
      _ ≤ n / 4 := by norm_num; nlinarith
  · nlinarith

/-- **C73**: under the same hypotheses, the run is undefined with a probability of at most `n / 2 ^ 63`. -/
theorem C73_btrs_undefined_partial {n : ℕ} (hn : n ≤ 2 ^ 62) {p : ℝ} (hp : 0 < p) (hp1 : p < 1) (hs : 10 ≤ min p (1 - p) * n)
    (hat : BtrsHat n (min p (1 - p))) (squeeze : BtrsSqueeze n (min p (1 - p))) :
    (probUndefined fun f => binomial f n p) ≤ ENNReal.ofReal (n / 2 ^ 63) := by
  have hm : 0 < min p (1 - p) := lt_min hp (by linarith)
  have hm2 := min_half p
  have hI : I64 ((n : ℤ) + 1) := by unfold I64; omega
  have hn1 : 1 ≤ n := by
    rcases Nat.eq_zero_or_pos n with rfl | h
    · norm_num at hs
    · exact h
  have hu : (probUndefined fun f => binomial f n p) = independentUniforms (⋃ f, {ω | btrsLoop n (@decide (p > 1 / 2) (Classical.propDecidable _))
      (min p (1 - p)) (1 - min p (1 - p)) √(n * min p (1 - p) * (1 - min p (1 - p))) (btrsA n (min p (1 - p))) (btrsB n (min p (1 - p)))
      (n * min p (1 - p) + 1 / 2) (btrsV n (min p (1 - p))) f ω = .error .ub}) := by
    unfold probUndefined
    congr 1
    ext ω
    simp only [Set.mem_iUnion, Set.mem_ofPred_eq, binomial_large hp hp1 hs]
  rw [hu]
  clear hu
  generalize min p (1 - p) = r at *
  have h1 := alpha_pos hm2 hs
  have h2 := weight_pos hm (by linarith) (mode_le hn1 hm2)
  have hw1 : binomialWeight n r (binomialMode n r) ≤ 1 := by
    rw [← weight_sum n r]
    exact Finset.single_le_sum (fun k _ => weight_nonneg hm (by linarith) k) (Finset.mem_range.2 (by have := mode_le hn1 hm2; omega))
  have hC : 0 < 1 / (btrsAlpha n r * binomialWeight n r (binomialMode n r)) := by positivity
  have ha := a_pos hm hm2 hs
  have hb : 0 < btrsB n r := by have := b_ge hm2 hs; norm_num at this; linarith
  have hsz := btrs_sizes hm hm2 hs
  have hn' : (n : ℝ) ≤ 2 ^ 62 := by exact_mod_cast hn
  have hL : (2 : ℝ) ^ 62 ≤ 2 ^ 63 - (n * r + 1 / 2) - btrsB n r / 2 := by
    have h3 := hsz.2
    rw [show (2 : ℝ) ^ 63 = 2 ^ 62 + 2 ^ 62 by norm_num]
    linarith
  refine (btrs_undefined_le hI (binomialWeight n r) (weight_nonneg hm (by linarith)) (weight_sum n _) hC
    (fun k hk => btrs_hit_measure hI hm hm2 hs hat squeeze hk)).trans ?_
  refine (ENNReal.div_le_div_right (unfit_le ha hb.le (by positivity) (L := 2 ^ 62) (by positivity) hL) _).trans ?_
  rw [← ENNReal.ofReal_div_of_pos hC]
  refine ENNReal.ofReal_le_ofReal ?_
  rw [div_div_eq_mul_div, div_one]
  have hp62 : (2 : ℝ) ^ 63 = 2 ^ 62 * 2 := by norm_num
  have hpos : (0 : ℝ) < 2 ^ 62 := by positivity
  rw [hp62]
  generalize (2 : ℝ) ^ 62 = P at hpos
  have h3 : btrsAlpha n r * binomialWeight n r (binomialMode n r) ≤ btrsAlpha n r := by
    calc _ ≤ btrsAlpha n r * 1 := mul_le_mul_of_nonneg_left hw1 h1.le
      _ = _ := mul_one _
  calc 2 * btrsA n r / P * (btrsAlpha n r * binomialWeight n r (binomialMode n r)) ≤ 2 * btrsA n r / P * btrsAlpha n r :=
        mul_le_mul_of_nonneg_left h3 (by positivity)
    _ = 2 * btrsA n r * btrsAlpha n r / P := by ring
    _ ≤ (n / 4) / P := div_le_div_of_nonneg_right hsz.1 hpos.le
    _ ≤ n / (P * 2) := by
      rw [div_div]
      exact div_le_div_of_nonneg_left (Nat.cast_nonneg n) (by positivity) (by linarith)

/-! ## The hypotheses hold for `n = 20` and `p = 1 / 2` -/

theorem sqrt_five : 2.236 ≤ √(5 : ℝ) ∧ √(5 : ℝ) ≤ 2.2361 := by
  constructor
  · exact Real.le_sqrt_of_sq_le (by norm_num)
  · exact Real.sqrt_le_iff.2 ⟨by norm_num, by norm_num⟩

theorem spq_twenty : √(((20 : ℕ) : ℝ) * (1 / 2) * (1 - 1 / 2)) = √5 := by norm_num

theorem b_twenty : 6.807 ≤ btrsB 20 (1 / 2) ∧ btrsB 20 (1 / 2) ≤ 6.80734 := by
  have h := sqrt_five
  unfold btrsB
  rw [spq_twenty]
  norm_num at *
  constructor <;> linarith

theorem a_twenty : 0.08651 ≤ btrsA 20 (1 / 2) ∧ btrsA 20 (1 / 2) ≤ 0.08653 := by
  have h := b_twenty
  unfold btrsA
  norm_num at *
  constructor <;> linarith

theorem alpha_twenty : 8.003 ≤ btrsAlpha 20 (1 / 2) ∧ btrsAlpha 20 (1 / 2) ≤ 8.0036 := by
  have h := sqrt_five
  have hb := b_twenty
  have hb0 : 0 < btrsB 20 (1 / 2) := by norm_num at *; linarith
  unfold btrsAlpha
  rw [spq_twenty]
  have h1 : 0.74919 ≤ 5.1 / btrsB 20 (1 / 2) := by rw [le_div_iff₀ hb0]; norm_num at *; linarith
  have h2 : 5.1 / btrsB 20 (1 / 2) ≤ 0.74923 := by rw [div_le_iff₀ hb0]; norm_num at *; linarith
  generalize 5.1 / btrsB 20 (1 / 2) = y at h1 h2
  generalize √(5 : ℝ) = s at h
  norm_num at *
  constructor <;> nlinarith

theorem v_twenty : 0 ≤ btrsV 20 (1 / 2) ∧ btrsV 20 (1 / 2) ≤ 0.3031 := by
  have hb := b_twenty
  have hb0 : 0 < btrsB 20 (1 / 2) := by norm_num at *; linarith
  unfold btrsV
  have h1 : 0.6169 ≤ 4.2 / btrsB 20 (1 / 2) := by rw [le_div_iff₀ hb0]; norm_num at *; linarith
  have h2 : 4.2 / btrsB 20 (1 / 2) ≤ 0.62 := by rw [div_le_iff₀ hb0]; norm_num at *; linarith
  norm_num at *
  constructor <;> linarith

theorem mode_twenty : binomialMode 20 (1 / 2) = 10 := by
  unfold binomialMode
  rw [Nat.floor_eq_iff (by norm_num)]
  norm_num

theorem weight_twenty {k : ℕ} (hk : k ≤ 20) : binomialWeight 20 (1 / 2) k = Nat.choose 20 k * (1 / 2) ^ 20 := by
  unfold binomialWeight
  rw [show (1 : ℝ) - 1 / 2 = 1 / 2 by norm_num, mul_assoc, ← pow_add, Nat.add_sub_cancel' hk]

/-- The distance of the transformed number from the middle. -/
noncomputable def spread (x : ℝ) : ℝ := btrsA 20 (1 / 2) / border x - 2 * btrsA 20 (1 / 2) + btrsB 20 (1 / 2) * (1 / 2 - border x)

theorem map_spread {x : ℝ} (h0 : 0 < x) (h1 : x < 1) : |btrsMap 20 (1 / 2) x - 10.5| = spread x ∧ 0 < border x ∧ border x ≤ 1 / 2 := by
  have hu : border x = us x := rfl
  have hu0 := us_pos h0 h1
  have ha : 0 < btrsA 20 (1 / 2) := by have := a_twenty; norm_num at *; linarith
  have hb : 0 < btrsB 20 (1 / 2) := by have := b_twenty; norm_num at *; linarith
  have hu2 : us x ≤ 1 / 2 := by
    unfold us
    linarith [abs_nonneg (x - 1 / 2)]
  refine ⟨?_, hu ▸ hu0, hu ▸ hu2⟩
  have e : btrsMap 20 (1 / 2) x = shape (btrsA 20 (1 / 2)) (btrsB 20 (1 / 2)) 10.5 x := by
    unfold btrsMap shape border us
    norm_num
  have hn : 0 ≤ spread x := by
    unfold spread
    rw [hu]
    have h2 : 2 * btrsA 20 (1 / 2) ≤ btrsA 20 (1 / 2) / us x := by
      rw [le_div_iff₀ hu0]
      nlinarith
    have h3 : 0 ≤ btrsB 20 (1 / 2) * (1 / 2 - us x) := mul_nonneg hb.le (by linarith)
    linarith
  rcases le_total x (1 / 2) with h | h
  · have e2 : btrsMap 20 (1 / 2) x - 10.5 = -spread x := by
      rw [e, shape_left h0 h]
      unfold spread
      rw [hu, us_left h]
      ring
    rw [e2, abs_neg, abs_of_nonneg hn]
  · have e2 : btrsMap 20 (1 / 2) x - 10.5 = spread x := by
      rw [e, shape_right h h1]
      unfold spread
      rw [hu, us_right h]
      ring
    rw [e2, abs_of_nonneg hn]

theorem hat_case {x t r w : ℝ} (hx : spread x ≤ t) (hu : 0 < border x) (hr : 0 < r) (hr2 : r ≤ 1 / 2) (hw : 0 ≤ w)
    (h1 : t < 0.08651 * (1 / r - 2) + 6.807 * (1 / 2 - r)) (h2 : w * (0.08653 / r ^ 2 + 6.80734) ≤ 8.003 * 184756) :
    w * (1 / 2) ^ 20 * btrsDeriv 20 (1 / 2) x ≤ btrsAlpha 20 (1 / 2) * (184756 * (1 / 2) ^ 20) := by
  obtain ⟨a1, a2⟩ := a_twenty
  obtain ⟨b1, b2⟩ := b_twenty
  have al := alpha_twenty.1
  have ha : 0 < btrsA 20 (1 / 2) := by norm_num at *; linarith
  have hb : 0 < btrsB 20 (1 / 2) := by norm_num at *; linarith
  unfold spread at hx
  unfold btrsDeriv
  generalize btrsA 20 (1 / 2) = a at *
  generalize btrsB 20 (1 / 2) = b at *
  generalize btrsAlpha 20 (1 / 2) = α at *
  generalize border x = u at *
  have hlt : r < u := by
    by_contra h
    have h := not_lt.1 h
    have h3 : a / r ≤ a / u := div_le_div_of_nonneg_left ha.le hu h
    have h4 : b * (1 / 2 - r) ≤ b * (1 / 2 - u) := mul_le_mul_of_nonneg_left (by linarith) hb.le
    have h5 : 0.08651 * (1 / r - 2) ≤ a * (1 / r - 2) := by
      refine mul_le_mul_of_nonneg_right a1 ?_
      rw [sub_nonneg, le_div_iff₀ hr]
      linarith
    have h6 : 6.807 * (1 / 2 - r) ≤ b * (1 / 2 - r) := mul_le_mul_of_nonneg_right b1 (by linarith)
    have h7 : a * (1 / r - 2) = a / r - 2 * a := by ring
    linarith
  have h3 : a / u ^ 2 ≤ 0.08653 / r ^ 2 := by
    calc a / u ^ 2 ≤ a / r ^ 2 := div_le_div_of_nonneg_left ha.le (by positivity) (by gcongr)
      _ ≤ _ := div_le_div_of_nonneg_right a2 (by positivity)
  have h4 : w * (a / u ^ 2 + b) ≤ w * (0.08653 / r ^ 2 + 6.80734) := mul_le_mul_of_nonneg_left (by linarith) hw
  have h5 : w * (a / u ^ 2 + b) ≤ α * 184756 := by linarith
  calc w * (1 / 2) ^ 20 * (a / u ^ 2 + b) = w * (a / u ^ 2 + b) * (1 / 2) ^ 20 := by ring
    _ ≤ α * 184756 * (1 / 2) ^ 20 := mul_le_mul_of_nonneg_right h5 (by positivity)
    _ = _ := by ring

theorem squeeze_case {x t s w : ℝ} (hx : t ≤ spread x) (hu : 0.07 ≤ border x) (hs : 0 < s) (hs2 : s ≤ 1 / 2) (hw : 0 ≤ w)
    (h1 : 0.08653 * (1 / s - 2) + 6.80734 * (1 / 2 - s) < t ∨ border x ≤ s) (h2 : s < 0.07 ∨ 0.3031 * 8.0036 * 184756 ≤ w * (0.08651 / s ^ 2 + 6.807)) :
    btrsV 20 (1 / 2) * (btrsAlpha 20 (1 / 2) * (184756 * (1 / 2) ^ 20)) ≤ w * (1 / 2) ^ 20 * btrsDeriv 20 (1 / 2) x := by
  obtain ⟨a1, a2⟩ := a_twenty
  obtain ⟨b1, b2⟩ := b_twenty
  have al := alpha_twenty
  have hv := v_twenty
  have ha : 0 < btrsA 20 (1 / 2) := by norm_num at *; linarith
  have hb : 0 < btrsB 20 (1 / 2) := by norm_num at *; linarith
  unfold spread at hx
  unfold btrsDeriv
  generalize btrsA 20 (1 / 2) = a at *
  generalize btrsB 20 (1 / 2) = b at *
  generalize btrsAlpha 20 (1 / 2) = α at *
  generalize btrsV 20 (1 / 2) = v at *
  generalize border x = u at *
  have hu0 : 0 < u := by norm_num at hu; linarith
  have hle : u ≤ s := by
    rcases h1 with h1 | h1
    · by_contra h
      have h := not_le.1 h
      have h3 : a / u ≤ a / s := div_le_div_of_nonneg_left ha.le hs h.le
      have h4 : b * (1 / 2 - u) ≤ b * (1 / 2 - s) := mul_le_mul_of_nonneg_left (by linarith) hb.le
      have h5 : a * (1 / s - 2) ≤ 0.08653 * (1 / s - 2) := by
        refine mul_le_mul_of_nonneg_right a2 ?_
        rw [sub_nonneg, le_div_iff₀ hs]
        linarith
      have h6 : b * (1 / 2 - s) ≤ 6.80734 * (1 / 2 - s) := mul_le_mul_of_nonneg_right b2 (by linarith)
      have h7 : a * (1 / s - 2) = a / s - 2 * a := by ring
      linarith
    · exact h1
  have h2 := h2.resolve_left (by linarith)
  have h3 : 0.08651 / s ^ 2 ≤ a / u ^ 2 := by
    calc (0.08651 : ℝ) / s ^ 2 ≤ a / s ^ 2 := div_le_div_of_nonneg_right a1 (by positivity)
      _ ≤ _ := div_le_div_of_nonneg_left ha.le (by positivity) (by gcongr)
  have h4 : w * (0.08651 / s ^ 2 + 6.807) ≤ w * (a / u ^ 2 + b) := mul_le_mul_of_nonneg_left (by linarith) hw
  have h5 : v * α ≤ 0.3031 * 8.0036 := mul_le_mul hv.2 al.2 (by have := al.1; norm_num at this; linarith) (by norm_num)
  have h6 : v * α * 184756 ≤ 0.3031 * 8.0036 * 184756 := mul_le_mul_of_nonneg_right h5 (by norm_num)
  calc v * (α * (184756 * (1 / 2) ^ 20)) = v * α * 184756 * (1 / 2) ^ 20 := by ring
    _ ≤ w * (a / u ^ 2 + b) * (1 / 2) ^ 20 := mul_le_mul_of_nonneg_right (by linarith) (by positivity)
    _ = _ := by ring

/-- In the cell of `k` the spread is about the distance of `k` from 10. -/
theorem spread_cell {x : ℝ} (h0 : 0 < x) (h1 : x < 1) {k : ℕ} (hf : ⌊btrsMap 20 (1 / 2) x⌋ = k) :
    (|(k : ℝ) - 10| - 1 / 2 ≤ spread x ∧ spread x ≤ |(k : ℝ) - 10| + 1 / 2) := by
  rw [← (map_spread h0 h1).1]
  rw [Int.floor_eq_iff] at hf
  generalize btrsMap 20 (1 / 2) x = y at *
  simp only [Int.cast_natCast] at hf
  have h2 : |y - 10.5 - ((k : ℝ) - 10)| ≤ 1 / 2 := by
    rw [abs_le]
    norm_num
    constructor <;> linarith
  have h3 := abs_sub_abs_le_abs_sub (y - 10.5) ((k : ℝ) - 10)
  have h4 := abs_sub_abs_le_abs_sub ((k : ℝ) - 10) (y - 10.5)
  rw [abs_sub_comm ((k : ℝ) - 10) (y - 10.5)] at h4
  constructor <;> linarith

theorem hat_twenty : BtrsHat 20 (1 / 2) := by
  intro x h0 h1 k hk hf
  obtain ⟨_, hu, _⟩ := map_spread h0 h1
  obtain ⟨_, hs⟩ := spread_cell h0 h1 hf
  rw [mode_twenty, weight_twenty hk, weight_twenty (by norm_num), show ((Nat.choose 20 10 : ℕ) : ℝ) = 184756 by norm_num [Nat.choose]]
  clear hf
  interval_cases k
  · exact hat_case (r := 0.01165) hs hu (by norm_num) (by norm_num) (by norm_num) (by norm_num) (by norm_num [Nat.choose])
  · exact hat_case (r := 0.01346) hs hu (by norm_num) (by norm_num) (by norm_num) (by norm_num) (by norm_num [Nat.choose])
  · exact hat_case (r := 0.01592) hs hu (by norm_num) (by norm_num) (by norm_num) (by norm_num) (by norm_num [Nat.choose])
  · exact hat_case (r := 0.01945) hs hu (by norm_num) (by norm_num) (by norm_num) (by norm_num) (by norm_num [Nat.choose])
  · exact hat_case (r := 0.0248) hs hu (by norm_num) (by norm_num) (by norm_num) (by norm_num) (by norm_num [Nat.choose])
  · exact hat_case (r := 0.0341) hs hu (by norm_num) (by norm_num) (by norm_num) (by norm_num) (by norm_num [Nat.choose])
  · exact hat_case (r := 0.053) hs hu (by norm_num) (by norm_num) (by norm_num) (by norm_num) (by norm_num [Nat.choose])
  · exact hat_case (r := 0.0937) hs hu (by norm_num) (by norm_num) (by norm_num) (by norm_num) (by norm_num [Nat.choose])
  · exact hat_case (r := 0.176) hs hu (by norm_num) (by norm_num) (by norm_num) (by norm_num) (by norm_num [Nat.choose])
  · exact hat_case (r := 0.294) hs hu (by norm_num) (by norm_num) (by norm_num) (by norm_num) (by norm_num [Nat.choose])
  · exact hat_case (r := 0.426) hs hu (by norm_num) (by norm_num) (by norm_num) (by norm_num) (by norm_num [Nat.choose])
  · exact hat_case (r := 0.294) hs hu (by norm_num) (by norm_num) (by norm_num) (by norm_num) (by norm_num [Nat.choose])
  · exact hat_case (r := 0.176) hs hu (by norm_num) (by norm_num) (by norm_num) (by norm_num) (by norm_num [Nat.choose])
  · exact hat_case (r := 0.0937) hs hu (by norm_num) (by norm_num) (by norm_num) (by norm_num) (by norm_num [Nat.choose])
  · exact hat_case (r := 0.053) hs hu (by norm_num) (by norm_num) (by norm_num) (by norm_num) (by norm_num [Nat.choose])
  · exact hat_case (r := 0.0341) hs hu (by norm_num) (by norm_num) (by norm_num) (by norm_num) (by norm_num [Nat.choose])
  · exact hat_case (r := 0.0248) hs hu (by norm_num) (by norm_num) (by norm_num) (by norm_num) (by norm_num [Nat.choose])
  · exact hat_case (r := 0.01945) hs hu (by norm_num) (by norm_num) (by norm_num) (by norm_num) (by norm_num [Nat.choose])
  · exact hat_case (r := 0.01592) hs hu (by norm_num) (by norm_num) (by norm_num) (by norm_num) (by norm_num [Nat.choose])
  · exact hat_case (r := 0.01346) hs hu (by norm_num) (by norm_num) (by norm_num) (by norm_num) (by norm_num [Nat.choose])
  · exact hat_case (r := 0.01165) hs hu (by norm_num) (by norm_num) (by norm_num) (by norm_num) (by norm_num [Nat.choose])

theorem squeeze_twenty : BtrsSqueeze 20 (1 / 2) := by
  intro x h0 h1 hu k hk hf
  obtain ⟨_, _, hu2⟩ := map_spread h0 h1
  obtain ⟨hs, _⟩ := spread_cell h0 h1 hf
  rw [mode_twenty, weight_twenty hk, weight_twenty (by norm_num), show ((Nat.choose 20 10 : ℕ) : ℝ) = 184756 by norm_num [Nat.choose]]
  clear hf
  interval_cases k
  · exact squeeze_case (s := 0.069) hs hu (by norm_num) (by norm_num) (by norm_num) (.inl (by norm_num)) (.inl (by norm_num))
  · exact squeeze_case (s := 0.069) hs hu (by norm_num) (by norm_num) (by norm_num) (.inl (by norm_num)) (.inl (by norm_num))
  · exact squeeze_case (s := 0.069) hs hu (by norm_num) (by norm_num) (by norm_num) (.inl (by norm_num)) (.inl (by norm_num))
  · exact squeeze_case (s := 0.069) hs hu (by norm_num) (by norm_num) (by norm_num) (.inl (by norm_num)) (.inl (by norm_num))
  · exact squeeze_case (s := 0.069) hs hu (by norm_num) (by norm_num) (by norm_num) (.inl (by norm_num)) (.inl (by norm_num))
  · exact squeeze_case (s := 0.069) hs hu (by norm_num) (by norm_num) (by norm_num) (.inl (by norm_num)) (.inl (by norm_num))
  · exact squeeze_case (s := 0.096) hs hu (by norm_num) (by norm_num) (by norm_num) (.inl (by norm_num)) (.inr (by norm_num [Nat.choose]))
  · exact squeeze_case (s := 0.18) hs hu (by norm_num) (by norm_num) (by norm_num) (.inl (by norm_num)) (.inr (by norm_num [Nat.choose]))
  · exact squeeze_case (s := 0.299) hs hu (by norm_num) (by norm_num) (by norm_num) (.inl (by norm_num)) (.inr (by norm_num [Nat.choose]))
  · exact squeeze_case (s := 0.433) hs hu (by norm_num) (by norm_num) (by norm_num) (.inl (by norm_num)) (.inr (by norm_num [Nat.choose]))
  · exact squeeze_case (s := 1 / 2) hs hu (by norm_num) (by norm_num) (by norm_num) (.inr hu2) (.inr (by norm_num [Nat.choose]))
  · exact squeeze_case (s := 0.433) hs hu (by norm_num) (by norm_num) (by norm_num) (.inl (by norm_num)) (.inr (by norm_num [Nat.choose]))
  · exact squeeze_case (s := 0.299) hs hu (by norm_num) (by norm_num) (by norm_num) (.inl (by norm_num)) (.inr (by norm_num [Nat.choose]))
  · exact squeeze_case (s := 0.18) hs hu (by norm_num) (by norm_num) (by norm_num) (.inl (by norm_num)) (.inr (by norm_num [Nat.choose]))
  · exact squeeze_case (s := 0.096) hs hu (by norm_num) (by norm_num) (by norm_num) (.inl (by norm_num)) (.inr (by norm_num [Nat.choose]))
  · exact squeeze_case (s := 0.069) hs hu (by norm_num) (by norm_num) (by norm_num) (.inl (by norm_num)) (.inl (by norm_num))
  · exact squeeze_case (s := 0.069) hs hu (by norm_num) (by norm_num) (by norm_num) (.inl (by norm_num)) (.inl (by norm_num))
  · exact squeeze_case (s := 0.069) hs hu (by norm_num) (by norm_num) (by norm_num) (.inl (by norm_num)) (.inl (by norm_num))
  · exact squeeze_case (s := 0.069) hs hu (by norm_num) (by norm_num) (by norm_num) (.inl (by norm_num)) (.inl (by norm_num))
  · exact squeeze_case (s := 0.069) hs hu (by norm_num) (by norm_num) (by norm_num) (.inl (by norm_num)) (.inl (by norm_num))
  · exact squeeze_case (s := 0.069) hs hu (by norm_num) (by norm_num) (by norm_num) (.inl (by norm_num)) (.inl (by norm_num))

/-- **C73**: `binomial(20, 0.5)` counts the heads of 20 coins, for all 21 results and without hypotheses about the constants. -/
theorem C73_btrs_twenty {k : ℕ} (hk : k ≤ 20) :
    probIn (fun f => binomial f 20 (1 / 2)) {(k : ℤ)} =
      ENNReal.ofReal (Nat.choose 20 k / 2 ^ 20) * (1 - probUndefined fun f => binomial f 20 (1 / 2)) ∧
    (probUndefined fun f => binomial f 20 (1 / 2)) ≤ ENNReal.ofReal (20 / 2 ^ 63) := by
  have hmin : min (1 / 2 : ℝ) (1 - 1 / 2) = 1 / 2 := by norm_num
  have h1 := C73_btrs_partial (n := 20) (by norm_num) (p := 1 / 2) (by norm_num) (by norm_num) (by rw [hmin]; norm_num) (by rw [hmin]; exact hat_twenty)
    (by rw [hmin]; exact squeeze_twenty) hk
  have h2 := C73_btrs_undefined_partial (n := 20) (by norm_num) (p := 1 / 2) (by norm_num) (by norm_num) (by rw [hmin]; norm_num) (by rw [hmin]; exact hat_twenty)
    (by rw [hmin]; exact squeeze_twenty)
  refine ⟨?_, by exact_mod_cast h2⟩
  have e : (Nat.choose 20 k : ℝ) * (1 / 2) ^ k * (1 - 1 / 2) ^ (20 - k) = Nat.choose 20 k / 2 ^ 20 := by
    have := weight_twenty hk
    unfold binomialWeight at this
    rw [this, one_div_pow, mul_one_div]
  rw [e] at h1
  exact h1

end ICPC.Props
