import Verif.Model.Extremes
import Verif.Spec.Extremes
import Verif.Lemmas.Ideal4
import Verif.Props.RandSeq
import Verif.Props.RealRange

/-!
# C88: the distribution of `Random::maximum` and `Random::minimum`
-/

namespace ICPC.Props

open MeasureTheory Spec

theorem allBelow_eq {N n k : ℕ} (hk : k ≤ N) : allBelow N n k = ((k : ℚ) / N) ^ n := by
  unfold allBelow
  have h1 : (Finset.univ.filter fun t : Fin n → Fin N => ∀ i, (t i : ℕ) < k) =
      Fintype.piFinset fun _ : Fin n => Finset.univ.filter fun x : Fin N => (x : ℕ) < k := by
    ext t
    simp [Fintype.mem_piFinset]
  have h2 : (Finset.univ.filter fun x : Fin N => (x : ℕ) < k).card = k := by
    rw [Fin.card_filter_val_lt]
    omega
  rw [h1, Fintype.card_piFinset_const, h2]
  simp [div_pow]

/-! ### Few numbers -/

theorem maximumLoop_law {lower upper : Int} (hl : I64 lower) (hu : I64 upper) (h : lower < upper) {k : ℕ} (hk : (k : ℤ) ≤ upper - lower) (m : ℕ) :
    ∀ res : Int, expect (maximumLoop lower upper m res) (fun x => if x < lower + k then 1 else 0)
      = if res < lower + k then ((k : ℚ) / ((upper - lower : Int) : ℚ)) ^ m else 0 := by
  induction m with
  | zero => intro res; simp only [maximumLoop, pow_zero]; rfl
  | succ m ih =>
    intro res
    rw [maximumLoop, expect_bind, expect_integer hl hu h]
    simp only [ih]
    by_cases hr : res < lower + k
    · rw [if_pos hr]
      have hs : ∀ x ∈ Finset.Ico lower upper,
          (if max res x < lower + k then ((k : ℚ) / ((upper - lower : Int) : ℚ)) ^ m else 0) =
          if x < lower + k then ((k : ℚ) / ((upper - lower : Int) : ℚ)) ^ m else 0 := by
        intro x _
        simp [hr]
      rw [Finset.sum_congr rfl hs, ← Finset.sum_filter, Finset.sum_const]
      have hf : (Finset.Ico lower upper).filter (fun x => x < lower + k) = Finset.Ico lower (lower + k) := by
        ext x
        simp only [Finset.mem_filter, Finset.mem_Ico]
        omega
      rw [hf, Int.card_Ico]
      simp only [add_sub_cancel_left, Int.toNat_natCast, nsmul_eq_mul]
      rw [pow_succ]
      ring
    · rw [if_neg hr]
      rw [Finset.sum_eq_zero]
      · simp
      · intro x _
        rw [if_neg]
        intro hh
        exact hr (lt_of_le_of_lt (le_max_left _ _) hh)

/-- **C88**: for `n < 5`, `maximum(lower, upper, n)` has the distribution of the largest of `n` independent, uniformly distributed numbers of the
interval. -/
theorem C88_maximum_few (scaled : Nat → Rand Nat) (lower upper n : Int) (hl : I64 lower) (hu : I64 upper) (h : lower < upper) (h1 : 0 < n)
    (h5 : n < 5) (k : ℕ) (hk : (k : ℤ) ≤ upper - lower) :
    expect (maximum scaled lower upper n) (fun x => if x < lower + k then 1 else 0) = allBelow (upper - lower).toNat n.toNat k := by
  unfold maximum
  rw [decide_eq_true h1, judgeAssert_true, Rand.lift_ok, Rand.bind_done_ok, decide_eq_true h, judgeAssert_true, Rand.lift_ok,
    Rand.bind_done_ok, if_pos h5, maximumLoop_law hl hu h hk, allBelow_eq (by omega)]
  have hN : (((upper - lower).toNat : ℕ) : ℚ) = ((upper - lower : Int) : ℚ) := by
    exact_mod_cast Int.toNat_of_nonneg (by omega : 0 ≤ upper - lower)
  by_cases h0 : lower < lower + k
  · rw [if_pos h0, hN]
  · rw [if_neg h0]
    have : k = 0 := by omega
    subst this
    rw [Nat.cast_zero, zero_div, zero_pow (by omega)]

/-- **C88**: for `n < 5`, the distances of `minimum(lower, upper, n)` to the upper end are distributed as those of `maximum` to the lower end. -/
theorem C88_minimum_few (scaled : Nat → Rand Nat) (lower upper n : Int) (hl : I64 lower) (hu : I64 upper) (h : lower < upper)
    (hw : I64 (upper - lower)) (h1 : 0 < n) (h5 : n < 5) (k : ℕ) (hk : (k : ℤ) ≤ upper - lower) :
    expect (minimum scaled lower upper n) (fun x => if upper - k ≤ x then 1 else 0) = allBelow (upper - lower).toNat n.toNat k := by
  have := hl.1; have := hu.2
  unfold minimum
  rw [chk_ok (i64_mk (by omega) (by omega)), Rand.lift_ok, Rand.bind_done_ok, chk_ok hw, Rand.lift_ok, Rand.bind_done_ok, expect_bind]
  have e := C88_maximum_few scaled 0 (upper - lower) n i64_zero hw (by omega) h1 h5 k (by omega)
  rw [sub_zero] at e
  rw [← e]
  refine expect_congr_ok (C16_maximum_partial scaled 0 (upper - lower) n i64_zero hw (by omega) h1 (by omega)) fun m hm => ?_
  rw [chk_ok (i64_mk (by omega) (by omega)), Rand.lift_ok, expect_done_ok]
  by_cases hc : m < 0 + (k : ℤ)
  · rw [if_pos hc, if_pos (by omega)]
  · rw [if_neg hc, if_neg (by omega)]

example : allBelow 2 3 1 = 1 / 8 := by decide +kernel

/-! ### Many numbers -/

section Ideal
open ICPC.Ideal

theorem cast_toNat {z : ℤ} (h : 0 ≤ z) : ((z.toNat : ℕ) : ℝ) = z := by exact_mod_cast Int.toNat_of_nonneg h

theorem clampMaximum_min {lower upper z : Int} (hl : I64 lower) (hu : I64 upper) (h0 : 0 ≤ z) (h1 : z ≤ upper - lower) :
    clampMaximum lower upper z = .ok (min (upper - 1) (lower + z)) := by
  have hl' := hl
  unfold I64 at hl hu
  unfold clampMaximum
  rw [if_pos ⟨h0, by omega⟩]
  have e : toI64 ((z.toNat + toU64 lower) % 2 ^ 64) = lower + z := by
    rw [(toI64_toU64_add hl' (k := z.toNat) (by omega)).2, Int.toNat_of_nonneg h0]
  rw [e]

theorem clampMaximum_eq {lower upper z : Int} (hl : I64 lower) (hu : I64 upper) (h0 : 0 ≤ z) (h1 : z < upper - lower) :
    clampMaximum lower upper z = .ok (lower + z) := by
  rw [clampMaximum_min hl hu h0 h1.le, min_eq_right (by omega)]

theorem pow_root {u : ℝ} (hu : 0 < u) {n : ℤ} (hn : 0 < n) : ((2 : ℝ) ^ (Real.logb 2 u / n)) ^ n.toNat = u := by
  have hn' : ((n.toNat : ℕ) : ℝ) = (n : ℝ) := cast_toNat hn.le
  have h0 : (n : ℝ) ≠ 0 := by exact_mod_cast hn.ne'
  rw [← Real.rpow_natCast, ← Real.rpow_mul (by norm_num), hn', div_mul_cancel₀ _ h0, Real.rpow_logb (by norm_num) (by norm_num) hu]

theorem root_lt_one {u : ℝ} (hu : 0 < u) (h1 : u < 1) {n : ℤ} (hn : 0 < n) : (2 : ℝ) ^ (Real.logb 2 u / n) < 1 := by
  by_contra hc
  have := one_le_pow₀ (not_lt.1 hc) (n := n.toNat)
  rw [pow_root hu hn] at this
  linarith

theorem maximumLarge_run {lower upper n : ℤ} (hl : I64 lower) (hu : I64 upper) (h : lower < upper) (hn : 0 < n) {ω : ℕ → ℝ} (h0 : 0 < ω 0)
    (h1 : ω 0 < 1) : Ideal.maximumLarge lower upper n ω
      = .ok (lower + ⌊((upper - lower : ℤ) : ℝ) * (2 : ℝ) ^ (Real.logb 2 (ω 0) / n)⌋, tail ω) := by
  have hw : ((rangeWidth lower upper : ℕ) : ℝ) = ((upper - lower : ℤ) : ℝ) := by
    rw [rangeWidth_eq hl hu h, cast_toNat (by omega)]
  have hwpos : (0 : ℝ) < ((upper - lower : ℤ) : ℝ) := by exact_mod_cast (by omega : 0 < upper - lower)
  have hr0 : (0 : ℝ) < (2 : ℝ) ^ (Real.logb 2 (ω 0) / n) := Real.rpow_pos_of_pos (by norm_num) _
  have hr1 := root_lt_one h0 h1 hn
  unfold Ideal.maximumLarge
  rw [real_bind, hw, clampMaximum_eq hl hu, lift_ok]
  · exact Int.floor_nonneg.2 (by positivity)
  · rw [Int.floor_lt]
    nlinarith

theorem law_event {w n : ℤ} (hw : 0 < w) (hn : 0 < n) {k : ℕ} {u : ℝ} (hu : 0 < u) :
    ⌊(w : ℝ) * (2 : ℝ) ^ (Real.logb 2 u / n)⌋ < k ↔ u < ((k : ℝ) / w) ^ n.toNat := by
  have hwpos : (0 : ℝ) < w := by exact_mod_cast hw
  have hr0 : (0 : ℝ) ≤ (2 : ℝ) ^ (Real.logb 2 u / n) := (Real.rpow_pos_of_pos (by norm_num) _).le
  have e : u < ((k : ℝ) / w) ^ n.toNat ↔ (2 : ℝ) ^ (Real.logb 2 u / n) < (k : ℝ) / w := by
    conv_lhs => rw [← pow_root hu hn]
    exact pow_lt_pow_iff_left₀ hr0 (by positivity) (by omega)
  rw [e, Int.floor_lt, lt_div_iff₀ hwpos, mul_comm]
  simp

theorem uniform01_lt {c : ℝ} (hc : c ≤ 1) : uniform01 {u | u < c} = ENNReal.ofReal c := by
  have hm : MeasurableSet {u : ℝ | u < c} := measurableSet_Iio
  rw [uniform01, Measure.restrict_apply hm]
  have e : {u | u < c} ∩ Set.Ioo 0 1 = Set.Ioo 0 c := by
    ext u
    simp only [Set.mem_inter_iff, Set.mem_ofPred_eq, Set.mem_Ioo]
    constructor
    · rintro ⟨a, b, _⟩; exact ⟨b, a⟩
    · rintro ⟨a, b⟩; exact ⟨b, a, by linarith⟩
  rw [e, Real.volume_Ioo, sub_zero]

theorem allBelow_real {w n : ℤ} (hw : 0 < w) {k : ℕ} (hk : (k : ℤ) ≤ w) :
    ((allBelow w.toNat n.toNat k : ℚ) : ℝ) = ((k : ℝ) / w) ^ n.toNat := by
  rw [allBelow_eq (by omega)]
  rw [← cast_toNat hw.le]
  push_cast
  rfl

theorem frac_le_one {w n : ℤ} (hw : 0 < w) {k : ℕ} (hk : (k : ℤ) ≤ w) : ((k : ℝ) / w) ^ n.toNat ≤ 1 := by
  have hwpos : (0 : ℝ) < w := by exact_mod_cast hw
  refine pow_le_one₀ (by positivity) ((div_le_one hwpos).2 ?_)
  exact_mod_cast hk

/-- **C88**: also for `n ≥ 5`, where a single random real number is drawn, `maximum(lower, upper, n)` has the distribution of the largest of `n`
independent, uniformly distributed numbers of the interval.  (Partial: exact arithmetic, `real()` uniform.) -/
theorem C88_maximum_many_partial (lower upper n : ℤ) (hl : I64 lower) (hu : I64 upper) (h : lower < upper) (hn : 0 < n) (k : ℕ)
    (hk : (k : ℤ) ≤ upper - lower) :
    probIn (fun _ => Ideal.maximumLarge lower upper n) {x | x < lower + k}
      = ENNReal.ofReal (allBelow (upper - lower).toNat n.toNat k : ℚ) := by
  have hw : 0 < upper - lower := by omega
  have hm : MeasurableSet {u : ℝ | u < ((k : ℝ) / ((upper - lower : ℤ) : ℝ)) ^ n.toNat} := measurableSet_Iio
  rw [probIn_const, allBelow_real hw hk, ← uniform01_lt (frac_le_one hw hk), ← splits_one.first hm]
  refine measure_congr_good fun ω h0 h1 => ?_
  rw [ends_ok (maximumLarge_run hl hu h hn h0 h1)]
  have := law_event (w := upper - lower) (n := n) hw hn (k := k) h0
  simp only [Set.mem_ofPred_eq] at this ⊢
  rw [← this]
  omega

/-- **C88**: the distances of `minimum(lower, upper, n)` to the upper end are distributed as those of `maximum` to the lower end.  (Partial: exact
arithmetic, `real()` uniform; the width of the interval is representable.) -/
theorem C88_minimum_many_partial (lower upper n : ℤ) (hl : I64 lower) (hu : I64 upper) (h : lower < upper) (hn : 0 < n)
    (hw : I64 (upper - lower)) (k : ℕ) (hk : (k : ℤ) ≤ upper - lower) :
    probIn (fun _ => Ideal.minimumLarge lower upper n) {x | upper - k ≤ x}
      = ENNReal.ofReal (allBelow (upper - lower).toNat n.toNat k : ℚ) := by
  have hw0 : 0 < upper - lower := by omega
  have e := C88_maximum_many_partial 0 (upper - lower) n i64_zero hw hw0 hn k (by omega)
  rw [sub_zero] at e
  rw [← e, probIn_const, probIn_const]
  refine measure_congr_good fun ω h0 h1 => ?_
  have hr := maximumLarge_run i64_zero hw hw0 hn h0 h1
  rw [sub_zero, zero_add] at hr
  rw [ends_ok hr]
  have hpos : 0 ≤ ⌊((upper - lower : ℤ) : ℝ) * (2 : ℝ) ^ (Real.logb 2 (ω 0) / n)⌋ :=
    Int.floor_nonneg.2 (mul_nonneg (by exact_mod_cast hw0.le) (Real.rpow_pos_of_pos (by norm_num) _).le)
  have hlt : ⌊((upper - lower : ℤ) : ℝ) * (2 : ℝ) ^ (Real.logb 2 (ω 0) / n)⌋ < upper - lower := by
    have := root_lt_one h0 h1 hn
    have hwpos : (0 : ℝ) < ((upper - lower : ℤ) : ℝ) := by exact_mod_cast hw0
    rw [Int.floor_lt]
    nlinarith
  generalize ⌊((upper - lower : ℤ) : ℝ) * (2 : ℝ) ^ (Real.logb 2 (ω 0) / n)⌋ = m at hr hpos hlt ⊢
  unfold I64 at hl hu
  have hrun : Ideal.minimumLarge lower upper n ω = .ok (upper - 1 - m, tail ω) := by
    unfold Ideal.minimumLarge
    rw [chk_ok (i64_mk (by omega) (by omega)), lift_ok_bind, chk_ok hw, lift_ok_bind]
    show Except.bind (Ideal.maximumLarge 0 (upper - lower) n ω) (fun p => lift (chk (upper - 1 - p.1)) p.2) = _
    rw [hr]
    show lift (chk (upper - 1 - m)) (tail ω) = _
    rw [chk_ok (i64_mk (by omega) (by omega)), lift_ok]
  rw [ends_ok hrun]
  simp only [Set.mem_ofPred_eq]
  omega

end Ideal

/-! ### Rounding -/

section Float
open ICPC.Fp ICPC.Spec.Fp

theorem round_of_rep {F : Format} {w : ℚ} (h : Rep F w) : Fp.round F w = .fin w := by
  unfold Fp.round
  rw [roundMag_rep h, if_pos (rep_lt h)]
  by_cases hw : w < 0
  · rw [if_pos hw, abs_of_neg hw, neg_neg]
  · rw [if_neg hw, abs_of_nonneg (not_lt.1 hw)]

theorem rep_nat (F : Format) (hp : 64 ≤ F.p) (he0 : F.emin ≤ 0) (he1 : 0 ≤ F.emax) (w : ℕ) (hlt : (w : ℤ) < 2 ^ 64) : Rep F (w : ℚ) := by
    refine ⟨w, 0, ?_, he0, he1, by simp⟩
    have : (2 : ℤ) ^ 64 ≤ 2 ^ F.p := pow_le_pow_right₀ (by norm_num) hp
    rw [abs_of_nonneg (Int.natCast_nonneg _)]
    exact lt_of_lt_of_le hlt this
theorem rangeWidth_lt (lower upper : ℤ) (hl : I64 lower) (hu : I64 upper) (h : lower < upper) : (rangeWidth lower upper : ℤ) < 2 ^ 64 := by
  have hw := rangeWidth_eq hl hu h
  have hI := hl; have hI' := hu
  unfold I64 at hI hI'
  omega

theorem maximumLarge_eq {F : Format} {lower upper : ℤ} {w : ℕ} (hw : rangeWidth lower upper = w) (hrep : Rep F (w : ℚ)) {e : ℚ} (h0 : 0 ≤ e)
    (h1 : e ≤ 1) : ∃ z : ℤ, 0 ≤ z ∧ z ≤ w ∧ Fp.maximumLarge F lower upper (.fin e) = clampMaximum lower upper z := by
  have hq0 : (0 : ℚ) ≤ w := Nat.cast_nonneg w
  have habs : |(w : ℚ) * e| ≤ |(w : ℚ)| := by
    rw [abs_of_nonneg (mul_nonneg hq0 h0), abs_of_nonneg hq0]
    nlinarith
  obtain ⟨q, hq⟩ := round_fin hrep habs
  have hqle := round_abs_le hq hrep habs
  have hqn := round_nonneg hq (mul_nonneg hq0 h0)
  rw [abs_of_nonneg hqn, abs_of_nonneg hq0] at hqle
  refine ⟨⌊q⌋, Int.floor_nonneg.2 hqn, ?_, ?_⟩
  · rw [← Int.floor_natCast (R := ℚ) w]
    exact Int.floor_le_floor hqle
  · unfold Fp.maximumLarge
    have ht : truncate (mul F (Fp.round F (rangeWidth lower upper)) (.fin e)) = some ⌊q⌋ := by
      rw [hw, round_of_rep hrep, mul, hq, truncate, if_neg (not_lt.2 hqn)]
    rw [ht, Option.elim_some]

/-- **C88**: with a floating point format of at least 64 digits, as that of `long double` on x86, the result for `n ≥ 5` is in the interval, for
every value between 0 and 1 that the power may have. -/
theorem C88_range (F : Format) (hp : 64 ≤ F.p) (he0 : F.emin ≤ 0) (he1 : 0 ≤ F.emax) (lower upper : ℤ) (hl : I64 lower) (hu : I64 upper)
    (h : lower < upper) (e : ℚ) (h0 : 0 ≤ e) (h1 : e ≤ 1) :
    ∃ r, Fp.maximumLarge F lower upper (.fin e) = .ok r ∧ lower ≤ r ∧ r < upper := by
  obtain ⟨z, hz0, hz1, hz⟩ := maximumLarge_eq rfl (rep_nat F hp he0 he1 _ (rangeWidth_lt lower upper hl hu h)) h0 h1
  rw [rangeWidth_eq hl hu h, Int.toNat_of_nonneg (by omega)] at hz1
  exact ⟨min (upper - 1) (lower + z), hz.trans (clampMaximum_min hl hu hz0 hz1), by omega, by omega⟩

theorem rep_two_pow {F : Format} {k : ℕ} (h0 : F.emin ≤ k) (h1 : (k : ℤ) ≤ F.emax) : Rep F ((2 : ℚ) ^ k) :=
  ⟨1, k, by rw [abs_one]; exact one_lt_pow₀ (by norm_num) (by have := F.one_le_p; omega), h0, h1, by simp⟩

theorem round_pred {F : Format} {k : ℕ} (hp : F.p + 2 ≤ k) (h0 : F.emin ≤ k) (h1 : (k : ℤ) ≤ F.emax) : Fp.round F ((2 : ℚ) ^ k - 1) = .fin (2 ^ k) := by
  refine round_close (rep_two_pow h0 h1) ?_
  have e : unit F * |(2 : ℚ) ^ k| / 2 = 2 ^ (k - F.p - 1) := by
    unfold unit
    rw [abs_of_nonneg (by positivity), zpow_neg, zpow_natCast]
    have : (2 : ℚ) ^ k = 2 ^ (k - F.p - 1) * 2 * 2 ^ F.p := by rw [← pow_succ, ← pow_add]; congr 1; omega
    rw [this]
    field_simp
  rw [e, sub_sub_cancel_left, abs_neg, abs_one]
  exact one_lt_pow₀ (by norm_num) (by omega)

theorem maximumLarge_pred {F : Format} {k : ℕ} (hp : F.p + 2 ≤ k) (h0 : F.emin ≤ k) (h1 : (k : ℤ) ≤ F.emax) {lower upper : ℤ}
    (hw : rangeWidth lower upper = 2 ^ k - 1) : Fp.maximumLarge F lower upper (.fin 1) = clampMaximum lower upper (2 ^ k) := by
  have hc : ((rangeWidth lower upper : ℕ) : ℚ) = 2 ^ k - 1 := by
    rw [hw, Nat.cast_sub (Nat.one_le_two_pow)]
    simp
  have hf : ⌊(2 : ℚ) ^ k⌋ = 2 ^ k := by
    rw [show ((2 : ℚ) ^ k) = (((2 ^ k : ℤ)) : ℚ) by simp, Int.floor_intCast]
  have ht : truncate (mul F (Fp.round F (rangeWidth lower upper)) (.fin 1)) = some (2 ^ k) := by
    rw [hc, round_pred hp h0 h1, mul, mul_one, round_of_rep (rep_two_pow h0 h1), truncate, if_neg (not_lt.2 (by positivity)), hf]
  unfold Fp.maximumLarge
  rw [ht, Option.elim_some]

/-- **C88**: with a format of at most 61 digits, as that of `long double` with some compilers (53 digits), the result may be far outside of the
interval, and the cast may be undefined; the power is 1 if `real()` is. -/
theorem C88_range_refuted (F : Format) (hp : F.p ≤ 61) (h0 : F.emin ≤ 63) (h1 : 64 ≤ F.emax) :
    Fp.maximumLarge F 0 (2 ^ 63 - 1) (.fin 1) = .ok (-2 ^ 63) ∧
    Fp.maximumLarge F (-2 ^ 63) (2 ^ 63 - 1) (.fin 1) = .error .ub := by
  constructor
  · rw [maximumLarge_pred (k := 63) (by omega) (by exact_mod_cast h0) (by omega) (by decide +kernel)]
    decide +kernel
  · rw [maximumLarge_pred (k := 64) (by omega) (by omega) (by exact_mod_cast h1) (by decide +kernel)]
    decide +kernel

/-- A format with the digits of x86. -/
example : Fp.maximumLarge ⟨64, -64, 64, by norm_num, by norm_num⟩ 0 (2 ^ 63 - 1) (.fin 1) = .ok (2 ^ 63 - 2) := by decide +kernel
example : Fp.maximumLarge ⟨64, -64, 64, by norm_num, by norm_num⟩ (-2 ^ 63) (2 ^ 63 - 1) (.fin (3 / 4)) = .ok (2 ^ 62 - 1) := by decide +kernel
example : Fp.maximumLarge ⟨53, -64, 64, by norm_num, by norm_num⟩ 0 (2 ^ 63 - 1) (.fin 1) = .ok (-2 ^ 63) := by decide +kernel

end Float

end ICPC.Props
