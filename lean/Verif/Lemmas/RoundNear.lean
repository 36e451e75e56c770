import Verif.Lemmas.Float

/-! Rounding to a format yields a nearest number; when it overflows and when it yields zero. -/

namespace ICPC.Fp
open ICPC.Spec.Fp

/-- The nearest integer. -/
theorem rne_near (x : ℚ) (k : ℤ) : |(rne x : ℚ) - x| ≤ |(k : ℚ) - x| := by
  rcases eq_or_ne k (rne x) with rfl | h
  · exact le_rfl
  · have h1 := rne_err x
    have h2 : (1 : ℚ) ≤ |(k : ℚ) - rne x| := by
      have : (1 : ℤ) ≤ |k - rne x| := Int.one_le_abs (sub_ne_zero.2 h)
      exact_mod_cast this
    have h3 := abs_sub_le (k : ℚ) x (rne x)
    rw [abs_sub_comm x] at h3
    linarith

theorem pow_mul_expo (F : Format) (E : ℤ) : ((2 ^ (F.p - 1) : ℤ) : ℚ) * 2 ^ E = 2 ^ (E + F.p - 1) := by
  have hp := F.one_le_p
  rw [show E + F.p - 1 = E + ((F.p - 1 : ℕ) : ℤ) by omega, two_zpow_add]
  push_cast; rw [zpow_natCast]; ring

theorem pow_mul_expo' (F : Format) (E : ℤ) : ((2 ^ F.p : ℤ) : ℚ) * 2 ^ E = 2 ^ (E + F.p) := by
  rw [two_zpow_add]; push_cast; rw [zpow_natCast]; ring

/-- Among the numbers of the format the result of rounding is a nearest one. -/
theorem roundMag_near {F : Format} {a w : ℚ} (ha : 0 ≤ a) (hw : Rep F w) : |roundMag F a - a| ≤ |w - a| := by
  rcases ha.eq_or_lt with rfl | hpos
  · rw [roundMag_zero]; simp
  have hR : ∀ k : ℤ, |roundMag F a - a| ≤ |(k : ℚ) * 2 ^ expo F a - a| := by
    intro k
    have hu := two_zpow_pos (expo F a)
    have e : ∀ r : ℚ, r * 2 ^ expo F a - a = (r - a / 2 ^ expo F a) * 2 ^ expo F a := by
      intro r; field_simp
    unfold roundMag
    rw [e, e, abs_mul, abs_mul]
    exact mul_le_mul_of_nonneg_right (rne_near _ k) (abs_nonneg _)
  obtain ⟨m, hm⟩ := rep_expo hw
  by_cases hE : expo F a ≤ expo F |w|
  · obtain ⟨j, hj⟩ : ∃ j : ℕ, expo F |w| = expo F a + j := ⟨(expo F |w| - expo F a).toNat, by omega⟩
    have : w = ((m * 2 ^ j : ℤ) : ℚ) * 2 ^ expo F a := by
      conv_lhs => rw [hm, hj]
      rw [two_zpow_add, zpow_natCast]; push_cast; ring
    have h := hR (m * 2 ^ j)
    rw [← this] at h
    exact h
  · have h1 : F.emin < expo F a := lt_of_le_of_lt (expo_ge F |w|) (not_le.1 hE)
    have h2 := expo_le F hpos h1
    have h3 := lt_expo F (abs_nonneg w)
    have h4 : |w| ≤ 2 ^ (expo F a + F.p - 1) := h3.le.trans (two_zpow_le (by omega))
    have h5 := hR (2 ^ (F.p - 1))
    rw [pow_mul_expo] at h5
    rw [abs_of_nonpos (by linarith : (2 : ℚ) ^ (expo F a + F.p - 1) - a ≤ 0)] at h5
    refine h5.trans ?_
    have := neg_abs_le (w - a)
    have := le_abs_self w
    linarith

/-- The result of rounding is a number of the format unless it is too large. -/
theorem rep_roundMag {F : Format} {a : ℚ} (ha : 0 ≤ a) (h : roundMag F a < 2 ^ (F.emax + F.p)) : Rep F (roundMag F a) := by
  rcases ha.eq_or_lt with rfl | hpos
  · rw [roundMag_zero]; exact ⟨0, F.emin, by simp, le_rfl, F.emin_le, by simp⟩
  have hlo : 0 ≤ rne (a / 2 ^ expo F a) := by
    have := rne_mono (x := ((0 : ℤ) : ℚ)) (y := a / 2 ^ expo F a) (by push_cast; exact div_nonneg ha (two_zpow_pos _).le)
    rwa [rne_int] at this
  have hhi : rne (a / 2 ^ expo F a) ≤ 2 ^ F.p := by
    have := rne_mono (x := a / 2 ^ expo F a) (y := ((2 ^ F.p : ℤ) : ℚ)) (by
      rw [div_le_iff₀ (two_zpow_pos _), pow_mul_expo']; exact (lt_expo F ha).le)
    rwa [rne_int] at this
  have hE : expo F a ≤ F.emax := by
    by_contra hc
    have hc := not_le.1 hc
    have h1 := expo_le F hpos (lt_of_le_of_lt F.emin_le hc)
    have h2 := roundMag_ge_of (F := F) (a := a) (m := 2 ^ (F.p - 1)) (by rw [pow_mul_expo]; exact h1)
    rw [pow_mul_expo] at h2
    have h3 : (2 : ℚ) ^ (F.emax + F.p) ≤ 2 ^ (expo F a + F.p - 1) := two_zpow_le (by omega)
    linarith
  rcases hhi.eq_or_lt with h2 | h2
  · have e : roundMag F a = 2 ^ (expo F a + F.p) := by
      unfold roundMag; rw [h2, pow_mul_expo']
    rw [e] at h ⊢
    have hlt : expo F a + F.p < F.emax + F.p := (zpow_lt_zpow_iff_right₀ (by norm_num : (1 : ℚ) < 2)).1 h
    have hp := F.one_le_p
    refine ⟨2 ^ (F.p - 1), expo F a + 1, ?_, by have := expo_ge F a; omega, by omega, ?_⟩
    · rw [abs_of_nonneg (by positivity)]
      exact pow_lt_pow_right₀ (by norm_num) (by omega)
    · rw [pow_mul_expo]; congr 1; ring
  · exact ⟨rne (a / 2 ^ expo F a), expo F a, by rwa [abs_of_nonneg hlo], expo_ge F a, hE, rfl⟩

theorem rne_lt_pow {x : ℚ} {n : ℕ} (hn : 1 ≤ n) : rne x < 2 ^ n ↔ x < 2 ^ n - 1 / 2 := by
  constructor
  · intro h
    by_contra hc
    have hc := not_lt.1 hc
    have h1 := rne_mono hc
    have h2 : rne ((2 : ℚ) ^ n - 1 / 2) = 2 ^ n := by
      have hf : ⌊(2 : ℚ) ^ n - 1 / 2⌋ = 2 ^ n - 1 := by
        rw [Int.floor_eq_iff]; push_cast; constructor <;> linarith
      have hfr : Int.fract ((2 : ℚ) ^ n - 1 / 2) = 1 / 2 := by
        unfold Int.fract; rw [hf]; push_cast; ring
      unfold rne
      rw [hfr, hf, if_neg (lt_irrefl _), if_neg (lt_irrefl _), if_neg]
      · ring
      · obtain ⟨k, rfl⟩ : ∃ k, n = k + 1 := ⟨n - 1, by omega⟩
        rw [pow_succ]; omega
    omega
  · intro h
    have h1 := abs_le.1 (rne_err x)
    have : (rne x : ℚ) < 2 ^ n := by linarith
    exact_mod_cast this

/-- When rounding overflows. -/
theorem roundMag_lt_iff {F : Format} {a : ℚ} (ha : 0 ≤ a) :
    roundMag F a < 2 ^ (F.emax + F.p) ↔ a < (2 ^ F.p - 1 / 2) * 2 ^ F.emax := by
  have hp := F.one_le_p
  have h2p : (2 : ℚ) ≤ 2 ^ F.p := by
    calc (2 : ℚ) = 2 ^ 1 := by norm_num
      _ ≤ 2 ^ F.p := pow_le_pow_right₀ (by norm_num) hp
  have hlow : (2 : ℚ) ^ (F.emax + F.p - 1) ≤ (2 ^ F.p - 1 / 2) * 2 ^ F.emax := by
    rw [show F.emax + F.p - 1 = F.emax + (F.p + (-1)) by ring, two_zpow_add, two_zpow_add, zpow_natCast, mul_comm]
    refine mul_le_mul_of_nonneg_right ?_ (two_zpow_pos _).le
    norm_num
    linarith
  have hup : (2 ^ F.p - 1 / 2) * 2 ^ F.emax < (2 : ℚ) ^ (F.emax + F.p) := by
    rw [two_zpow_add, zpow_natCast, mul_comm ((2 : ℚ) ^ F.emax)]
    exact mul_lt_mul_of_pos_right (by linarith) (two_zpow_pos _)
  rcases ha.eq_or_lt with rfl | hpos
  · rw [roundMag_zero]
    exact ⟨fun _ => lt_of_lt_of_le (two_zpow_pos _) hlow, fun _ => two_zpow_pos _⟩
  rcases lt_trichotomy (expo F a) F.emax with hE | hE | hE
  · have h1 := lt_expo F ha
    have h2 := roundMag_le_of (F := F) (a := a) (m := 2 ^ F.p) (by rw [pow_mul_expo']; exact h1.le)
    rw [pow_mul_expo'] at h2
    have h3 : (2 : ℚ) ^ (expo F a + F.p) ≤ 2 ^ (F.emax + F.p - 1) := two_zpow_le (by omega)
    have h4 : (2 : ℚ) ^ (F.emax + F.p - 1) < 2 ^ (F.emax + F.p) := zpow_lt_zpow_right₀ (by norm_num) (by omega)
    exact ⟨fun _ => by linarith, fun _ => by linarith⟩
  · unfold roundMag
    rw [hE, two_zpow_add, zpow_natCast, mul_comm ((2 : ℚ) ^ F.emax) (2 ^ F.p), mul_lt_mul_iff_left₀ (two_zpow_pos _)]
    have := rne_lt_pow (x := a / 2 ^ F.emax) hp
    rw [← Int.cast_lt (R := ℚ)] at this
    push_cast at this
    rw [this, div_lt_iff₀ (two_zpow_pos _)]
  · have h1 := expo_le F hpos (lt_of_le_of_lt F.emin_le hE)
    have h2 := roundMag_ge_of (F := F) (a := a) (m := 2 ^ (F.p - 1)) (by rw [pow_mul_expo]; exact h1)
    rw [pow_mul_expo] at h2
    have h3 : (2 : ℚ) ^ (F.emax + F.p) ≤ 2 ^ (expo F a + F.p - 1) := two_zpow_le (by omega)
    exact ⟨fun _ => by linarith, fun _ => by linarith⟩

/-- When rounding yields zero. -/
theorem roundMag_eq_zero_iff {F : Format} {a : ℚ} (ha : 0 ≤ a) : roundMag F a = 0 ↔ a ≤ 2 ^ (F.emin - 1) := by
  have hp := F.one_le_p
  rcases ha.eq_or_lt with rfl | hpos
  · rw [roundMag_zero]; exact ⟨fun _ => (two_zpow_pos _).le, fun _ => rfl⟩
  rcases (expo_ge F a).eq_or_lt with hE | hE
  · have hr : rne (a / 2 ^ F.emin) = 0 ↔ a / 2 ^ F.emin ≤ 1 / 2 := by
      constructor
      · intro h
        have := abs_le.1 (rne_err (a / 2 ^ F.emin))
        rw [h] at this
        push_cast at this
        linarith
      · intro h
        have h1 := rne_mono h
        have h2 := rne_mono (x := ((0 : ℤ) : ℚ)) (y := a / 2 ^ F.emin) (by push_cast; exact div_nonneg ha (two_zpow_pos _).le)
        rw [rne_int] at h2
        have h3 : rne (1 / 2 : ℚ) = 0 := by unfold rne; norm_num
        omega
    unfold roundMag
    rw [← hE, mul_eq_zero, or_iff_left (two_zpow_pos _).ne', Int.cast_eq_zero, hr, div_le_iff₀ (two_zpow_pos _),
      show F.emin - 1 = (-1) + F.emin by ring, two_zpow_add]
    norm_num
  · have h1 := expo_le F hpos hE
    have h2 := roundMag_ge_of (F := F) (a := a) (m := 2 ^ (F.p - 1)) (by rw [pow_mul_expo]; exact h1)
    rw [pow_mul_expo] at h2
    have h3 := two_zpow_pos (expo F a + F.p - 1)
    have h4 : (2 : ℚ) ^ (F.emin - 1) < 2 ^ (expo F a + F.p - 1) := zpow_lt_zpow_right₀ (by norm_num) (by omega)
    exact ⟨fun _ => by linarith, fun _ => by linarith⟩

end ICPC.Fp
