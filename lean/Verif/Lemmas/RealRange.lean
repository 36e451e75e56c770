import Verif.Model.RealRange
import Verif.Lemmas.RealStream
import Verif.Spec.RealRange

/-!
# Lemmas about rounded sums and products
-/

namespace ICPC.Fp

open ICPC.Spec.Fp

theorem round_nearest {F : Format} {z q : ℚ} (h : round F z = .fin q) : Nearest F z q := by
  unfold Fp.round at h
  by_cases hlt : roundMag F |z| < 2 ^ (F.emax + F.p)
  · rw [if_pos hlt] at h
    have hv := Flt.fin.inj h
    rw [← hv]
    refine ⟨?_, ?_⟩
    · have := rep_roundMag (abs_nonneg z) hlt
      split
      · exact rep_neg this
      · exact this
    · intro y hy
      split
      · next hq =>
        have := roundMag_near (abs_nonneg z) (rep_neg hy)
        rw [abs_of_neg hq] at this
        rw [abs_of_neg hq, ← abs_neg (y - z), ← abs_neg (-roundMag F (-z) - z)]
        rw [show -(y - z) = -y - -z by ring, show -(-roundMag F (-z) - z) = roundMag F (-z) - -z by ring]
        exact this
      · next hq =>
        have := roundMag_near (abs_nonneg z) hy
        rwa [abs_of_nonneg (not_lt.1 hq)] at this ⊢
  · rw [if_neg hlt] at h; cases h

/-- Numbers of at most the magnitude of a number of the format do not overflow. -/
theorem round_fin {F : Format} {z w : ℚ} (hw : Rep F w) (h : |z| ≤ |w|) : ∃ q, round F z = .fin q := by
  have : roundMag F |z| < 2 ^ (F.emax + F.p) := by
    refine lt_of_le_of_lt (roundMag_mono F (abs_nonneg z) h) ?_
    rw [roundMag_rep hw]; exact rep_lt hw
  unfold Fp.round
  rw [if_pos this]
  exact ⟨_, rfl⟩

theorem rep_zero (F : Format) : Rep F 0 := ⟨0, F.emin, by simp, le_rfl, F.emin_le, by simp⟩

/-- The error of rounding. -/
theorem roundMag_err' {F : Format} {a : ℚ} (h : 0 ≤ a) : |roundMag F a - a| ≤ unit F * a + 2 ^ (F.emin - 1) := by
  have hη := two_zpow_pos (F.emin - 1)
  have hu := unit_pos F
  rcases h.eq_or_lt with rfl | hpos
  · rw [roundMag_zero]; simp [hη.le]
  rcases (expo_ge F a).eq_or_lt with e | e
  · have h1 := rne_err (a / 2 ^ expo F a)
    have h2 : roundMag F a - a = (rne (a / 2 ^ expo F a) - a / 2 ^ expo F a) * 2 ^ expo F a := by
      unfold roundMag; have := two_zpow_pos (expo F a); field_simp
    rw [h2, abs_mul, abs_of_pos (two_zpow_pos _), ← e]
    rw [← e] at h1
    have h3 : (2 : ℚ) ^ (F.emin - 1) = 1 / 2 * 2 ^ F.emin := by
      rw [show F.emin - 1 = -1 + F.emin by ring, two_zpow_add]; norm_num
    rw [h3]
    have := mul_le_mul_of_nonneg_right h1 (two_zpow_pos F.emin).le
    nlinarith [mul_pos hu hpos]
  · have := roundMag_err (F := F) hpos (fun e' => absurd e' e.ne)
    linarith

theorem round_err {F : Format} {z q : ℚ} (h : round F z = .fin q) : |q - z| ≤ unit F * |z| + 2 ^ (F.emin - 1) := by
  have := roundMag_err' (F := F) (abs_nonneg z)
  unfold Fp.round at h
  by_cases hlt : roundMag F |z| < 2 ^ (F.emax + F.p)
  · rw [if_pos hlt] at h
    rw [← Flt.fin.inj h]
    split
    · next hq =>
      rw [abs_of_neg hq] at this ⊢
      rw [← abs_neg, show -(-roundMag F (-z) - z) = roundMag F (-z) - -z by ring]
      exact this
    · next hq => rw [abs_of_nonneg (not_lt.1 hq)] at this ⊢; exact this
  · rw [if_neg hlt] at h; cases h

/-- Half of a number of the format is rounded to a smaller number. -/
theorem roundMag_half_lt {F : Format} {u : ℚ} (hu : Rep F u) (h : 0 < u) : roundMag F (u / 2) < u := by
  have hη := two_zpow_pos F.emin
  have h3 : (2 : ℚ) ^ (F.emin - 1) = 1 / 2 * 2 ^ F.emin := by
    rw [show F.emin - 1 = -1 + F.emin by ring, two_zpow_add]; norm_num
  by_cases hs : u / 2 ≤ 2 ^ (F.emin - 1)
  · rw [(roundMag_eq_zero_iff (by linarith)).2 hs]; exact h
  · have hs := not_le.1 hs
    rw [h3] at hs
    -- `u` is a multiple of `2 ^ emin`
    obtain ⟨m, e, hm, he, he', rfl⟩ := hu
    have hm0 : 0 < m := by
      by_contra hc
      have : (m : ℚ) ≤ 0 := by exact_mod_cast not_lt.1 hc
      nlinarith [two_zpow_pos e]
    rcases he.eq_or_lt with rfl | he
    · have hm1 : 1 < m := by
        have : (1 : ℚ) < m := by nlinarith
        exact_mod_cast this
      have hrep : Rep F (((m + 1) / 2 : ℤ) * 2 ^ F.emin) := by
        refine ⟨(m + 1) / 2, F.emin, ?_, le_rfl, F.emin_le, rfl⟩
        rw [abs_of_pos hm0] at hm
        rw [abs_of_nonneg (by omega)]
        omega
      have hle : (m : ℚ) * 2 ^ F.emin / 2 ≤ ((m + 1) / 2 : ℤ) * 2 ^ F.emin := by
        have : (m : ℚ) / 2 ≤ ((m + 1) / 2 : ℤ) := by
          rw [div_le_iff₀ (by norm_num)]
          have : m ≤ (m + 1) / 2 * 2 := by omega
          exact_mod_cast this
        nlinarith
      have h4 := roundMag_mono F (by linarith) hle
      have h5 := roundMag_rep hrep
      have h6 : (0 : ℚ) ≤ ((m + 1) / 2 : ℤ) * 2 ^ F.emin := by
        have : (0 : ℚ) ≤ ((m + 1) / 2 : ℤ) := by
          have : 0 ≤ (m + 1) / 2 := by omega
          exact_mod_cast this
        positivity
      rw [abs_of_nonneg h6] at h5
      rw [h5] at h4
      have h7 : (((m + 1) / 2 : ℤ) : ℚ) < m := by
        have : (m + 1) / 2 < m := by omega
        exact_mod_cast this
      nlinarith
    · have hrep : Rep F ((m : ℚ) * 2 ^ e / 2) := by
        refine ⟨m, e - 1, hm, by omega, by omega, ?_⟩
        rw [show e - 1 = -1 + e by ring, two_zpow_add]
        norm_num; ring
      have h5 := roundMag_rep hrep
      rw [abs_of_pos (by linarith)] at h5
      rw [h5]; linarith

/-- A small factor: the rounded product is at most twice as large. -/
theorem roundMag_le_two {F : Format} {a : ℚ} (h : 0 ≤ a) : roundMag F a ≤ 2 * a := by
  by_cases hs : a ≤ 2 ^ (F.emin - 1)
  · rw [(roundMag_eq_zero_iff h).2 hs]; linarith
  · have h1 := abs_le.1 (roundMag_err' (F := F) h)
    have h2 := unit_le F
    have h3 := not_le.1 hs
    rcases (expo_ge F a).eq_or_lt with e | e
    · have h1 := (abs_le.1 (rne_err (a / 2 ^ expo F a))).2
      have h2 : roundMag F a = rne (a / 2 ^ expo F a) * 2 ^ expo F a := rfl
      have h4 : (2 : ℚ) ^ (F.emin - 1) = 1 / 2 * 2 ^ F.emin := by
        rw [show F.emin - 1 = -1 + F.emin by ring, two_zpow_add]; norm_num
      rw [h2]
      rw [← e] at h1 ⊢
      have hp := two_zpow_pos F.emin
      have h5 : (rne (a / 2 ^ F.emin) : ℚ) * 2 ^ F.emin ≤ (a / 2 ^ F.emin + 1 / 2) * 2 ^ F.emin :=
        mul_le_mul_of_nonneg_right (by linarith) hp.le
      have h6 : (a / 2 ^ F.emin + 1 / 2) * 2 ^ F.emin = a + 1 / 2 * 2 ^ F.emin := by field_simp
      linarith
    · have hpos : 0 < a := lt_trans (two_zpow_pos _) h3
      have := (abs_le.1 (roundMag_err (F := F) hpos (fun e' => absurd e' e.ne))).2
      nlinarith

/-- Close to a number of the format everything is rounded to it. -/
theorem round_close {F : Format} {w z : ℚ} (hw : Rep F w) (h : |z - w| < unit F * |w| / 2) : round F z = .fin w := by
  have hu := unit_pos F
  have hu2 := unit_le F
  have hw0 : w ≠ 0 := by
    rintro rfl
    rw [abs_zero, mul_zero, zero_div] at h
    exact absurd h (not_lt.2 (abs_nonneg _))
  have hwp : 0 < |w| := abs_pos.2 hw0
  have hfin : ∃ q, round F z = .fin q := by
    have h1 : |z| < (2 ^ F.p - 1 / 2) * 2 ^ F.emax := by
      have h2 : |z| ≤ |w| + |z - w| := by
        have := abs_add_le w (z - w); rwa [add_sub_cancel] at this
      obtain ⟨m, e, hm, he, he', hwe⟩ := hw
      have hw1 : |w| ≤ (2 ^ F.p - 1) * 2 ^ F.emax := by
        rw [hwe, abs_mul, abs_of_pos (two_zpow_pos e)]
        have : |(m : ℚ)| ≤ 2 ^ F.p - 1 := by
          have : |m| ≤ 2 ^ F.p - 1 := by omega
          exact_mod_cast this
        calc |(m : ℚ)| * 2 ^ e ≤ (2 ^ F.p - 1) * 2 ^ e := mul_le_mul_of_nonneg_right this (two_zpow_pos e).le
          _ ≤ (2 ^ F.p - 1) * 2 ^ F.emax := mul_le_mul_of_nonneg_left (two_zpow_le he') (by linarith [abs_nonneg (m : ℚ)])
      have hup : unit F * 2 ^ F.p = 1 := by
        unfold unit; rw [← zpow_natCast, ← two_zpow_add]; simp
      have hE := two_zpow_pos F.emax
      have h3 : unit F * |w| < 2 ^ F.emax := by
        calc unit F * |w| ≤ unit F * ((2 ^ F.p - 1) * 2 ^ F.emax) := mul_le_mul_of_nonneg_left hw1 hu.le
          _ = (unit F * 2 ^ F.p - unit F) * 2 ^ F.emax := by ring
          _ = (1 - unit F) * 2 ^ F.emax := by rw [hup]
          _ < 2 ^ F.emax := by nlinarith
      linarith
    have := (roundMag_lt_iff (F := F) (abs_nonneg z)).2 h1
    unfold Fp.round
    rw [if_pos this]
    exact ⟨_, rfl⟩
  obtain ⟨q, hq⟩ := hfin
  obtain ⟨hr, hn⟩ := round_nearest hq
  rw [hq]
  by_contra hne
  have hqw : q ≠ w := fun e => hne (by rw [e])
  have h1 := rep_gap hr hw hqw
  have h2 := hn w hw
  have h3 : |q - w| ≤ |q - z| + |z - w| := abs_sub_le _ _ _
  rw [abs_sub_comm w z] at h2
  linarith

/-- The sign is kept. -/
theorem round_nonneg {F : Format} {z q : ℚ} (h : round F z = .fin q) (hz : 0 ≤ z) : 0 ≤ q :=
  nearest_ge (round_nearest h) (rep_zero F) hz

theorem round_nonpos {F : Format} {z q : ℚ} (h : round F z = .fin q) (hz : z ≤ 0) : q ≤ 0 :=
  nearest_le (round_nearest h) (rep_zero F) hz

theorem round_abs_le {F : Format} {z q w : ℚ} (h : round F z = .fin q) (hw : Rep F w) (hz : |z| ≤ |w|) : |q| ≤ |w| := by
  have hn := round_nearest h
  obtain ⟨h1, h2⟩ := abs_le.1 hz
  exact abs_le.2 ⟨nearest_ge hn (rep_neg (rep_abs hw)) h1, nearest_le hn (rep_abs hw) h2⟩

theorem round_abs_eq {F : Format} {z q : ℚ} (h : round F z = .fin q) : |q| = roundMag F |z| := by
  unfold Fp.round at h
  have hp := roundMag_nonneg F (abs_nonneg z)
  by_cases hlt : roundMag F |z| < 2 ^ (F.emax + F.p)
  · rw [if_pos hlt] at h
    rw [← Flt.fin.inj h]
    split
    · rw [abs_neg, abs_of_nonneg hp]
    · rw [abs_of_nonneg hp]
  · rw [if_neg hlt] at h; cases h

end ICPC.Fp
