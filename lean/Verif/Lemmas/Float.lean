import Verif.Spec.Float
import Mathlib.Tactic.Linarith
import Mathlib.Tactic.Positivity
import Mathlib.Tactic.Ring
import Mathlib.Tactic.FieldSimp
import Mathlib.Tactic.NormNum

/-! Lemmas about rounding to a binary floating point format. -/

namespace ICPC.Fp

open ICPC.Spec.Fp

theorem rne_err (x : ℚ) : |(rne x : ℚ) - x| ≤ 1 / 2 := by
  have h := Int.floor_add_fract x
  have h0 := Int.fract_nonneg x
  have h1 := Int.fract_lt_one x
  unfold rne
  split_ifs with a b c
  · rw [abs_le]; constructor <;> linarith
  · push_cast; rw [abs_le]; constructor <;> linarith
  · rw [abs_le]; constructor <;> linarith
  · push_cast; rw [abs_le]; constructor <;> linarith

theorem rne_int (m : ℤ) : rne (m : ℚ) = m := by
  unfold rne
  simp

theorem rne_mono {x y : ℚ} (h : x ≤ y) : rne x ≤ rne y := by
  rcases h.eq_or_lt with rfl | h
  · exact le_rfl
  · by_contra hc
    have hx := abs_le.1 (rne_err x)
    have hy := abs_le.1 (rne_err y)
    have : rne y + 1 ≤ rne x := by omega
    have : (rne y : ℚ) + 1 ≤ rne x := by exact_mod_cast this
    linarith [hx.2, hy.1]

theorem two_zpow_pos (e : ℤ) : (0 : ℚ) < 2 ^ e := zpow_pos (by norm_num) e

theorem two_zpow_le {a b : ℤ} (h : a ≤ b) : (2 : ℚ) ^ a ≤ 2 ^ b := zpow_le_zpow_right₀ (by norm_num) h

theorem two_zpow_add (a b : ℤ) : (2 : ℚ) ^ (a + b) = 2 ^ a * 2 ^ b := zpow_add₀ (by norm_num) a b

theorem expo_ge (F : Format) (a : ℚ) : F.emin ≤ expo F a := le_max_left _ _

theorem lt_expo (F : Format) {a : ℚ} (_ : 0 ≤ a) : a < 2 ^ (expo F a + F.p) := by
  refine lt_of_lt_of_le (Int.lt_zpow_succ_log_self (b := 2) (by norm_num) a) ?_
  have : Int.log 2 a + 1 ≤ expo F a + F.p := by unfold expo; omega
  exact_mod_cast two_zpow_le this

/-- Above the smallest exponent the number has all its digits. -/
theorem expo_le (F : Format) {a : ℚ} (h : 0 < a) (he : F.emin < expo F a) : 2 ^ (expo F a + F.p - 1) ≤ a := by
  refine le_trans ?_ (Int.zpow_log_le_self (b := 2) (by norm_num) h)
  have : expo F a + F.p - 1 ≤ Int.log 2 a := by unfold expo at *; omega
  exact_mod_cast two_zpow_le this

theorem expo_mono (F : Format) {a b : ℚ} (h : 0 < a) (hab : a ≤ b) : expo F a ≤ expo F b := by
  have := Int.log_mono_right (b := 2) h hab
  unfold expo; omega

theorem roundMag_zero (F : Format) : roundMag F 0 = 0 := by
  unfold roundMag
  have := rne_int 0
  simp only [zero_div]
  rw [show (0 : ℚ) = ((0 : ℤ) : ℚ) by simp, this]
  simp

theorem roundMag_nonneg (F : Format) {a : ℚ} (h : 0 ≤ a) : 0 ≤ roundMag F a := by
  unfold roundMag
  have h1 : rne ((0 : ℤ) : ℚ) ≤ rne (a / 2 ^ expo F a) := rne_mono (by
    push_cast; exact div_nonneg h (two_zpow_pos _).le)
  rw [rne_int] at h1
  have : (0 : ℚ) ≤ rne (a / 2 ^ expo F a) := by exact_mod_cast h1
  exact mul_nonneg this (two_zpow_pos _).le

/-- An integral multiple of the last digit stays on its side. -/
theorem roundMag_ge_of {F : Format} {a : ℚ} {m : ℤ} (h : m * 2 ^ expo F a ≤ a) : m * 2 ^ expo F a ≤ roundMag F a := by
  unfold roundMag
  have h1 : rne (m : ℚ) ≤ rne (a / 2 ^ expo F a) := rne_mono (by rwa [le_div_iff₀ (two_zpow_pos _)])
  rw [rne_int] at h1
  have : (m : ℚ) ≤ rne (a / 2 ^ expo F a) := by exact_mod_cast h1
  exact mul_le_mul_of_nonneg_right this (two_zpow_pos _).le

theorem roundMag_le_of {F : Format} {a : ℚ} {m : ℤ} (h : a ≤ m * 2 ^ expo F a) : roundMag F a ≤ m * 2 ^ expo F a := by
  unfold roundMag
  have h1 : rne (a / 2 ^ expo F a) ≤ rne (m : ℚ) := rne_mono (by rwa [div_le_iff₀ (two_zpow_pos _)])
  rw [rne_int] at h1
  have : (rne (a / 2 ^ expo F a) : ℚ) ≤ m := by exact_mod_cast h1
  exact mul_le_mul_of_nonneg_right this (two_zpow_pos _).le

theorem roundMag_mono (F : Format) {a b : ℚ} (h : 0 ≤ a) (hab : a ≤ b) : roundMag F a ≤ roundMag F b := by
  rcases h.eq_or_lt with rfl | h
  · rw [roundMag_zero]; exact roundMag_nonneg F hab
  · have hm := expo_mono F h hab
    rcases hm.eq_or_lt with he | he
    · unfold roundMag
      rw [he]
      refine mul_le_mul_of_nonneg_right ?_ (two_zpow_pos _).le
      have : rne (a / 2 ^ expo F b) ≤ rne (b / 2 ^ expo F b) := rne_mono (div_le_div_of_nonneg_right hab (two_zpow_pos _).le)
      exact_mod_cast this
    · have hb := expo_le F (h.trans_le hab) ((expo_ge F a).trans_lt he)
      have ha := lt_expo F h.le
      have e1 : ((2 ^ F.p : ℤ) : ℚ) * 2 ^ expo F a = 2 ^ (expo F a + F.p) := by
        rw [two_zpow_add]; push_cast; rw [zpow_natCast]; ring
      have hp := F.one_le_p
      have e2 : ((2 ^ (F.p - 1) : ℤ) : ℚ) * 2 ^ expo F b = 2 ^ (expo F b + F.p - 1) := by
        rw [show expo F b + F.p - 1 = expo F b + ((F.p - 1 : ℕ) : ℤ) by omega, two_zpow_add]
        push_cast; rw [zpow_natCast]; ring
      have h1 := roundMag_le_of (F := F) (a := a) (m := 2 ^ F.p) (by rw [e1]; exact ha.le)
      have h2 := roundMag_ge_of (F := F) (a := b) (m := 2 ^ (F.p - 1)) (by rw [e2]; exact hb)
      rw [e1] at h1
      rw [e2] at h2
      exact h1.trans ((two_zpow_le (by omega)).trans h2)

/-- The canonical form of a number: an integral multiple of its last digit. -/
theorem rep_expo {F : Format} {x : ℚ} (h : Rep F x) : ∃ m : ℤ, x = m * 2 ^ expo F |x| := by
  obtain ⟨m, e, hm, he, -, rfl⟩ := h
  rcases eq_or_ne m 0 with rfl | h0
  · exact ⟨0, by simp⟩
  have hpos : (0 : ℚ) < |(m : ℚ) * 2 ^ e| := abs_pos.2 (mul_ne_zero (by exact_mod_cast h0) (two_zpow_pos _).ne')
  have hlt : |(m : ℚ) * 2 ^ e| < 2 ^ (e + F.p) := by
    rw [abs_mul, abs_of_pos (two_zpow_pos e), two_zpow_add, mul_comm]
    refine mul_lt_mul_of_pos_left ?_ (two_zpow_pos e)
    rw [zpow_natCast]; exact_mod_cast hm
  have hle : expo F |(m : ℚ) * 2 ^ e| ≤ e := by
    have : Int.log 2 |(m : ℚ) * 2 ^ e| < e + F.p := (Int.lt_zpow_iff_log_lt (b := 2) (by norm_num) hpos).1 (by
      exact_mod_cast hlt)
    unfold expo; omega
  obtain ⟨k, hk⟩ : ∃ k : ℕ, e = expo F |(m : ℚ) * 2 ^ e| + k := ⟨(e - expo F |(m : ℚ) * 2 ^ e|).toNat, by omega⟩
  refine ⟨m * 2 ^ k, ?_⟩
  generalize expo F |(m : ℚ) * 2 ^ e| = E at hk
  subst hk
  rw [two_zpow_add, zpow_natCast]; push_cast; ring

theorem roundMag_rep {F : Format} {x : ℚ} (h : Rep F x) : roundMag F |x| = |x| := by
  obtain ⟨m, hm⟩ := rep_expo h
  have : |x| = ((|m| : ℤ) : ℚ) * 2 ^ expo F |x| := by
    conv_lhs => rw [hm]
    rw [abs_mul, abs_of_pos (two_zpow_pos _)]; push_cast; rfl
  have hd : |x| / 2 ^ expo F |x| = ((|m| : ℤ) : ℚ) := by
    rw [div_eq_iff (two_zpow_pos _).ne']; exact this
  unfold roundMag
  rw [hd, rne_int, ← this]

theorem rep_abs {F : Format} {x : ℚ} (h : Rep F x) : Rep F |x| := by
  obtain ⟨m, e, hm, he, he', rfl⟩ := h
  exact ⟨|m|, e, by rwa [abs_abs], he, he', by rw [abs_mul, abs_of_pos (two_zpow_pos e)]; push_cast; rfl⟩

theorem rep_neg {F : Format} {x : ℚ} (h : Rep F x) : Rep F (-x) := by
  obtain ⟨m, e, hm, he, he', rfl⟩ := h
  exact ⟨-m, e, by rwa [abs_neg], he, he', by push_cast; ring⟩

theorem rep_lt {F : Format} {x : ℚ} (h : Rep F x) : |x| < 2 ^ (F.emax + F.p) := by
  obtain ⟨m, e, hm, he, he', rfl⟩ := h
  rw [abs_mul, abs_of_pos (two_zpow_pos e), two_zpow_add, mul_comm ((2 : ℚ) ^ F.emax), zpow_natCast]
  have : |(m : ℚ)| < 2 ^ F.p := by exact_mod_cast hm
  calc |(m : ℚ)| * 2 ^ e < 2 ^ F.p * 2 ^ e := mul_lt_mul_of_pos_right this (two_zpow_pos e)
    _ ≤ 2 ^ F.p * 2 ^ F.emax := mul_le_mul_of_nonneg_left (two_zpow_le he') (by positivity)

/-- The relative error of rounding, above the smallest numbers. -/
theorem roundMag_err {F : Format} {a : ℚ} (h : 0 < a) (he : F.emin = expo F a → 2 ^ (F.emin + F.p - 1) ≤ a) :
    |roundMag F a - a| ≤ unit F * a := by
  have hb : 2 ^ (expo F a + F.p - 1) ≤ a := by
    rcases (expo_ge F a).eq_or_lt with e | e
    · rw [← e]; exact he e
    · exact expo_le F h e
  have h1 := rne_err (a / 2 ^ expo F a)
  have h2 : roundMag F a - a = (rne (a / 2 ^ expo F a) - a / 2 ^ expo F a) * 2 ^ expo F a := by
    unfold roundMag
    have := (two_zpow_pos (expo F a)).ne'
    field_simp
  rw [h2, abs_mul, abs_of_pos (two_zpow_pos _)]
  have h3 : 1 / 2 * (2 : ℚ) ^ expo F a ≤ unit F * a := by
    have : (1 / 2 : ℚ) * 2 ^ expo F a = 2 ^ (-(F.p : ℤ)) * 2 ^ (expo F a + F.p - 1) := by
      rw [← two_zpow_add, show -(F.p : ℤ) + (expo F a + F.p - 1) = expo F a + (-1) by ring, two_zpow_add]
      norm_num
      ring
    rw [this]
    exact mul_le_mul_of_nonneg_left hb (two_zpow_pos _).le
  exact (mul_le_mul_of_nonneg_right h1 (two_zpow_pos _).le).trans h3

/-- The difference of two numbers is exact if it is very small. -/
theorem sub_err {F : Format} {g e : ℚ} (hg : Rep F g) (he : Rep F e) :
    |(roundMag F (|g - e|)) - (|g - e|)| ≤ unit F * |g - e| := by
  rcases eq_or_ne (g - e) 0 with h | h
  · rw [h, abs_zero, roundMag_zero]; simp
  have hpos : 0 < |g - e| := abs_pos.2 h
  rcases (expo_ge F |g - e|).eq_or_lt with hE | hE
  · -- a multiple of the smallest number
    have hmul : ∀ {x : ℚ}, Rep F x → ∃ m : ℤ, x = m * 2 ^ F.emin := by
      rintro x ⟨m, k, -, hk, -, rfl⟩
      obtain ⟨j, rfl⟩ : ∃ j : ℕ, k = F.emin + j := ⟨(k - F.emin).toNat, by omega⟩
      exact ⟨m * 2 ^ j, by rw [two_zpow_add, zpow_natCast]; push_cast; ring⟩
    obtain ⟨m, hm⟩ := hmul hg
    obtain ⟨n, hn⟩ := hmul he
    have hd : |g - e| / 2 ^ expo F |g - e| = ((|m - n| : ℤ) : ℚ) := by
      rw [div_eq_iff (two_zpow_pos _).ne', ← hE, hm, hn, ← sub_mul, abs_mul, abs_of_pos (two_zpow_pos _)]
      push_cast; rfl
    have : roundMag F |g - e| = |g - e| := by
      unfold roundMag
      rw [hd, rne_int, ← hd]
      exact div_mul_cancel₀ _ (two_zpow_pos _).ne'
    rw [this, sub_self, abs_zero]
    exact mul_nonneg (two_zpow_pos _).le hpos.le
  · exact roundMag_err hpos fun h => absurd h hE.ne

/-- Two different numbers differ by a relevant part of each of them. -/
theorem rep_gap {F : Format} {g e : ℚ} (hg : Rep F g) (he : Rep F e) (h : g ≠ e) :
    unit F * |e| ≤ |g - e| := by
  have hu : unit F * 2 ^ F.p = 1 := by
    unfold unit; rw [← zpow_natCast, ← two_zpow_add]; simp
  have hupos : 0 < unit F := two_zpow_pos _
  rcases eq_or_ne e 0 with rfl | he0
  · simp
  obtain ⟨m, hm⟩ := rep_expo he
  obtain ⟨n, hn⟩ := rep_expo hg
  have hepos : 0 < |e| := abs_pos.2 he0
  rcases le_or_gt (expo F |e|) (expo F |g|) with hle | hlt
  · obtain ⟨k, hk⟩ : ∃ k : ℕ, expo F |g| = expo F |e| + k := ⟨(expo F |g| - expo F |e|).toNat, by omega⟩
    have h1 : |g - e| = ((|n * 2 ^ k - m| : ℤ) : ℚ) * 2 ^ expo F |e| := by
      conv_lhs => rw [hm, hn, hk, two_zpow_add, zpow_natCast]
      push_cast
      generalize expo F |e| = E
      have hE : (2 : ℚ) ^ E = |(2 : ℚ) ^ E| := (abs_of_pos (two_zpow_pos E)).symm
      conv_rhs => rw [hE]
      rw [← abs_mul]
      congr 1; ring
    have h2 : 1 ≤ |n * 2 ^ k - m| := by
      refine Int.one_le_abs fun hz => h ?_
      rw [hm, hn, hk, two_zpow_add, zpow_natCast, show m = n * 2 ^ k by omega]
      push_cast; ring
    have h3 : (1 : ℚ) ≤ ((|n * 2 ^ k - m| : ℤ) : ℚ) := by exact_mod_cast h2
    have h4 := lt_expo F hepos.le
    rw [two_zpow_add, zpow_natCast] at h4
    rw [h1]
    calc unit F * |e| ≤ unit F * (2 ^ expo F |e| * 2 ^ F.p) := mul_le_mul_of_nonneg_left h4.le hupos.le
      _ = 1 * 2 ^ expo F |e| := by rw [mul_comm ((2 : ℚ) ^ expo F |e|), ← mul_assoc, hu]
      _ ≤ _ := mul_le_mul_of_nonneg_right h3 (two_zpow_pos _).le
  · have hE := expo_le F hepos ((expo_ge F |g|).trans_lt hlt)
    have hn' : |n| ≤ 2 ^ F.p - 1 := by
      have h4 := lt_expo F (abs_nonneg g)
      rw [two_zpow_add, zpow_natCast] at h4
      have h5 : |g| = ((|n| : ℤ) : ℚ) * 2 ^ expo F |g| := by
        conv_lhs => rw [hn]
        rw [abs_mul, abs_of_pos (two_zpow_pos _)]; push_cast; rfl
      generalize expo F |g| = E at h4 h5
      rw [h5, mul_comm ((2 : ℚ) ^ _)] at h4
      have := lt_of_mul_lt_mul_right h4 (two_zpow_pos _).le
      have : |n| < 2 ^ F.p := by exact_mod_cast this
      omega
    have hg' : |g| ≤ (2 ^ F.p - 1) * 2 ^ (expo F |e| - 1) := by
      have h5 : |g| = ((|n| : ℤ) : ℚ) * 2 ^ expo F |g| := by
        conv_lhs => rw [hn]
        rw [abs_mul, abs_of_pos (two_zpow_pos _)]; push_cast; rfl
      have h6 : ((|n| : ℤ) : ℚ) ≤ 2 ^ F.p - 1 := by exact_mod_cast hn'
      rw [h5]
      exact mul_le_mul h6 (two_zpow_le (by omega)) (two_zpow_pos _).le ((Int.cast_nonneg (abs_nonneg n)).trans h6)
    have e3 : (2 : ℚ) ^ (expo F |e| + F.p - 1) = 2 ^ F.p * 2 ^ (expo F |e| - 1) := by
      rw [show expo F |e| + F.p - 1 = F.p + (expo F |e| - 1) by ring, two_zpow_add, zpow_natCast]
    have h7 : |e| - |g| ≤ |g - e| := by rw [abs_sub_comm]; exact abs_sub_abs_le_abs_sub e g
    have h8 : |g| ≤ (1 - unit F) * |e| := by
      calc |g| ≤ (2 ^ F.p - 1) * 2 ^ (expo F |e| - 1) := hg'
        _ = (1 - unit F) * (2 ^ F.p * 2 ^ (expo F |e| - 1)) := by
          rw [← mul_assoc, sub_mul 1 (unit F), one_mul, hu]
        _ ≤ _ := mul_le_mul_of_nonneg_left (by rw [← e3]; exact hE) (by
          have : (1 : ℚ) ≤ 2 ^ F.p := one_le_pow₀ (by norm_num)
          nlinarith)
    linarith

theorem unit_pos (F : Format) : 0 < unit F := two_zpow_pos _

theorem unit_le (F : Format) : unit F ≤ 1 / 2 := by
  have h := F.one_le_p
  have : (2 : ℚ) ^ (-(F.p : ℤ)) ≤ 2 ^ (-1 : ℤ) := two_zpow_le (by omega)
  unfold unit
  norm_num at this ⊢
  exact this

end ICPC.Fp
