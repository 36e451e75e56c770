import Verif.Lemmas.Float

/-!
# C77: comparing real numbers with tolerances

`floatEqual` for every binary floating point format with rounding to nearest, ties to even.
-/

namespace ICPC.Props

open ICPC.Fp ICPC.Spec.Fp

private theorem abs_round (F : Format) (x : ℚ) :
    Fp.abs (Fp.round F x) = if roundMag F |x| < 2 ^ (F.emax + F.p) then .fin (roundMag F |x|) else .inf false := by
  unfold Fp.round
  split_ifs with h h0
  · simp only [Fp.abs, abs_neg, abs_of_nonneg (roundMag_nonneg F (abs_nonneg x))]
  · simp only [Fp.abs, abs_of_nonneg (roundMag_nonneg F (abs_nonneg x))]
  · rfl

private theorem tol_le {t : Flt} : Fp.le (.fin 0) t = true ↔ Tolerance t := by
  rcases t with s | s | q
  · simp [Fp.le, Tolerance]
  · cases s <;> simp [Fp.le, Tolerance]
  · simp [Fp.le, Tolerance]

private theorem feq {F : Format} {g e : ℚ} {a r : Flt} (ha : Tolerance a) (hr : Tolerance r) :
    floatEqual F (.fin g) (.fin e) a r =
      .ok (Fp.le (Fp.abs (Fp.sub F (.fin g) (.fin e))) a || Fp.le (Fp.abs (Fp.div F (Fp.sub F (.fin g) (.fin e)) (.fin e))) r) := by
  unfold floatEqual
  rw [tol_le.2 ha, tol_le.2 hr]
  rfl

/-- Negative and undefined tolerances are refused by an exception, all others never are. -/
theorem C77_throws (F : Format) (given expected a r : Flt) :
    ((¬ Tolerance a ∨ ¬ Tolerance r) → floatEqual F given expected a r = .error .throw) ∧
      (Tolerance a → Tolerance r → ∃ b, floatEqual F given expected a r = .ok b) := by
  constructor
  · intro h
    unfold floatEqual
    by_cases ha : Fp.le (.fin 0) a = true
    · rw [ha]
      have hr : Fp.le (.fin 0) r = false := by
        rw [Bool.eq_false_iff]
        intro hr
        rcases h with h | h
        · exact h (tol_le.1 ha)
        · exact h (tol_le.1 hr)
      rw [hr]; rfl
    · rw [Bool.eq_false_iff.2 ha]; rfl
  · intro ha hr
    unfold floatEqual
    rw [tol_le.2 ha, tol_le.2 hr]
    simp only [judgeAssert_true, ok_bind]
    split_ifs <;> exact ⟨_, rfl⟩

/-- Values that are not finite: NaN equals NaN whatever the sign bits, infinities are equal if their signs are, and
nothing else is equal. -/
theorem C77_special (F : Format) (given expected a r : Flt) (ha : Tolerance a) (hr : Tolerance r)
    (h : ¬ ∃ g e, given = .fin g ∧ expected = .fin e) :
    floatEqual F given expected a r =
      .ok (decide ((∃ s t, given = .nan s ∧ expected = .nan t) ∨ ∃ s, given = .inf s ∧ expected = .inf s)) := by
  unfold floatEqual
  rw [tol_le.2 ha, tol_le.2 hr]
  rcases given with s | s | g <;> rcases expected with t | t | e
  case fin.fin => exact absurd ⟨g, e, rfl, rfl⟩ h
  case inf.inf => cases s <;> cases t <;> simp [judgeAssert_true, ok_bind, isfinite, isnan, isinf, signbit]
  all_goals simp [judgeAssert_true, ok_bind, isfinite, isnan, isinf]

/-- Every finite number within the absolute tolerance is accepted, whatever the rounding does; and every finite number
within the relative tolerance, up to the error of one rounding, unless the difference is too large to be a number. -/
theorem C77_accepts (F : Format) {g e : ℚ} {a r : Flt} (hg : Rep F g) (he : Rep F e) (ha : Tolerance a)
    (hr : Tolerance r) (va : Value F a) (vr : Value F r)
    (h : Within |g - e| a ∨ ((∃ y, Rep F y ∧ |g - e| ≤ y) ∧ WithinRel ((1 + unit F) * |g - e|) e r)) :
    floatEqual F (.fin g) (.fin e) a r = .ok true := by
  rw [feq ha hr]
  have hsub : Fp.abs (Fp.sub F (.fin g) (.fin e)) = if roundMag F |g - e| < 2 ^ (F.emax + F.p)
      then .fin (roundMag F |g - e|) else .inf false := abs_round F (g - e)
  have hle : ∀ {x y : ℚ}, 0 ≤ x → Rep F y → x ≤ y → roundMag F x ≤ y := by
    intro x y hx hy hxy
    have h0 : |y| = y := abs_of_nonneg (hx.trans hxy)
    have := roundMag_mono F hx hxy
    rwa [show roundMag F y = y by conv_rhs => rw [← h0, ← roundMag_rep hy, h0]] at this
  have hlt : ∀ {x y : ℚ}, 0 ≤ x → Rep F y → x ≤ y → roundMag F x < 2 ^ (F.emax + F.p) := by
    intro x y hx hy hxy
    refine (hle hx hy hxy).trans_lt ?_
    have := rep_lt hy
    rwa [abs_of_nonneg (hx.trans hxy)] at this
  -- the absolute test
  have habs : Within |g - e| a → Fp.le (Fp.abs (Fp.sub F (.fin g) (.fin e))) a = true := by
    intro h
    rw [hsub]
    rcases a with s | s | t
    · exact absurd h id
    · have : s = false := h
      subst this
      split_ifs <;> rfl
    · rw [if_pos (hlt (abs_nonneg _) va h)]
      simp only [Fp.le, decide_eq_true_eq]
      exact hle (abs_nonneg _) va h
  by_cases hw : Within |g - e| a
  · rw [habs hw]; rfl
  have hne : g - e ≠ 0 := by
    intro h0
    apply hw
    rw [h0, abs_zero]
    rcases a with s | s | t
    · exact ha
    · exact ha
    · exact ha
  have hpos : 0 < |g - e| := abs_pos.2 hne
  obtain ⟨⟨y, hy, hyd⟩, hrel⟩ := h.resolve_left hw
  have hz := hlt (abs_nonneg _) hy hyd
  have hup := unit_pos F
  have hr' : Fp.le (Fp.abs (Fp.div F (Fp.sub F (.fin g) (.fin e)) (.fin e))) r = true := by
    have hsz : Fp.sub F (.fin g) (.fin e) = .fin (if g - e < 0 then -roundMag F |g - e| else roundMag F |g - e|) := by
      simp only [Fp.sub, Fp.round, if_pos hz]
    rw [hsz]
    have herr := abs_le.1 (sub_err hg he)
    have hul := unit_le F
    set z : ℚ := if g - e < 0 then -roundMag F |g - e| else roundMag F |g - e| with hzdef
    have hzabs : |z| = roundMag F |g - e| := by
      rw [hzdef]; split_ifs <;> simp [abs_of_nonneg (roundMag_nonneg F (abs_nonneg (g - e)))]
    have hz0 : z ≠ 0 := by
      rw [← abs_pos, hzabs]
      nlinarith [herr.1]
    rcases r with s | s | t
    · exact absurd hr id
    · have : s = false := hr
      subst this
      by_cases he0 : e = 0
      · simp only [Fp.div, he0, if_true, hz0, if_false, Fp.abs]; rfl
      · simp only [Fp.div, he0, if_false, abs_round]
        split_ifs <;> rfl
    · have hrel' : (1 + unit F) * |g - e| ≤ t * |e| := hrel
      have he0 : e ≠ 0 := by
        rintro rfl
        rw [abs_zero, mul_zero] at hrel'
        nlinarith
      have hepos : 0 < |e| := abs_pos.2 he0
      have hq : |z / e| ≤ t := by
        rw [abs_div, hzabs, div_le_iff₀ hepos]
        nlinarith [herr.2]
      simp only [Fp.div, he0, if_false, abs_round, if_pos (hlt (abs_nonneg _) vr hq), Fp.le, decide_eq_true_eq]
      exact hle (abs_nonneg _) vr hq
  rw [hr', Bool.or_true]

/-- Relative tolerances of at most one never meet the exception of `C77_accepts`. -/
theorem C77_accepts_relative (F : Format) {g e t : ℚ} {a : Flt} (hg : Rep F g) (he : Rep F e) (ha : Tolerance a)
    (va : Value F a) (ht : Rep F t) (ht0 : 0 ≤ t) (ht1 : t ≤ 1) (h : (1 + unit F) * |g - e| ≤ t * |e|) :
    floatEqual F (.fin g) (.fin e) a (.fin t) = .ok true := by
  refine C77_accepts F hg he ha ht0 va ht (Or.inr ⟨⟨|e|, rep_abs he, ?_⟩, h⟩)
  have hup := unit_pos F
  have h1 : |g - e| ≤ (1 + unit F) * |g - e| := by nlinarith [abs_nonneg (g - e)]
  have h2 : t * |e| ≤ |e| := by nlinarith [abs_nonneg e]
  linarith

/-- Every finite number that is accepted is within one of the tolerances, up to the errors of one and two roundings. -/
theorem C77_rejects (F : Format) (hF : F.emin + 2 * F.p ≤ 0) {g e : ℚ} {a r : Flt} (hg : Rep F g) (he : Rep F e)
    (ha : Tolerance a) (hr : Tolerance r) (h : floatEqual F (.fin g) (.fin e) a r = .ok true) :
    Within ((1 - unit F) * |g - e|) a ∨ WithinRel ((1 - unit F) ^ 2 * |g - e|) e r := by
  rw [feq ha hr] at h
  have hor := Except.ok.inj h
  rw [Bool.or_eq_true] at hor
  have herr := abs_le.1 (sub_err hg he)
  have hup := unit_pos F
  have hul := unit_le F
  rcases hor with h | h
  · left
    have hsub : Fp.abs (Fp.sub F (.fin g) (.fin e)) = if roundMag F |g - e| < 2 ^ (F.emax + F.p)
        then .fin (roundMag F |g - e|) else .inf false := abs_round F (g - e)
    rw [hsub] at h
    rcases a with s | s | t
    · exact absurd ha id
    · exact ha
    · split_ifs at h
      · simp only [Fp.le, decide_eq_true_eq] at h
        show (1 - unit F) * |g - e| ≤ t
        linarith [herr.1]
      · simp [Fp.le] at h
  · right
    rcases r with s | s | t
    · exact absurd hr id
    · exact hr
    · show (1 - unit F) ^ 2 * |g - e| ≤ t * |e|
      have ht : 0 ≤ t := hr
      by_cases hge : g = e
      · subst hge; rw [sub_self, abs_zero, mul_zero]; exact mul_nonneg ht (abs_nonneg _)
      have hpos : 0 < |g - e| := abs_pos.2 (sub_ne_zero.2 hge)
      by_cases hz : roundMag F |g - e| < 2 ^ (F.emax + F.p)
      · have hsz : Fp.sub F (.fin g) (.fin e) = .fin (if g - e < 0 then -roundMag F |g - e| else roundMag F |g - e|) := by
          simp only [Fp.sub, Fp.round, if_pos hz]
        rw [hsz] at h
        set z : ℚ := if g - e < 0 then -roundMag F |g - e| else roundMag F |g - e| with hzdef
        have hzabs : |z| = roundMag F |g - e| := by
          rw [hzdef]; split_ifs <;> simp [abs_of_nonneg (roundMag_nonneg F (abs_nonneg (g - e)))]
        have hzlow : (1 - unit F) * |g - e| ≤ |z| := by rw [hzabs]; linarith [herr.1]
        by_cases he0 : e = 0
        · have hz0 : z ≠ 0 := by rw [← abs_pos]; nlinarith
          simp [Fp.div, he0, hz0, Fp.abs, Fp.le] at h
        · have hepos : 0 < |e| := abs_pos.2 he0
          simp only [Fp.div, he0, if_false, abs_round] at h
          split_ifs at h with hb
          · simp only [Fp.le, decide_eq_true_eq] at h
            have hgap := rep_gap hg he hge
            have hqlow : 2 ^ (F.emin + F.p - 1) ≤ |z / e| := by
              rw [abs_div, le_div_iff₀ hepos]
              have h1 : (2 : ℚ) ^ (F.emin + F.p - 1) ≤ unit F * (1 / 2) := by
                have : unit F * (1 / 2) = 2 ^ (-(F.p : ℤ) + (-1)) := by
                  rw [two_zpow_add]; unfold unit; norm_num
                rw [this]
                exact two_zpow_le (by omega)
              have h2 : (2 : ℚ) ^ (F.emin + F.p - 1) * |e| ≤ unit F * (1 / 2) * |e| :=
                mul_le_mul_of_nonneg_right h1 hepos.le
              nlinarith
            have hqpos : 0 < |z / e| := lt_of_lt_of_le (two_zpow_pos _) hqlow
            have hqerr := abs_le.1 (roundMag_err hqpos fun _ => hqlow)
            have hq : (1 - unit F) * |z / e| ≤ t := by linarith [hqerr.1]
            rw [abs_div, ← mul_div_assoc, div_le_iff₀ hepos] at hq
            nlinarith
          · simp [Fp.le] at h
      · have hsz : ∃ s, Fp.sub F (.fin g) (.fin e) = .inf s := ⟨_, by simp only [Fp.sub, Fp.round, if_neg hz]; rfl⟩
        obtain ⟨s, hsz⟩ := hsz
        rw [hsz] at h
        simp [Fp.div, Fp.abs, Fp.le] at h

/-- With both tolerances zero two finite numbers are accepted if and only if they are equal. -/
theorem C77_zero (F : Format) (hF : F.emin + 2 * F.p ≤ 0) {g e : ℚ} (hg : Rep F g) (he : Rep F e) :
    floatEqual F (.fin g) (.fin e) (.fin 0) (.fin 0) = .ok (decide (g = e)) := by
  have h0 : Rep F 0 := ⟨0, F.emin, by simp, le_rfl, F.emin_le, by simp⟩
  have ht : Tolerance (.fin 0) := le_refl (0 : ℚ)
  by_cases h : g = e
  · subst h
    rw [C77_accepts F hg hg ht ht h0 h0 (Or.inl (by simp [Within]))]
    simp
  · obtain ⟨b, hb⟩ := (C77_throws F (.fin g) (.fin e) (.fin 0) (.fin 0)).2 ht ht
    rw [hb]
    cases b with
    | false => simp [h]
    | true =>
      have hpos : 0 < |g - e| := abs_pos.2 (sub_ne_zero.2 h)
      have hul := unit_le F
      rcases C77_rejects F hF hg he ht ht hb with h1 | h1
      · have h1 : (1 - unit F) * |g - e| ≤ 0 := h1
        nlinarith
      · have h1 : (1 - unit F) ^ 2 * |g - e| ≤ 0 * |e| := h1
        rw [zero_mul] at h1
        have : 0 < (1 - unit F) ^ 2 := by apply pow_pos; linarith
        nlinarith

/-- Every value equals itself. -/
theorem C77_refl (F : Format) (x a r : Flt) (ha : Tolerance a) (hr : Tolerance r) :
    floatEqual F x x a r = .ok true := by
  rcases x with s | s | q
  · rw [C77_special F _ _ _ _ ha hr (by simp)]; simp
  · rw [C77_special F _ _ _ _ ha hr (by simp)]; simp
  · rw [feq ha hr]
    have : Fp.le (Fp.abs (Fp.sub F (.fin q) (.fin q))) a = true := by
      have h : Fp.sub F (.fin q) (.fin q) = .fin 0 := by
        simp only [Fp.sub, Fp.round, sub_self, abs_zero, roundMag_zero]
        rw [if_pos (two_zpow_pos _)]; simp
      rw [h]
      simp only [Fp.abs, abs_zero]
      exact tol_le.2 ha
    rw [this]; rfl

/-- `floatLess` and `floatGreater` are both true exactly if `floatEqual` is, and one of them is unless exactly one of the values is NaN. -/
theorem C77_less_greater (F : Format) (given expected a r : Flt) (ha : Tolerance a) (hr : Tolerance r) :
    ∃ l g q, floatLess F given expected a r = .ok l ∧ floatGreater F given expected a r = .ok g ∧
      floatEqual F given expected a r = .ok q ∧ ((l = true ∧ g = true) ↔ q = true) ∧
      (l = false ∧ g = false ↔ ((∃ s, given = .nan s) ↔ ¬ ∃ s, expected = .nan s)) := by
  obtain ⟨q, hq⟩ := (C77_throws F given expected a r).2 ha hr
  have hanti : Fp.le given expected = true → Fp.le expected given = true → given = expected := by
    rcases given with s | s | g <;> rcases expected with t | t | e
    case inf.inf => cases s <;> cases t <;> simp [Fp.le]
    case inf.fin => cases s <;> simp [Fp.le]
    case fin.inf => cases t <;> simp [Fp.le]
    case fin.fin =>
      simp only [Fp.le, decide_eq_true_eq]
      intro h1 h2; rw [le_antisymm h1 h2]
    all_goals simp [Fp.le]
  have htot : (Fp.le given expected = false ∧ Fp.le expected given = false) ↔
      ((∃ s, given = .nan s) ∨ ∃ s, expected = .nan s) := by
    rcases given with s | s | g <;> rcases expected with t | t | e
    case inf.inf => cases s <;> cases t <;> simp [Fp.le]
    case inf.fin => cases s <;> simp [Fp.le]
    case fin.inf => cases t <;> simp [Fp.le]
    case fin.fin =>
      simp only [Fp.le, decide_eq_false_iff_not, not_le]
      simp
      intro h; exact h.le
    all_goals simp [Fp.le]
  have hnan : ∀ s t, given = .nan s → expected = .nan t → q = true := by
    rintro s t rfl rfl
    rw [C77_special F _ _ _ _ ha hr (by simp)] at hq
    have := Except.ok.inj hq
    rw [← this]; simp
  have hnan' : ((∃ s, given = .nan s) ↔ ¬ ∃ s, expected = .nan s) → q = false := by
    intro h
    rw [C77_special F _ _ _ _ ha hr (by
      rintro ⟨g, e, rfl, rfl⟩
      simp at h)] at hq
    have := Except.ok.inj hq
    rw [← this, decide_eq_false_iff_not]
    rintro (⟨s, t, rfl, rfl⟩ | ⟨s, rfl, rfl⟩)
    · simp at h
    · simp at h
  have hself : given = expected → q = true := by
    rintro rfl
    rw [C77_refl F _ _ _ ha hr] at hq
    exact (Except.ok.inj hq).symm
  refine ⟨if Fp.le given expected then true else q, if Fp.le expected given then true else q, q, ?_, ?_, hq, ?_, ?_⟩
  · unfold floatLess; split_ifs <;> simp [hq]
  · unfold floatGreater; split_ifs <;> simp [hq]
  · by_cases h1 : Fp.le given expected = true <;> by_cases h2 : Fp.le expected given = true
    · simp [h1, h2, hself (hanti h1 h2)]
    · simp [h1, h2]
    · simp [h1, h2]
    · simp [h1, h2]
  · constructor
    · rintro ⟨h1, h2⟩
      have hl : Fp.le given expected = false := by
        by_contra hc; rw [Bool.not_eq_false] at hc; simp [hc] at h1
      have hg : Fp.le expected given = false := by
        by_contra hc; rw [Bool.not_eq_false] at hc; simp [hc] at h2
      have hq0 : q = false := by simpa [hl] using h1
      constructor
      · rintro ⟨s, hs⟩ ⟨t, ht⟩
        rw [hnan s t hs ht] at hq0; cases hq0
      · intro hn
        exact (htot.1 ⟨hl, hg⟩).resolve_right hn
    · intro h
      have hq0 := hnan' h
      have hor : (∃ s, given = .nan s) ∨ ∃ s, expected = .nan s := by
        by_cases hg : ∃ s, given = .nan s
        · exact Or.inl hg
        · exact Or.inr (not_not.1 fun hc => hg (h.2 hc))
      obtain ⟨hl, hg⟩ := htot.2 hor
      simp [hl, hg, hq0]

/-- The format of `long double` on x86. -/
def x87 : Format := ⟨64, -16445, 16320, by norm_num, by norm_num⟩

/-- The relative tolerance is not kept if the difference overflows: the largest number of the format and its negative
have relative error exactly two, and are rejected with the relative tolerance two. -/
theorem C77_overflow_refuted (F : Format) : ∃ g e : ℚ, Rep F g ∧ Rep F e ∧ WithinRel |g - e| e (.fin 2) ∧
    floatEqual F (.fin g) (.fin e) (.fin 0) (.fin 2) = .ok false := by
  have hp1 := F.one_le_p
  have hM : (1 : ℚ) ≤ 2 ^ F.p - 1 := by
    have : (2 : ℚ) ^ 1 ≤ 2 ^ F.p := pow_le_pow_right₀ (by norm_num) F.one_le_p
    linarith
  have hrep : Rep F ((2 ^ F.p - 1) * 2 ^ F.emax) := by
    refine ⟨2 ^ F.p - 1, F.emax, ?_, F.emin_le, le_rfl, by push_cast; rfl⟩
    have : (1 : ℤ) ≤ 2 ^ F.p := one_le_pow₀ (by norm_num)
    rw [abs_of_nonneg (by omega)]; omega
  have hPpos : (0 : ℚ) < 2 ^ F.emax := two_zpow_pos _
  have hpos : (0 : ℚ) < (2 ^ F.p - 1) * 2 ^ F.emax := mul_pos (by linarith) hPpos
  have habs : |(-((2 ^ F.p - 1) * 2 ^ F.emax) - (2 ^ F.p - 1) * 2 ^ F.emax : ℚ)| = 2 * ((2 ^ F.p - 1) * 2 ^ F.emax) := by
    rw [show (-((2 ^ F.p - 1) * 2 ^ F.emax) - (2 ^ F.p - 1) * 2 ^ F.emax : ℚ) = -(2 * ((2 ^ F.p - 1) * 2 ^ F.emax)) by ring,
      abs_neg, abs_of_pos (by linarith)]
  refine ⟨-((2 ^ F.p - 1) * 2 ^ F.emax), (2 ^ F.p - 1) * 2 ^ F.emax, rep_neg hrep, hrep, ?_, ?_⟩
  · show |_ - _| ≤ 2 * |_|
    rw [habs, abs_of_pos hpos]
  · have ht : ∀ t : ℚ, 0 ≤ t → Tolerance (.fin t) := fun t h => h
    rw [feq (ht 0 (by norm_num)) (ht 2 (by norm_num))]
    have hbig : ¬ roundMag F |(-((2 ^ F.p - 1) * 2 ^ F.emax) - (2 ^ F.p - 1) * 2 ^ F.emax : ℚ)| < 2 ^ (F.emax + F.p) := by
      rw [habs, not_lt]
      set d : ℚ := 2 * ((2 ^ F.p - 1) * 2 ^ F.emax) with hd
      have hdpos : 0 < d := by rw [hd]; linarith
      have e1 : (2 : ℚ) ^ (F.emax + F.p) = 2 ^ F.p * 2 ^ F.emax := by rw [two_zpow_add, zpow_natCast, mul_comm]
      have hlow : (2 : ℚ) ^ (F.emax + F.p) ≤ d := by rw [e1, hd]; nlinarith
      have hhigh : d < 2 ^ (F.emax + F.p + 1) := by rw [two_zpow_add, e1, hd]; norm_num; nlinarith
      have hexp : expo F d ≤ F.emax + F.p := by
        by_contra hc
        have h1 := expo_le F hdpos (by have := F.emin_le; omega)
        have h2 : (2 : ℚ) ^ (F.emax + F.p + 1) ≤ 2 ^ (expo F d + F.p - 1) := two_zpow_le (by omega)
        linarith
      obtain ⟨k, hk⟩ : ∃ k : ℕ, F.emax + F.p = expo F d + k := ⟨(F.emax + F.p - expo F d).toNat, by omega⟩
      have hm : (((2 : ℤ) ^ k : ℤ) : ℚ) * 2 ^ expo F d = 2 ^ (F.emax + F.p) := by
        rw [hk, two_zpow_add, zpow_natCast]; push_cast; rw [mul_comm]
      have := roundMag_ge_of (F := F) (a := d) (m := 2 ^ k) (by rw [hm]; exact hlow)
      rwa [hm] at this
    have hsz : ∃ s, Fp.sub F (.fin (-((2 ^ F.p - 1) * 2 ^ F.emax))) (.fin ((2 ^ F.p - 1) * 2 ^ F.emax)) = .inf s :=
      ⟨_, by simp only [Fp.sub, Fp.round, if_neg hbig]; rfl⟩
    obtain ⟨s, hsz⟩ := hsz
    rw [hsz]
    rfl

/-- The theorems apply to `long double`, and the tolerance two is one of its numbers. -/
example : x87.emin + 2 * x87.p ≤ 0 ∧ Rep x87 2 :=
  ⟨by decide, 1, 1, by simp [x87], by simp [x87], by simp [x87], by norm_num⟩

/-- The comparison is not symmetric: the second number is the reference. -/
example : floatEqual ⟨53, -1074, 971, by norm_num, by norm_num⟩ (.fin 100) (.fin 125) (.fin 0) (.fin (1 / 4)) = .ok true ∧
    floatEqual ⟨53, -1074, 971, by norm_num, by norm_num⟩ (.fin 120) (.fin 100) (.fin 0) (.fin (3 / 16)) = .ok false ∧
    floatEqual ⟨53, -1074, 971, by norm_num, by norm_num⟩ (.fin 100) (.fin 120) (.fin 0) (.fin (3 / 16)) = .ok true := by
  decide +kernel

end ICPC.Props
