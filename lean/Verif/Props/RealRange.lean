import Verif.Lemmas.RealRange
import Verif.Props.RandGeo

/-!
# C84: random reals with bounds
-/

namespace ICPC.Props

open ICPC.Fp ICPC.Spec.Fp

private theorem le_fin (a b : ℚ) : Fp.le (.fin a) (.fin b) = decide (a ≤ b) := rfl

private theorem lt_fin (a b : ℚ) : Fp.lt (.fin a) (.fin b) = decide (a < b) := by
  unfold Fp.lt
  rw [le_fin, le_fin]
  by_cases h : a < b
  · simp [h, h.le]
  · simp [h, not_lt.1 h]

private theorem lt_cases {a : Flt} {u : ℚ} (l : ℚ) (h : (Fp.le (.fin l) a && Fp.lt a (.fin u)) = true) :
    ∃ q, a = .fin q ∧ l ≤ q ∧ q < u := by
  cases a with
  | nan s => simp [Fp.le] at h
  | inf s => cases s <;> simp [Fp.le, Fp.lt] at h
  | fin q => rw [le_fin, lt_fin] at h; simp at h; exact ⟨q, rfl, h⟩

/-- The values of `real()`, C12. -/
theorem realWords_range {ws rest : List Nat} {x : ℚ} (hw : ∀ w ∈ ws, w < 2 ^ 64) (h : realWords ws = some (x, rest)) :
    0 < x ∧ x ≤ 1 := by
  cases ws with
  | nil => simp [realWords] at h
  | cons w ws => have := C12_real_partial w ws rest x hw h; exact ⟨this.1, this.2.1⟩

theorem exponentLoop_suffix : ∀ {ws rest : List Nat} {e : Nat}, exponentLoop ws = some (e, rest) → ∃ pre, ws = pre ++ rest := by
  intro ws
  induction ws with
  | nil => intro rest e h; simp [exponentLoop] at h
  | cons x ws ih =>
    intro rest e h
    unfold exponentLoop at h
    split at h
    · rw [Option.map_eq_some_iff] at h
      obtain ⟨⟨e', r⟩, h1, h2⟩ := h
      obtain ⟨pre, hp⟩ := ih h1
      injection h2 with _ h2
      dsimp only at h2
      exact ⟨x :: pre, by rw [← h2, hp]; rfl⟩
    · injection h with h; injection h with _ h
      exact ⟨[x], by rw [← h]; rfl⟩

theorem realWords_suffix {ws rest : List Nat} {x : ℚ} (h : realWords ws = some (x, rest)) : ∃ pre, ws = pre ++ rest := by
  cases ws with
  | nil => simp [realWords] at h
  | cons w ws =>
    unfold realWords at h
    rw [Option.map_eq_some_iff] at h
    obtain ⟨⟨e, r⟩, h1, h2⟩ := h
    obtain ⟨pre, hp⟩ := exponentLoop_suffix h1
    injection h2 with _ h2
    dsimp only at h2
    exact ⟨w :: pre, by rw [← h2, hp]; rfl⟩

private theorem words_rest {ws rest : List Nat} {x : ℚ} (hw : ∀ w ∈ ws, w < 2 ^ 64) (h : realWords ws = some (x, rest)) :
    ∀ w ∈ rest, w < 2 ^ 64 := by
  obtain ⟨pre, rfl⟩ := realWords_suffix h
  intro w hm
  exact hw w (List.mem_append_right _ hm)

/-! ### `real(upper)` -/

/-- One iteration accepts every value of `real()` up to one half. -/
private theorem upper_accept {F : Format} {u x : ℚ} (hu : Rep F u) (h0 : 0 < u) (hx : 0 < x) (hx2 : x ≤ 1 / 2) :
    ∃ q, mul F (.fin x) (.fin u) = .fin q ∧ 0 ≤ q ∧ q < u := by
  have hxu : |x * u| ≤ |u| := by
    rw [abs_of_pos h0, abs_of_pos (mul_pos hx h0)]
    nlinarith
  obtain ⟨q, hq⟩ := round_fin hu hxu
  have hq0 := round_nonneg hq (mul_pos hx h0).le
  refine ⟨q, hq, hq0, ?_⟩
  have h1 := round_abs_eq hq
  rw [abs_of_nonneg hq0, abs_of_pos (mul_pos hx h0)] at h1
  rw [h1]
  refine lt_of_le_of_lt (roundMag_mono F (mul_pos hx h0).le ?_) (roundMag_half_lt hu h0)
  nlinarith

private theorem upper_loop_sound {F : Format} {u : ℚ} : ∀ (fuel : ℕ) {ws rest : List Nat} {r : Flt},
    realUpperLoop F (.fin u) fuel ws = some (.ok r, rest) →
    ∃ q ws' x k xs, Draws k ws xs ws' ∧ realWords ws' = some (x, rest) ∧ r = .fin q ∧ 0 ≤ q ∧ q < u ∧ Nearest F (x * u) q := by
  intro fuel
  induction fuel with
  | zero => intro ws rest r h; simp [realUpperLoop] at h
  | succ n ih =>
    intro ws rest r h
    unfold realUpperLoop at h
    cases hr : realWords ws with
    | none => rw [hr] at h; simp at h
    | some p =>
      obtain ⟨x, ws1⟩ := p
      rw [hr] at h
      dsimp only at h
      split at h
      · next hc =>
        obtain ⟨q, hq, h1, h2⟩ := lt_cases 0 hc
        injection h with h; injection h with h h'
        injection h with h
        subst h'
        exact ⟨q, ws, x, 0, [], .nil ws, hr, by rw [← h, hq], h1, h2, round_nearest hq⟩
      · obtain ⟨q, ws', y, k, xs, hd, hy, hrest⟩ := ih h
        exact ⟨q, ws', y, k + 1, x :: xs, .cons hr hd, hy, hrest⟩

/-- **C84.** What `real(upper)` returns is a number of the format, not negative and less than `upper`, and the nearest number
of the format to the product of the last value of `real()` and `upper`. -/
theorem C84_upper (F : Format) (u : ℚ) (fuel : ℕ) (ws rest : List Nat) (r : Flt)
    (h : realUpper F fuel (.fin u) ws = some (.ok r, rest)) :
    ∃ q ws' x k xs, Draws k ws xs ws' ∧ realWords ws' = some (x, rest) ∧ r = .fin q ∧ 0 ≤ q ∧ q < u ∧ Nearest F (x * u) q := by
  unfold realUpper at h
  split at h
  · cases h
  split at h
  · cases h
  exact upper_loop_sound fuel h

private theorem upper_loop_ends {F : Format} {u : ℚ} (hu : Rep F u) (h0 : 0 < u) : ∀ {k : ℕ} {ws rest : List Nat} {xs : List ℚ},
    (∀ w ∈ ws, w < 2 ^ 64) → Draws k ws xs rest → (∃ x ∈ xs, x ≤ 1 / 2) →
    ∃ q rest', realUpperLoop F (.fin u) k ws = some (.ok (.fin q), rest') := by
  intro k ws rest xs hw hd
  induction hd with
  | nil ws => rintro ⟨x, hx, -⟩; simp at hx
  | @cons k ws ws' rest x xs hr hd ih =>
    rintro ⟨y, hy, hy2⟩
    unfold realUpperLoop
    rw [hr]
    dsimp only
    obtain ⟨hx0, hx1⟩ := realWords_range hw hr
    by_cases hc : (Fp.le (.fin 0) (mul F (.fin x) (.fin u)) && Fp.lt (mul F (.fin x) (.fin u)) (.fin u)) = true
    · rw [if_pos hc]
      obtain ⟨q, hq, -⟩ := lt_cases 0 hc
      exact ⟨q, ws', by rw [hq]⟩
    · rw [if_neg hc]
      rcases List.mem_cons.1 hy with rfl | hy
      · exfalso
        obtain ⟨q, hq, h1, h2⟩ := upper_accept hu h0 hx0 hy2
        rw [hq, le_fin, lt_fin] at hc
        simp [h1, h2] at hc
      · exact ih (words_rest hw hr) ⟨y, hy, hy2⟩

/-- **C84.** `real(upper)` ends at the latest with the first value of `real()` that is at most one half. -/
theorem C84_upper_ends (F : Format) (u : ℚ) (hu : Rep F u) (h0 : 0 < u) (k : ℕ) (ws rest : List Nat) (xs : List ℚ)
    (hw : ∀ w ∈ ws, w < 2 ^ 64) (hd : Draws k ws xs rest) (hx : ∃ x ∈ xs, x ≤ 1 / 2) :
    ∃ q rest', realUpper F k (.fin u) ws = some (.ok (.fin q), rest') := by
  unfold realUpper
  rw [lt_fin]
  simp only [isfinite, Bool.not_true, Bool.false_eq_true, if_false, decide_eq_true h0]
  exact upper_loop_ends hu h0 hw hd hx

/-- **C84.** A value of `real()` is at most one half if its second word is even, so half of all words end the loop. -/
theorem C84_half (w x : Nat) (ws rest : List Nat) (v : ℚ) (hw : ∀ y ∈ w :: x :: ws, y < 2 ^ 64) (hx : x % 2 = 0)
    (h : realWords (w :: x :: ws) = some (v, rest)) : v ≤ 1 / 2 := by
  unfold realWords at h
  rw [Option.map_eq_some_iff] at h
  obtain ⟨⟨e, r⟩, he, hv⟩ := h
  injection hv with hv hr
  dsimp only at hv hr
  subst hr
  obtain ⟨m1, m2⟩ := or_top (hw w (by simp))
  obtain ⟨b1, b2⟩ := toDouble_bounds m1 m2
  have hz := exponentLoop_zero (fun y hy => hw y (by simp [hy])) he
  have he0 : e ≠ 0 := by
    intro h0
    obtain ⟨y, hy, hodd⟩ := hz.1 h0
    injection hy with hy _
    omega
  rw [← hv, div_le_div_iff₀ (by positivity) (by norm_num)]
  generalize toDouble (w ||| 2 ^ 63) = d at *
  have h1 : (d : ℚ) ≤ 2 ^ 64 := by exact_mod_cast b2
  have h2 : (2 : ℚ) ^ 65 ≤ 2 ^ (64 + e) := pow_le_pow_right₀ (by norm_num) (by omega)
  linarith

/-- **C84.** Bounds that are not finite, or not positive, are rejected before anything is drawn. -/
theorem C84_upper_throws (F : Format) (fuel : ℕ) (upper : Flt) (ws : List Nat)
    (h : ¬ ∃ u, upper = .fin u ∧ 0 < u) : realUpper F fuel upper ws = some (.error .throw, ws) := by
  unfold realUpper
  cases upper with
  | nan s => rfl
  | inf s => rfl
  | fin u =>
    have : ¬ 0 < u := fun h' => h ⟨u, rfl, h'⟩
    rw [lt_fin]
    simp [isfinite, this]

/-- IEEE 754 binary64. -/
private def d64 : Format := ⟨53, -1074, 971, by norm_num, by norm_num⟩

-- the first value is 1, the product is rejected; the second one is 1 / 4
example : realUpper d64 2 (.fin 3) [2 ^ 64 - 1, 1, 0, 2] = some (.ok (.fin (3 / 4)), []) := by decide +kernel

example : Rep d64 3 ∧ (0 : ℚ) < 3 := ⟨⟨3, 0, by decide, by decide, by decide, by norm_num⟩, by norm_num⟩

example : realUpper d64 2 (.fin 0) [0, 2] = some (.error .throw, [0, 2]) := by decide +kernel

/-! ### `real(lower, upper)` -/

/-- The number computed in one iteration, step by step. -/
theorem range_steps {F : Format} {l u x : ℚ} (h1 : Rep F 1) (hl : Rep F l) (hu : Rep F u) (hx : 0 < x) (hx1 : x ≤ 1) :
    ∃ c b d, round F (1 - x) = .fin c ∧ round F (l * c) = .fin b ∧ round F (u * x) = .fin d ∧ 0 ≤ c ∧ c ≤ 1 ∧ |b| ≤ |l| ∧ |d| ≤ |u| ∧
      add F (mul F (.fin l) (sub F (.fin 1) (.fin x))) (mul F (.fin u) (.fin x)) = round F (b + d) := by
  obtain ⟨c, hc⟩ := round_fin (F := F) (z := 1 - x) h1 (by rw [abs_of_nonneg (by linarith)]; simp; linarith)
  have hc0 := round_nonneg hc (by linarith)
  have hc1 : c ≤ 1 := nearest_le (round_nearest hc) h1 (by linarith)
  have hlc : |l * c| ≤ |l| := by
    rw [abs_mul, abs_of_nonneg hc0]
    nlinarith [abs_nonneg l]
  have hux : |u * x| ≤ |u| := by
    rw [abs_mul, abs_of_pos hx]
    nlinarith [abs_nonneg u]
  obtain ⟨b, hb⟩ := round_fin hl hlc
  obtain ⟨d, hd⟩ := round_fin hu hux
  refine ⟨c, b, d, hc, hb, hd, hc0, hc1, round_abs_le hb hl hlc, round_abs_le hd hu hux, ?_⟩
  unfold sub
  dsimp only
  rw [hc]
  unfold mul
  dsimp only
  rw [hb, hd]
  rfl

/-- The error of the number computed in one iteration. -/
theorem range_err {F : Format} {l u x c b d q : ℚ} (hF : F.emin ≤ 1 - F.p) (hx : 0 < x) (hx1 : x ≤ 1)
    (hc : round F (1 - x) = .fin c) (hb : round F (l * c) = .fin b) (hd : round F (u * x) = .fin d) (hc0 : 0 ≤ c) (hc1 : c ≤ 1)
    (hbl : |b| ≤ |l|) (hdu : |d| ≤ |u|) (hq : round F (b + d) = .fin q) :
    |q - (l * (1 - x) + u * x)| ≤ 8 * unit F * max |l| |u| + 2 ^ (F.emin + 1) := by
  have hη := two_zpow_pos (F.emin - 1)
  have hu := unit_pos F
  have hηu : (2 : ℚ) ^ (F.emin - 1) ≤ unit F := by unfold unit; exact two_zpow_le (by omega)
  have h4 : (2 : ℚ) ^ (F.emin + 1) = 4 * 2 ^ (F.emin - 1) := by
    rw [show F.emin + 1 = 2 + (F.emin - 1) by ring, two_zpow_add]; norm_num
  have e1 := round_err hc
  have e2 := round_err hb
  have e3 := round_err hd
  have e4 := round_err hq
  set M := max |l| |u| with hM
  have hlM : |l| ≤ M := le_max_left _ _
  have huM : |u| ≤ M := le_max_right _ _
  have hM0 : 0 ≤ M := le_trans (abs_nonneg l) hlM
  rw [abs_of_nonneg (by linarith : (0 : ℚ) ≤ 1 - x)] at e1
  have e1' : |c - (1 - x)| ≤ 2 * unit F := by nlinarith
  have hlc : |l * c| ≤ M := by
    rw [abs_mul, abs_of_nonneg hc0]
    nlinarith [abs_nonneg l]
  have hux : |u * x| ≤ M := by
    rw [abs_mul, abs_of_pos hx]
    nlinarith [abs_nonneg u]
  have hbd : |b + d| ≤ 2 * M := le_trans (abs_add_le _ _) (by linarith)
  have e2' : |b - l * c| ≤ unit F * M + 2 ^ (F.emin - 1) := le_trans e2 (by nlinarith)
  have e3' : |d - u * x| ≤ unit F * M + 2 ^ (F.emin - 1) := le_trans e3 (by nlinarith)
  have e4' : |q - (b + d)| ≤ unit F * (2 * M) + 2 ^ (F.emin - 1) := le_trans e4 (by nlinarith)
  have e5 : |l * c - l * (1 - x)| ≤ 2 * unit F * M := by
    rw [← mul_sub, abs_mul]
    nlinarith [abs_nonneg l, abs_nonneg (c - (1 - x))]
  rw [h4, show q - (l * (1 - x) + u * x) = (q - (b + d)) + (b - l * c) + (d - u * x) + (l * c - l * (1 - x)) by ring]
  refine le_trans (abs_add_le _ _) ?_
  have s1 := abs_add_le (q - (b + d) + (b - l * c)) (d - u * x)
  have s2 := abs_add_le (q - (b + d)) (b - l * c)
  nlinarith [mul_nonneg hu.le hM0]

private theorem range_loop_sound {F : Format} {l u : ℚ} (h1 : Rep F 1) (hF : F.emin ≤ 1 - F.p) (hl : Rep F l) (hu : Rep F u) :
    ∀ (fuel : ℕ) {ws rest : List Nat} {r : Flt}, (∀ w ∈ ws, w < 2 ^ 64) →
    realRangeLoop F (.fin l) (.fin u) fuel ws = some (.ok r, rest) →
    ∃ q ws' x k xs, Draws k ws xs ws' ∧ realWords ws' = some (x, rest) ∧ r = .fin q ∧ Rep F q ∧ l ≤ q ∧ q < u ∧
      |q - (l * (1 - x) + u * x)| ≤ 8 * unit F * max |l| |u| + 2 ^ (F.emin + 1) := by
  intro fuel
  induction fuel with
  | zero => intro ws rest r hw h; simp [realRangeLoop] at h
  | succ n ih =>
    intro ws rest r hw h
    unfold realRangeLoop at h
    cases hr : realWords ws with
    | none => rw [hr] at h; simp at h
    | some p =>
      obtain ⟨x, ws1⟩ := p
      rw [hr] at h
      dsimp only at h
      split at h
      · next hcond =>
        obtain ⟨q, hq, g1, g2⟩ := lt_cases l hcond
        injection h with h; injection h with h h'
        injection h with h
        subst h'
        obtain ⟨hx0, hx1⟩ := realWords_range hw hr
        obtain ⟨c, b, d, hc, hb, hd, hc0, hc1, hbl, hdu, he⟩ := range_steps h1 hl hu hx0 hx1
        rw [he] at hq
        exact ⟨q, ws, x, 0, [], .nil ws, hr, by rw [← h, he, hq], (round_nearest hq).1, g1, g2,
          range_err hF hx0 hx1 hc hb hd hc0 hc1 hbl hdu hq⟩
      · obtain ⟨q, ws', y, k, xs, hd, hy, hrest⟩ := ih (words_rest hw hr) h
        exact ⟨q, ws', y, k + 1, x :: xs, .cons hr hd, hy, hrest⟩

/-- **C84.** What `real(lower, upper)` returns is a number of the format, at least `lower` and less than `upper`; up to rounding it
is the number that divides the interval in the ratio of the last value of `real()`. -/
theorem C84_range (F : Format) (l u : ℚ) (h1 : Rep F 1) (hF : F.emin ≤ 1 - F.p) (hl : Rep F l) (hu : Rep F u) (fuel : ℕ)
    (ws rest : List Nat) (hw : ∀ w ∈ ws, w < 2 ^ 64) (r : Flt) (h : realRange F fuel (.fin l) (.fin u) ws = some (.ok r, rest)) :
    ∃ q ws' x k xs, Draws k ws xs ws' ∧ realWords ws' = some (x, rest) ∧ r = .fin q ∧ Rep F q ∧ l ≤ q ∧ q < u ∧
      |q - (l * (1 - x) + u * x)| ≤ 8 * unit F * max |l| |u| + 2 ^ (F.emin + 1) := by
  unfold realRange at h
  split at h
  · cases h
  split at h
  · cases h
  split at h
  · cases h
  exact range_loop_sound h1 hF hl hu fuel hw h

/-- Bounds of different signs: everything up to one quarter is accepted. -/
private theorem range_accept_mixed {F : Format} {l u x : ℚ} (h1 : Rep F 1) (h34 : Rep F (3 / 4)) (hl : Rep F l) (hu : Rep F u) (hlu : l < u)
    (hl0 : l ≤ 0) (hu0 : 0 ≤ u) (hx : 0 < x) (hx2 : x ≤ 1 / 4) :
    ∃ q, add F (mul F (.fin l) (sub F (.fin 1) (.fin x))) (mul F (.fin u) (.fin x)) = .fin q ∧ l ≤ q ∧ q < u := by
  obtain ⟨c, b, d, hc, hb, hd, hc0, hc1, hbl, hdu, he⟩ := range_steps h1 hl hu hx (by linarith)
  have hc34 : 3 / 4 ≤ c := nearest_ge (round_nearest hc) h34 (by linarith)
  have hb0 : b ≤ 0 := round_nonpos hb (mul_nonpos_of_nonpos_of_nonneg hl0 hc0)
  have hd0 : 0 ≤ d := round_nonneg hd (mul_nonneg hu0 hx.le)
  have hrb := (round_nearest hb).1
  have hrd := (round_nearest hd).1
  rw [abs_of_nonpos hb0, abs_of_nonpos hl0] at hbl
  rw [abs_of_nonneg hd0, abs_of_nonneg hu0] at hdu
  have hfin : ∃ q, round F (b + d) = .fin q := by
    rcases le_total |b| |d| with h | h
    · refine round_fin hrd ?_
      rw [abs_of_nonpos hb0, abs_of_nonneg hd0] at h
      rw [abs_of_nonneg hd0, abs_of_nonneg (by linarith)]; linarith
    · refine round_fin hrb ?_
      rw [abs_of_nonpos hb0, abs_of_nonneg hd0] at h
      rw [abs_of_nonpos hb0, abs_of_nonpos (by linarith)]; linarith
  obtain ⟨q, hq⟩ := hfin
  have hn := round_nearest hq
  refine ⟨q, by rw [he, hq], nearest_ge hn hl (by linarith), ?_⟩
  rcases hu0.eq_or_lt with h0 | h0
  · -- the upper bound is zero
    subst h0
    have hd' : d = 0 := by linarith
    have hb1 : b < 0 := by
      rcases hb0.eq_or_lt with hb' | hb'
      · exfalso
        have hz := round_abs_eq hb
        rw [hb', abs_zero] at hz
        have hz := (roundMag_eq_zero_iff (abs_nonneg _)).1 hz.symm
        have hl' : 2 ^ F.emin ≤ |l| := by
          obtain ⟨m, e, hm, hem, hem', hle⟩ := hl
          have hm0 : m ≠ 0 := by rintro rfl; simp at hle; linarith
          rw [hle, abs_mul, abs_of_pos (two_zpow_pos e)]
          have : (1 : ℚ) ≤ |(m : ℚ)| := by exact_mod_cast Int.one_le_abs hm0
          have h2 := two_zpow_le hem
          nlinarith [two_zpow_pos e]
        rw [abs_mul, abs_of_nonneg hc0] at hz
        have h3 : (2 : ℚ) ^ (F.emin - 1) = 1 / 2 * 2 ^ F.emin := by
          rw [show F.emin - 1 = -1 + F.emin by ring, two_zpow_add]; norm_num
        have h4 := two_zpow_pos F.emin
        nlinarith [abs_nonneg l]
      · exact hb'
    have : q ≤ b := nearest_le hn hrb (by linarith)
    linarith
  · have hd1 : d < u := by
      have h2 := round_abs_eq hd
      rw [abs_of_nonneg hd0, abs_of_pos (mul_pos h0 hx)] at h2
      rw [h2]
      refine lt_of_le_of_lt (roundMag_mono F (mul_pos h0 hx).le ?_) (roundMag_half_lt hu h0)
      nlinarith
    exact lt_of_le_of_lt (nearest_le hn hrd (by linarith)) hd1

/-- Every pair of bounds: everything that is small enough is accepted. -/
private theorem range_accept {F : Format} {l u x : ℚ} (h1 : Rep F 1) (hl : Rep F l) (hu : Rep F u) (hlu : l < u)
    (hx : 0 < x) (hx2 : x ≤ unit F / 8) :
    ∃ q, add F (mul F (.fin l) (sub F (.fin 1) (.fin x))) (mul F (.fin u) (.fin x)) = .fin q ∧ l ≤ q ∧ q < u := by
  have hup := unit_pos F
  have hul := unit_le F
  obtain ⟨c, b, d, hc, hb, hd, hc0, hc1, hbl, hdu, he⟩ := range_steps h1 hl hu hx (by linarith)
  have hc' : round F (1 - x) = .fin 1 := round_close h1 (by
    rw [show (1 : ℚ) - x - 1 = -x by ring, abs_neg, abs_of_pos hx, abs_one]; linarith)
  have hc1' : c = 1 := Flt.fin.inj (hc.symm.trans hc')
  subst hc1'
  rw [mul_one] at hb
  have hbl' : b = l := by
    obtain ⟨h2, h3⟩ := round_nearest hb
    have := h3 l hl
    rw [sub_self, abs_zero] at this
    have := abs_nonpos_iff.1 this
    linarith
  subst hbl'
  have hrd := (round_nearest hd).1
  have hd2 : |d| ≤ 2 * (|u| * x) := by
    have := roundMag_le_two (F := F) (abs_nonneg (u * x))
    rw [← round_abs_eq hd, abs_mul u, abs_of_pos hx] at this
    exact this
  have hd3 : |d| ≤ unit F * |u| / 4 := by nlinarith [abs_nonneg u]
  have hgap := rep_gap hl hu hlu.ne
  rw [abs_of_neg (by linarith : b - u < 0)] at hgap
  rcases le_or_gt u 0 with hu0 | hu0
  · -- both negative: the sum is rounded to the lower bound
    have hab : |u| ≤ |b| := by rw [abs_of_nonpos hu0, abs_of_nonpos (by linarith)]; linarith
    have : round F (b + d) = .fin b := by
      refine round_close hl ?_
      rw [add_sub_cancel_left]
      have : 0 < |b| := abs_pos.2 (by linarith)
      nlinarith [mul_pos hup this]
    exact ⟨b, by rw [he, this], le_rfl, hlu⟩
  · have hd0 : 0 ≤ d := round_nonneg hd (mul_nonneg hu0.le hx.le)
    rw [abs_of_nonneg hd0, abs_of_pos hu0] at hd3
    rw [abs_of_pos hu0] at hgap
    have hlt : b + d < u := by nlinarith [mul_pos hup hu0]
    have hfin : ∃ q, round F (b + d) = .fin q := by
      rcases le_total 0 (b + d) with h | h
      · exact round_fin hu (by rw [abs_of_nonneg h, abs_of_pos hu0]; linarith)
      · refine round_fin hl ?_
        rw [abs_of_nonpos h, abs_of_nonpos (by linarith)]; linarith
    obtain ⟨q, hq⟩ := hfin
    have hn := round_nearest hq
    refine ⟨q, by rw [he, hq], nearest_ge hn hl (by linarith), ?_⟩
    refine lt_of_le_of_ne (nearest_le hn hu hlt.le) ?_
    rintro rfl
    have := hn.2 b hl
    rw [abs_of_pos (by linarith), show b - (b + d) = -d by ring, abs_neg, abs_of_nonneg hd0] at this
    nlinarith [mul_pos hup hu0]

private theorem range_loop_ends {F : Format} {l u : ℚ} {P : ℚ → Prop}
    (hP : ∀ x, 0 < x → P x → ∃ q, add F (mul F (.fin l) (sub F (.fin 1) (.fin x))) (mul F (.fin u) (.fin x)) = .fin q ∧ l ≤ q ∧ q < u) :
    ∀ {k : ℕ} {ws rest : List Nat} {xs : List ℚ}, (∀ w ∈ ws, w < 2 ^ 64) → Draws k ws xs rest → (∃ x ∈ xs, P x) →
    ∃ q rest', realRangeLoop F (.fin l) (.fin u) k ws = some (.ok (.fin q), rest') := by
  intro k ws rest xs hw hd
  induction hd with
  | nil ws => rintro ⟨x, hx, -⟩; simp at hx
  | @cons k ws ws' rest x xs hr hd ih =>
    rintro ⟨y, hy, hy2⟩
    unfold realRangeLoop
    rw [hr]
    dsimp only
    obtain ⟨hx0, hx1⟩ := realWords_range hw hr
    generalize hz : add F (mul F (.fin l) (sub F (.fin 1) (.fin x))) (mul F (.fin u) (.fin x)) = z
    by_cases hc : (Fp.le (.fin l) z && Fp.lt z (.fin u)) = true
    · rw [if_pos hc]
      obtain ⟨q, hq, -⟩ := lt_cases l hc
      exact ⟨q, ws', by rw [hq]⟩
    · rw [if_neg hc]
      rcases List.mem_cons.1 hy with rfl | hy
      · exfalso
        obtain ⟨q, hq, h1, h2⟩ := hP y hx0 hy2
        rw [hz] at hq
        rw [hq, le_fin, lt_fin] at hc
        simp [h1, h2] at hc
      · exact ih (words_rest hw hr) ⟨y, hy, hy2⟩

/-- **C84.** `real(lower, upper)` ends: for all bounds with the first value of `real()` that is at most an eighth of the relative
error of rounding (which happens with the same positive probability in each iteration), and for bounds of different signs with the
first one that is at most one quarter. -/
theorem C84_range_ends (F : Format) (l u : ℚ) (h1 : Rep F 1) (h34 : Rep F (3 / 4)) (hl : Rep F l) (hu : Rep F u) (hlu : l < u) (k : ℕ)
    (ws rest : List Nat) (xs : List ℚ) (hw : ∀ w ∈ ws, w < 2 ^ 64) (hd : Draws k ws xs rest)
    (hx : ∃ x ∈ xs, x ≤ unit F / 8 ∨ (l ≤ 0 ∧ 0 ≤ u ∧ x ≤ 1 / 4)) :
    ∃ q rest', realRange F k (.fin l) (.fin u) ws = some (.ok (.fin q), rest') := by
  unfold realRange
  rw [lt_fin]
  simp only [isfinite, Bool.not_true, Bool.false_eq_true, if_false, decide_eq_true hlu]
  refine range_loop_ends (P := fun x => x ≤ unit F / 8 ∨ (l ≤ 0 ∧ 0 ≤ u ∧ x ≤ 1 / 4)) ?_ hw hd hx
  rintro x hx0 (h | ⟨hl0, hu0, h⟩)
  · exact range_accept h1 hl hu hlu hx0 h
  · exact range_accept_mixed h1 h34 hl hu hlu hl0 hu0 hx0 h

/-- **C84.** Bounds that are not finite, or not in order, are rejected before anything is drawn. -/
theorem C84_range_throws (F : Format) (fuel : ℕ) (lower upper : Flt) (ws : List Nat)
    (h : ¬ ∃ l u, lower = .fin l ∧ upper = .fin u ∧ l < u) : realRange F fuel lower upper ws = some (.error .throw, ws) := by
  unfold realRange
  cases lower with
  | nan s => rfl
  | inf s => rfl
  | fin l =>
    cases upper with
    | nan s => rfl
    | inf s => rfl
    | fin u =>
      have : ¬ l < u := fun h' => h ⟨l, u, rfl, rfl, h'⟩
      rw [lt_fin]
      simp [isfinite, this]

-- a value of 1 gives the upper bound, which is rejected; 3 / 4 of the way
example : realRange d64 2 (.fin (-1)) (.fin 3) [2 ^ 64 - 1, 1, 2 ^ 62, 1] = some (.ok (.fin 2), []) := by decide +kernel

-- the two numbers next to each other: the lower one is returned
example : realRange d64 1 (.fin 1) (.fin (1 + 1 / 2 ^ 52)) [12345, 8] = some (.ok (.fin 1), []) := by decide +kernel

example : Rep d64 1 ∧ Rep d64 (3 / 4) ∧ d64.emin ≤ 1 - d64.p :=
  ⟨⟨1, 0, by decide, by decide, by decide, by norm_num⟩, ⟨3, -2, by decide, by decide, by decide, by norm_num⟩, by decide⟩

/-- **C75**: in every format, `Integer deg = p * Random::real(0, i+1)` is a possible number of smaller neighbours. -/
theorem C75_degree_float (F : Format) (p : ℚ) (i : ℕ) (h1 : Rep F 1) (hF : F.emin ≤ 1 - F.p) (hi : Rep F (i + 1)) (hp0 : 0 ≤ p) (hp1 : p ≤ 1)
    (fuel : ℕ) (ws rest : List Nat) (hw : ∀ w ∈ ws, w < 2 ^ 64) (r : Flt) (h : realRange F fuel (.fin 0) (.fin (i + 1)) ws = some (.ok r, rest)) :
    ∃ q, mul F (.fin p) r = .fin q ∧ 0 ≤ ⌊q⌋ ∧ ⌊q⌋ ≤ i := by
  obtain ⟨x, -, -, -, -, -, -, rfl, hx, hx0, hx1, -⟩ := C84_range F 0 (i + 1) h1 hF (rep_zero F) hi fuel ws rest hw r h
  have hpx : p * x ≤ x := mul_le_of_le_one_left hx0 hp1
  have hpx0 : 0 ≤ p * x := mul_nonneg hp0 hx0
  obtain ⟨q, hq⟩ := round_fin (F := F) (z := p * x) hx (by rw [abs_of_nonneg hpx0, abs_of_nonneg hx0]; exact hpx)
  have hq0 := round_nonneg hq hpx0
  have hq1 := nearest_le (round_nearest hq) hx hpx
  refine ⟨q, hq, Int.floor_nonneg.2 hq0, ?_⟩
  have : ⌊q⌋ < (i : ℤ) + 1 := Int.floor_lt.2 (by push_cast; linarith)
  omega

end ICPC.Props
