import Verif.Lemmas.FloatDist
import Mathlib.Analysis.Complex.ExponentialBounds

/-!
# C114: `exponential` and `geometric` in floating point
-/

namespace ICPC.Props

open MeasureTheory Spec ICPC.Engine ICPC.Fp ICPC.Spec.Fp

private theorem exponential_value {F : Format} {log : Flt → Flt} {lam x y : ℚ} (hl : 0 < lam) (hy : log (.fin x) = .fin y)
    {ws rest : List ℕ} (h : realWords ws = some (x, rest)) :
    exponential F log (.fin lam) ws = some (.ok (Fp.round F (-y / lam)), rest) := by
  unfold exponential
  rw [lt_fin, h, decide_eq_true hl]
  simp only [Bool.not_true, Bool.false_eq_true, if_false, Option.map_some, hy, neg, Fp.div, if_neg hl.ne']

private theorem exponential_inv {F : Format} {log : Flt → Flt} {lam : ℚ} (hl : 0 < lam)
    {ws rest : List ℕ} {a : Flt} (h : exponential F log (.fin lam) ws = some (.ok a, rest)) :
    ∃ x, realWords ws = some (x, rest) ∧ a = Fp.div F (neg (log (.fin x))) (.fin lam) := by
  unfold exponential at h
  rw [lt_fin, decide_eq_true hl] at h
  simp only [Bool.not_true, Bool.false_eq_true, if_false, Option.map_eq_some_iff] at h
  obtain ⟨⟨x, r⟩, h1, h2⟩ := h
  simp only [Prod.mk.injEq, Except.ok.injEq] at h2
  obtain ⟨rfl, rfl⟩ := h2
  exact ⟨x, h1, rfl⟩

/-- **C114**: if the engine returns independent, uniformly distributed words and `std::log` has a relative error of at most `ε`, then
`exponential(lambda)` is below a number `t` of the format with probability `1 - exp(-lambda t)`, up to `ε` and the error of `real()`;
whether `t` itself counts does not matter. -/
theorem C114_exponential_law (F : Format) (log : Flt → Flt) (ε lam t : ℚ) (hlog : LogWithin ε log) (hε0 : 0 ≤ ε) (hε : ε ≤ 1 / 2)
    (hl : 0 < lam) (ht0 : 0 ≤ t) (ht : Rep F t) :
    engine.real {ω | ∃ n a rest, exponential F log (.fin lam) ((List.range n).map ω) = some (.ok a, rest) ∧ Fp.lt a (.fin t) = true} ≤
      1 - Real.exp (-(lam * t)) + ε + 1 / 2 ^ 52 ∧
    1 - Real.exp (-(lam * t)) - ε - 1 / 2 ^ 52 ≤
      engine.real {ω | ∃ n a rest, exponential F log (.fin lam) ((List.range n).map ω) = some (.ok a, rest) ∧ Fp.le a (.fin t) = true} := by
  have hlR : (0 : ℝ) < lam := by exact_mod_cast hl
  have htR : (0 : ℝ) ≤ t := by exact_mod_cast ht0
  have hε0R : (0 : ℝ) ≤ ε := by exact_mod_cast hε0
  have hεR : (ε : ℝ) ≤ 1 / 2 := by
    have : ((ε : ℚ) : ℝ) ≤ ((1 / 2 : ℚ) : ℝ) := Rat.cast_le.2 hε
    simpa using this
  have hκ : (0 : ℝ) < 1 / 2 ^ 52 := by positivity
  have h1ε : (0 : ℝ) < 1 - ε := by linarith
  have hlt0 : 0 ≤ (lam : ℝ) * t := by positivity
  constructor
  · have hA := above_le {ω | ∃ n a rest, exponential F log (.fin lam) ((List.range n).map ω) = some (.ok a, rest) ∧ Fp.lt a (.fin t) = true}
      (Real.exp (-((lam * t) * (1 / (1 - ε))))) (Real.exp_le_one_iff.2 (by
        have : 0 ≤ (lam * t : ℝ) * (1 / (1 - ε)) := by positivity
        linarith)) (by
        rintro ω hw ⟨n, a, rest, h, ha⟩
        obtain ⟨x, hx, rfl⟩ := exponential_inv hl h
        have hf : First ω x := ⟨n, rest, hx⟩
        obtain ⟨x0, x1⟩ := first_range hw hf
        have hx0 : (0 : ℝ) < x := by exact_mod_cast x0
        obtain ⟨y, hy, hy0, hy1, hy2⟩ := log_within hlog (by linarith) x0 x1
        refine ⟨x, hf, ?_⟩
        rw [hy] at ha
        simp only [neg, Fp.div, if_neg hl.ne'] at ha
        have hz : 0 ≤ -y / lam := div_nonneg (by linarith) hl.le
        have hzt : -y / lam < t := by
          rcases round_cases F hz with ⟨q, hq, _⟩ | hq
          · rw [hq, lt_fin, decide_eq_true_iff] at ha
            by_contra hc
            have := nearest_ge (round_nearest hq) ht (not_lt.1 hc)
            linarith
          · rw [hq] at ha; simp [Fp.lt, Fp.le] at ha
        rw [div_lt_iff₀ hl] at hzt
        have hzR : ((-y : ℚ) : ℝ) < t * lam := by exact_mod_cast hzt
        rw [← Real.le_log_iff_exp_le hx0]
        have : -Real.log x ≤ (lam * t) * (1 / (1 - ε)) := by
          rw [mul_one_div, le_div_iff₀ h1ε]; linarith
        linarith)
    have hB := exp_neg_sub_le (x := (lam * t : ℝ)) (r := 1 / (1 - ε)) (by rw [le_div_iff₀ h1ε]; linarith)
    have hC : (1 / (1 - ε) - 1 : ℝ) ≤ 2 * ε := by
      rw [sub_le_iff_le_add, div_le_iff₀ h1ε]; nlinarith
    generalize (1 : ℝ) / 2 ^ 52 = κ at *
    linarith
  · have hA := above_ge {ω | ∃ n a rest, exponential F log (.fin lam) ((List.range n).map ω) = some (.ok a, rest) ∧ Fp.le a (.fin t) = true}
      (Real.exp (-((lam * t) / (1 + ε)))) (Real.exp_pos _).le (by
        rintro ω hw x hf hs
        obtain ⟨x0, x1⟩ := first_range hw hf
        have hx0 : (0 : ℝ) < x := by exact_mod_cast x0
        obtain ⟨y, hy, hy0, hy1, hy2⟩ := log_within hlog (by linarith) x0 x1
        obtain ⟨n, rest, hx⟩ := hf
        refine ⟨n, _, rest, exponential_value hl hy hx, ?_⟩
        rw [← Real.le_log_iff_exp_le hx0] at hs
        have h1 : -Real.log x ≤ (lam * t) / (1 + ε) := by linarith
        rw [le_div_iff₀ (by linarith)] at h1
        have hzR : ((-y : ℚ) : ℝ) ≤ lam * t := by linarith
        have hzQ : -y ≤ lam * t := by exact_mod_cast hzR
        have hz : 0 ≤ -y / lam := div_nonneg (by linarith) hl.le
        have hzt : -y / lam ≤ t := by rw [div_le_iff₀ hl]; linarith
        obtain ⟨q, hq⟩ := round_fin (F := F) (z := -y / lam) ht (by rw [abs_of_nonneg hz, abs_of_nonneg ht0]; exact hzt)
        have := nearest_le (round_nearest hq) ht hzt
        rw [hq]
        exact decide_eq_true this)
    have hB := exp_neg_sub_le (x := (lam * t : ℝ) / (1 + ε)) (r := 1 + ε) (by linarith)
    rw [div_mul_cancel₀ _ (by linarith : (1 + ε : ℝ) ≠ 0)] at hB
    generalize (1 : ℝ) / 2 ^ 52 = κ at *
    linarith

/-- **C114**: `exponential(lambda)` is not negative and not a NaN; it may overflow to infinity for tiny `lambda`. -/
theorem C114_exponential_nonneg (F : Format) (log : Flt → Flt) (ε lam : ℚ) (hlog : LogWithin ε log) (hε : ε < 1)
    (hl : 0 < lam) (ws rest : List ℕ) (hw : ∀ w ∈ ws, w < 2 ^ 64) (o : Out Flt) (h : exponential F log (.fin lam) ws = some (o, rest)) :
    ∃ a, o = .ok a ∧ Fp.le (.fin 0) a = true := by
  unfold exponential at h
  rw [lt_fin, decide_eq_true hl] at h
  simp only [Bool.not_true, Bool.false_eq_true, if_false, Option.map_eq_some_iff] at h
  obtain ⟨⟨x, r⟩, h1, h2⟩ := h
  simp only [Prod.mk.injEq] at h2
  obtain ⟨rfl, rfl⟩ := h2
  obtain ⟨x0, x1⟩ := realWords_range hw h1
  obtain ⟨y, hy, hy0, -, -⟩ := log_within hlog hε x0 x1
  refine ⟨_, rfl, ?_⟩
  simp only [hy, neg, Fp.div, if_neg hl.ne']
  rcases round_cases F (div_nonneg (by linarith : (0 : ℚ) ≤ -y) hl.le) with ⟨q, hq, hq0⟩ | hq
  · rw [hq]; exact decide_eq_true hq0
  · rw [hq]; rfl

/-- **C114**: what `exponential(lower, upper, lambda)` returns is in `[lower, upper)`, also after rounding and for an infinite `upper`
or `lambda`. -/
theorem C114_exponential_range (F : Format) (log : Flt → Flt) (ε l : ℚ) (upper lambda : Flt) (hlog : LogWithin ε log) (hε : ε < 1)
    (hl : Rep F l) (fuel : ℕ) (ws rest : List ℕ) (hw : ∀ w ∈ ws, w < 2 ^ 64) (a : Flt)
    (h : exponentialIn F log fuel (.fin l) upper lambda ws = some (.ok a, rest)) :
    Fp.le (.fin l) a = true ∧ Fp.lt a upper = true := by
  unfold exponentialIn at h
  split at h
  · simp at h
  split at h
  · simp at h
  split at h
  · simp at h
  split at h
  · simp at h
  next hlam =>
  have key : ∀ fuel ws, (∀ w ∈ ws, w < 2 ^ 64) → exponentialLoop F log (.fin l) upper lambda fuel ws = some (.ok a, rest) →
      Fp.le (.fin l) a = true ∧ Fp.lt a upper = true := by
    intro fuel
    induction fuel with
    | zero => intro ws _ h; simp [exponentialLoop] at h
    | succ fuel ih =>
      intro ws hw h
      unfold exponentialLoop at h
      split at h
      · cases h
      · next x ws' hx =>
        obtain ⟨x0, x1⟩ := realWords_range hw hx
        obtain ⟨y, hy, hy0, -, -⟩ := log_within hlog hε x0 x1
        have hw' : ∀ w ∈ ws', w < 2 ^ 64 := by
          intro w hm
          obtain ⟨pre, rfl⟩ := realWords_suffix hx
          exact hw w (List.mem_append_right _ hm)
        dsimp only at h
        split at h
        · next hlt =>
          simp only [Option.some.injEq, Prod.mk.injEq, Except.ok.injEq] at h
          obtain ⟨rfl, rfl⟩ := h
          refine ⟨?_, hlt⟩
          rw [hy]
          cases lambda with
          | nan s => simp [Fp.lt, Fp.le] at hlam
          | inf s =>
            have e : Fp.sub F (.fin l) (Fp.div F (.fin y) (.inf s)) = Fp.round F l := by simp [Fp.div, Fp.sub]
            rw [e]
            obtain ⟨q, hq⟩ := round_fin (F := F) hl (le_refl |l|)
            rw [hq]
            exact decide_eq_true (nearest_ge (round_nearest hq) hl le_rfl)
          | fin lam =>
            rw [lt_fin] at hlam
            have hlam : 0 < lam := by simpa using hlam
            simp only [Fp.div, if_neg hlam.ne']
            have hz : y / lam ≤ 0 := div_nonpos_of_nonpos_of_nonneg hy0 hlam.le
            by_cases hr : roundMag F |y / lam| < 2 ^ (F.emax + F.p)
            · have e : Fp.round F (y / lam) = .fin (if y / lam < 0 then -roundMag F |y / lam| else roundMag F |y / lam|) := by
                unfold Fp.round; rw [if_pos hr]
              have hq0 := round_nonpos e hz
              rw [e]
              generalize (if y / lam < 0 then -roundMag F |y / lam| else roundMag F |y / lam|) = q at hq0
              show Fp.le (.fin l) (Fp.round F (l - q)) = true
              exact le_round hl (by linarith)
            · have e : Fp.round F (y / lam) = .inf true := by
                have hz' : y / lam < 0 := by
                  refine lt_of_le_of_ne hz fun h0 => hr ?_
                  rw [h0, abs_zero, roundMag_zero]
                  exact two_zpow_pos _
                unfold Fp.round; rw [if_neg hr]
                simp [hz']
              rw [e]; rfl
        · exact ih ws' hw' h
  exact key fuel ws hw h

theorem gap_value {F : Format} {log : Flt → Flt} {x y L : ℚ} (hL : L < 0) (hy : log (.fin x) = .fin y) (hy0 : y ≤ 0) :
    (∃ q, Fp.round F (y / L) = .fin q ∧ 0 ≤ q ∧ gap F log x (.fin L) = chk ⌊q⌋) ∨
      (Fp.round F (y / L) = .inf false ∧ gap F log x (.fin L) = .error .ub) := by
  have hz : 0 ≤ y / L := div_nonneg_of_nonpos hy0 hL.le
  have e : gap F log x (.fin L) = llround (floor (Fp.round F (y / L))) := by
    unfold gap
    rw [hy]
    simp only [Fp.div, if_neg hL.ne]
  rcases round_cases F hz with ⟨q, hq, hq0⟩ | hq
  · exact .inl ⟨q, hq, hq0, by rw [e, hq, llround_floor hq0]⟩
  · exact .inr ⟨hq, by rw [e, hq]; rfl⟩

/-- `log(1 - p)` with its error. -/
theorem log1p_within {ε : ℚ} {log1p : Flt → Flt} (h : Log1pWithin ε log1p) (hε : ε < 1) {p : ℚ} (h0 : 0 < p) (h1 : p < 1) :
    ∃ L : ℚ, log1p (neg (.fin p)) = .fin L ∧ L < 0 ∧ 0 < -Real.log (1 - p) ∧ (1 - ε) * (-Real.log (1 - p)) ≤ ((-L : ℚ) : ℝ) ∧
      ((-L : ℚ) : ℝ) ≤ (1 + ε) * (-Real.log (1 - p)) := by
  obtain ⟨L, hL, he⟩ := h (-p) (by linarith) (by linarith)
  have h0R : (0 : ℝ) < p := by exact_mod_cast h0
  have h1R : (p : ℝ) < 1 := by exact_mod_cast h1
  have hεR : (ε : ℝ) < 1 := by exact_mod_cast hε
  have hc : (1 + ((-p : ℚ) : ℝ)) = 1 - p := by push_cast; ring
  rw [hc] at he
  have hneg : Real.log (1 - p) < 0 := Real.log_neg (by linarith) (by linarith)
  rw [abs_of_neg hneg] at he
  have := abs_le.1 he
  refine ⟨L, hL, ?_, by linarith, ?_, ?_⟩
  · have : (L : ℝ) < 0 := by nlinarith
    exact_mod_cast this
  · push_cast; nlinarith
  · push_cast; nlinarith

private theorem geometric_eq {F : Format} {log log1p : Flt → Flt} {p : ℚ} (h0 : 0 < p) (h1 : p < 1) (ws : List ℕ) :
    geometric F log log1p (.fin p) ws = (realWords ws).map fun r => (gap F log r.1 (log1p (neg (.fin p))), r.2) := by
  unfold geometric
  rw [lt_fin, decide_eq_true h1, show Fp.le (.fin 0) (.fin p) = true from decide_eq_true h0.le]
  rfl

theorem chk_val {a b : Int} (h : chk a = .ok b) : b = a := by
  unfold chk at h
  split at h
  · exact (Except.ok.inj h).symm
  · cases h

/-- **C114**: `geometric(p)` is below `k` with probability `1 - (1 - p)^k`, up to twice the errors of the logarithms and of rounding and
the error of `real()`. -/
theorem C114_geometric_law (F : Format) (log log1p : Flt → Flt) (ε p : ℚ) (k : ℕ) (hlog : LogWithin ε log) (hlog1 : Log1pWithin ε log1p)
    (hε0 : 0 ≤ ε) (hε : ε ≤ 1 / 8) (hp0 : 0 < p) (hp1 : p < 1) (hk : 1 ≤ k) (hk2 : k < 2 ^ 63) (hrep : Rep F k) (hF : F.emin ≤ 1 - F.p)
    (hFp : 3 ≤ F.p) :
    |engine.real {ω | ∃ n m rest, geometric F log log1p (.fin p) ((List.range n).map ω) = some (.ok m, rest) ∧ m < k} -
      (1 - (1 - (p : ℝ)) ^ k)| ≤ 2 * (ε + (unit F : ℚ)) + 1 / 2 ^ 52 := by
  obtain ⟨L, hL, hL0, hΛ, hL1, hL2⟩ := log1p_within hlog1 (by linarith) hp0 hp1
  set Λ : ℝ := -Real.log (1 - p) with hΛe
  have h1p : (0 : ℝ) < 1 - p := by have : (p : ℝ) < 1 := by exact_mod_cast hp1
                                   linarith
  have hpow : (1 - (p : ℝ)) ^ k = Real.exp (-(k * Λ)) := by
    rw [hΛe, mul_neg, neg_neg, Real.exp_nat_mul, Real.exp_log h1p]
  rw [hpow]
  have hε0R : (0 : ℝ) ≤ ε := by exact_mod_cast hε0
  have hεR : (ε : ℝ) ≤ 1 / 8 := by
    have : ((ε : ℚ) : ℝ) ≤ ((1 / 8 : ℚ) : ℝ) := Rat.cast_le.2 hε
    simpa using this
  have hu0 := unit_pos F
  have hu1 : unit F ≤ 1 / 8 := by
    unfold unit
    refine le_trans (two_zpow_le (show -(F.p : ℤ) ≤ -3 by omega)) (by norm_num)
  have hηu : (2 : ℚ) ^ (F.emin - 1) ≤ unit F := by unfold unit; exact two_zpow_le (by omega)
  set u : ℚ := unit F with hu
  have hu0R : (0 : ℝ) < u := by exact_mod_cast hu0
  have hu1R : (u : ℝ) ≤ 1 / 8 := by
    have : ((u : ℚ) : ℝ) ≤ ((1 / 8 : ℚ) : ℝ) := Rat.cast_le.2 hu1
    simpa using this
  have hkR : (1 : ℝ) ≤ k := by exact_mod_cast hk
  have hkQ : (1 : ℚ) ≤ k := by exact_mod_cast hk
  have h1ε : (0 : ℝ) < 1 - ε := by linarith
  have hLR : (0 : ℝ) < ((-L : ℚ) : ℝ) := by
    have : (0 : ℚ) < -L := by linarith
    exact_mod_cast this
  have hκ : (0 : ℝ) < 1 / 2 ^ 52 := by positivity
  have hquot : ∀ y : ℚ, y / L = (-y) / (-L) := fun y => (neg_div_neg_eq y L).symm
  rw [abs_le]
  constructor
  · -- from below
    have hd : (0 : ℝ) < (1 - ε) * (1 - 2 * u) := by nlinarith
    have hA := above_ge {ω | ∃ n m rest, geometric F log log1p (.fin p) ((List.range n).map ω) = some (.ok m, rest) ∧ m < k}
      (Real.exp (-((k * Λ) * ((1 - ε) * (1 - 2 * u) / (1 + ε))))) (Real.exp_pos _).le (by
        rintro ω hw x hf hs
        obtain ⟨x0, x1⟩ := first_range hw hf
        have hx0 : (0 : ℝ) < x := by exact_mod_cast x0
        obtain ⟨y, hy, hy0, hy1, hy2⟩ := log_within hlog (by linarith) x0 x1
        obtain ⟨n, rest, hx⟩ := hf
        rw [← Real.le_log_iff_exp_le hx0] at hs
        have h1 : -Real.log x ≤ (k * Λ) * ((1 - ε) * (1 - 2 * u)) / (1 + ε) := by rw [mul_div_assoc]; linarith
        rw [le_div_iff₀ (by linarith)] at h1
        have hzR : ((-y : ℚ) : ℝ) ≤ k * (1 - 2 * u) * ((-L : ℚ) : ℝ) := by
          have h2 : k * (1 - 2 * u) * ((1 - ε) * Λ) ≤ k * (1 - 2 * u) * ((-L : ℚ) : ℝ) :=
            mul_le_mul_of_nonneg_left hL1 (mul_nonneg (by linarith) (by linarith))
          linarith
        have hzQ : -y ≤ k * (1 - 2 * u) * (-L) := by exact_mod_cast hzR
        have hz0 : 0 ≤ y / L := div_nonneg_of_nonpos hy0 hL0.le
        have hz : y / L ≤ k * (1 - 2 * u) := by
          rw [hquot, div_le_iff₀ (by linarith)]; exact hzQ
        obtain ⟨q, hq, hq0, hqk⟩ := round_le (F := F) (z := y / L) hrep hz0 (by nlinarith)
        have hlt : q < k := by
          have he := (abs_le.1 (round_err hq)).2
          rw [abs_of_nonneg hz0, ← hu] at he
          have e1 := mul_le_mul_of_nonneg_right hz (by linarith : (0 : ℚ) ≤ 1 + u)
          have e2 := mul_le_mul_of_nonneg_right hkQ hu0.le
          have e3 : 0 < k * (u * u) := by positivity
          nlinarith
        refine ⟨n, ⌊q⌋, rest, ?_, ?_⟩
        · rw [geometric_eq hp0 hp1, hx, hL]
          rcases gap_value (F := F) hL0 hy hy0 with ⟨q', h1, h2, h3⟩ | ⟨h1, h2⟩
          · rw [hq] at h1
            obtain rfl := Flt.fin.inj h1
            have : I64 ⌊q⌋ := by
              have a : 0 ≤ ⌊q⌋ := Int.floor_nonneg.2 hq0
              have b : ⌊q⌋ < k := Int.floor_lt.2 (by exact_mod_cast hlt)
              have c : (k : ℤ) < 2 ^ 63 := by exact_mod_cast hk2
              unfold I64
              constructor
              · exact le_trans (by norm_num) a
              · exact lt_trans b c
            simp only [Option.map_some, h3, chk, if_pos this]
          · rw [hq] at h1; cases h1
        · exact Int.floor_lt.2 (by exact_mod_cast hlt))
    have hB := exp_neg_sub_le (x := (k * Λ) * ((1 - ε) * (1 - 2 * u) / (1 + ε))) (r := (1 + ε) / ((1 - ε) * (1 - 2 * u)))
      (by rw [le_div_iff₀ hd]; nlinarith)
    have hE : (k * Λ) * ((1 - ε) * (1 - 2 * u) / (1 + ε)) * ((1 + ε) / ((1 - ε) * (1 - 2 * u))) = (k * Λ : ℝ) := by
      rw [mul_assoc, div_mul_div_cancel₀ (by linarith : (1 + ε : ℝ) ≠ 0), div_self hd.ne', mul_one]
    rw [hE] at hB
    have hC : ((1 + ε) / ((1 - ε) * (1 - 2 * u)) - 1 : ℝ) ≤ 4 * (ε + u) := by
      rw [sub_le_iff_le_add, div_le_iff₀ hd]
      nlinarith [mul_nonneg hε0R hu0R.le, mul_nonneg hε0R hε0R, mul_nonneg hu0R.le hu0R.le, mul_nonneg (mul_nonneg hε0R hu0R.le) hu0R.le, mul_nonneg (mul_nonneg hε0R hε0R) hu0R.le]
    generalize (1 : ℝ) / 2 ^ 52 = κ at *
    linarith
  · -- from above
    have hA := above_le {ω | ∃ n m rest, geometric F log log1p (.fin p) ((List.range n).map ω) = some (.ok m, rest) ∧ m < k}
      (Real.exp (-((k * Λ) * ((1 + ε) / (1 - ε))))) (Real.exp_le_one_iff.2 (by
        have : 0 ≤ (k * Λ : ℝ) * ((1 + ε) / (1 - ε)) := by positivity
        linarith)) (by
        rintro ω hw ⟨n, m, rest, h, hm⟩
        rw [geometric_eq hp0 hp1, Option.map_eq_some_iff, hL] at h
        obtain ⟨⟨x, r⟩, hx, h2⟩ := h
        simp only [Prod.mk.injEq] at h2
        obtain ⟨h2, rfl⟩ := h2
        have hf : First ω x := ⟨n, r, hx⟩
        obtain ⟨x0, x1⟩ := first_range hw hf
        have hx0 : (0 : ℝ) < x := by exact_mod_cast x0
        obtain ⟨y, hy, hy0, hy1, hy2⟩ := log_within hlog (by linarith) x0 x1
        refine ⟨x, hf, ?_⟩
        rcases gap_value (F := F) hL0 hy hy0 with ⟨q, h3, h4, h5⟩ | ⟨h3, h4⟩
        · rw [h5] at h2
          obtain rfl := chk_val h2
          have hqk : q < k := by
            have := Int.floor_lt.1 hm
            exact_mod_cast this
          have hz : y / L < k := by
            by_contra hc
            have := nearest_ge (round_nearest h3) hrep (not_lt.1 hc)
            linarith
          rw [hquot, div_lt_iff₀ (by linarith)] at hz
          have hzR : ((-y : ℚ) : ℝ) < k * ((-L : ℚ) : ℝ) := by exact_mod_cast hz
          rw [← Real.le_log_iff_exp_le hx0]
          have : -Real.log x ≤ (k * Λ) * ((1 + ε) / (1 - ε)) := by
            rw [← mul_div_assoc, le_div_iff₀ h1ε]
            nlinarith
          linarith
        · rw [h4] at h2; cases h2)
    have hB := exp_neg_sub_le (x := (k * Λ : ℝ)) (r := (1 + ε) / (1 - ε)) (by rw [le_div_iff₀ h1ε]; linarith)
    have hC : ((1 + ε) / (1 - ε) - 1 : ℝ) ≤ 4 * ε := by
      rw [sub_le_iff_le_add, div_le_iff₀ h1ε]; nlinarith
    generalize (1 : ℝ) / 2 ^ 52 = κ at *
    linarith

/-- The number of failures for a value of `real()` that is not too small. -/
theorem gap_fits {F : Format} {log log1p : Flt → Flt} {ε p x : ℚ} (hlog : LogWithin ε log) (hlog1 : Log1pWithin ε log1p)
    (hε0 : 0 ≤ ε) (hε : ε ≤ 1 / 8) (hp0 : 1 / 2 ^ 53 ≤ p) (hp1 : p < 1) (hrep : Rep F (1023 * 2 ^ 53)) (x0 : 0 < x) (x1 : x ≤ 1)
    (hx0 : 1 / 2 ^ 1074 ≤ x) : ∃ m, gap F log x (log1p (neg (.fin p))) = .ok m ∧ 0 ≤ m ∧ m ≤ 1023 * 2 ^ 53 := by
  have hp : 0 < p := lt_of_lt_of_le (by positivity) hp0
  obtain ⟨L, hL, hL0, hΛ, hL1, -⟩ := log1p_within hlog1 (by linarith) hp hp1
  obtain ⟨y, hy, hy0, -, hy2⟩ := log_within hlog (by linarith) x0 x1
  have hε0R : (0 : ℝ) ≤ ε := by exact_mod_cast hε0
  have hεR : (ε : ℝ) ≤ 1 / 8 := by
    have : ((ε : ℚ) : ℝ) ≤ ((1 / 8 : ℚ) : ℝ) := Rat.cast_le.2 hε
    simpa using this
  have hpR : (1 : ℝ) / 2 ^ 53 ≤ p := by
    have : ((1 / 2 ^ 53 : ℚ) : ℝ) ≤ (p : ℝ) := Rat.cast_le.2 hp0
    push_cast at this; exact this
  have h1p : (0 : ℝ) < 1 - p := by have : (p : ℝ) < 1 := by exact_mod_cast hp1
                                   linarith
  have hΛp : (p : ℝ) ≤ -Real.log (1 - p) := by
    have := Real.log_le_sub_one_of_pos h1p
    linarith
  have hxlog : -Real.log x ≤ 745 := by
    have h1 : ((1 / 2 ^ 1074 : ℚ) : ℝ) ≤ (x : ℝ) := Rat.cast_le.2 hx0
    push_cast at h1
    have h2 : Real.log (1 / 2 ^ 1074) ≤ Real.log x := Real.log_le_log (by positivity) h1
    rw [one_div, Real.log_inv, Real.log_pow] at h2
    have := Real.log_two_lt_d9
    push_cast at h2
    linarith
  have hx0R : 0 ≤ -Real.log x := by
    have := Real.log_nonpos (show (0 : ℝ) ≤ x by exact_mod_cast x0.le) (by exact_mod_cast x1)
    linarith
  have hzR : ((-y : ℚ) : ℝ) ≤ 1023 * 2 ^ 53 * ((-L : ℚ) : ℝ) := by
    have a1 : ((-y : ℚ) : ℝ) ≤ 9 / 8 * 745 := by nlinarith
    have a2 : (7 / 8 : ℝ) * (1 / 2 ^ 53) ≤ ((-L : ℚ) : ℝ) := by
      refine le_trans ?_ hL1
      exact mul_le_mul (by linarith) (hpR.trans hΛp) (by positivity) (by linarith)
    have a3 : (1023 * 2 ^ 53 : ℝ) * (7 / 8 * (1 / 2 ^ 53)) ≤ 1023 * 2 ^ 53 * ((-L : ℚ) : ℝ) := mul_le_mul_of_nonneg_left a2 (by positivity)
    have a4 : (1023 * 2 ^ 53 : ℝ) * (7 / 8 * (1 / 2 ^ 53)) = 7161 / 8 := by norm_num
    rw [a4] at a3
    linarith
  have hzQ : -y ≤ 1023 * 2 ^ 53 * (-L) := by exact_mod_cast hzR
  have hz0 : 0 ≤ y / L := div_nonneg_of_nonpos hy0 hL0.le
  have hz : y / L ≤ 1023 * 2 ^ 53 := by
    rw [← neg_div_neg_eq, div_le_iff₀ (by linarith)]; exact hzQ
  obtain ⟨q, hq, hq0, hqk⟩ := round_le (F := F) hrep hz0 hz
  rcases gap_value (F := F) hL0 hy hy0 with ⟨q', h1, h2, h3⟩ | ⟨h1, h2⟩
  · rw [hq] at h1
    obtain rfl := Flt.fin.inj h1
    have hi : I64 ⌊q⌋ := by
      have a : 0 ≤ ⌊q⌋ := Int.floor_nonneg.2 hq0
      have b : ⌊q⌋ < 2 ^ 63 := Int.floor_lt.2 (lt_of_le_of_lt hqk (by norm_num))
      unfold I64
      exact ⟨le_trans (by norm_num) a, b⟩
    refine ⟨⌊q⌋, ?_, Int.floor_nonneg.2 hq0, ?_⟩
    · rw [hL, h3, chk, if_pos hi]
    · have h5 := (Int.floor_le q).trans hqk
      exact_mod_cast h5
  · rw [hq] at h1; cases h1

/-- **C114**: for `p ≥ 2^-53` the number of failures fits into 64 bits whatever `real()` returns, as long as it is at least `2^-1074`,
the smallest positive `double`. -/
theorem C114_geometric_fits (F : Format) (log log1p : Flt → Flt) (ε p : ℚ) (hlog : LogWithin ε log) (hlog1 : Log1pWithin ε log1p)
    (hε0 : 0 ≤ ε) (hε : ε ≤ 1 / 8) (hp0 : 1 / 2 ^ 53 ≤ p) (hp1 : p < 1) (hrep : Rep F (1023 * 2 ^ 53)) (ws rest : List ℕ)
    (hw : ∀ w ∈ ws, w < 2 ^ 64) (x : ℚ) (hx : realWords ws = some (x, rest)) (hx0 : 1 / 2 ^ 1074 ≤ x) :
    ∃ m, geometric F log log1p (.fin p) ws = some (.ok m, rest) ∧ 0 ≤ m ∧ m ≤ 1023 * 2 ^ 53 := by
  obtain ⟨x0, x1⟩ := realWords_range hw hx
  obtain ⟨m, h1, h2⟩ := gap_fits (F := F) hlog hlog1 hε0 hε hp0 hp1 hrep x0 x1 hx0
  refine ⟨m, ?_, h2⟩
  rw [geometric_eq (lt_of_lt_of_le (by positivity) hp0) hp1, hx]
  simp only [Option.map_some, h1]

theorem gap_nonneg {F : Format} {log log1p : Flt → Flt} {ε : ℚ} (hlog : LogWithin ε log) (hlog1 : Log1pWithin ε log1p)
    (hε : ε < 1) {p : Flt} (hp : (Fp.le (.fin 0) p && Fp.lt p (.fin 1)) = true) {x : ℚ} (x0 : 0 < x) (x1 : x ≤ 1) {g : Int}
    (h : gap F log x (log1p (neg p)) = .ok g) : 0 ≤ g := by
  obtain ⟨y, hy, hy0, -, -⟩ := log_within hlog hε x0 x1
  cases p with
  | nan s => simp [Fp.le] at hp
  | inf s => cases s <;> simp [Fp.le, Fp.lt] at hp
  | fin p =>
    rw [lt_fin, show Fp.le (.fin 0) (.fin p) = decide (0 ≤ p) from rfl] at hp
    simp only [Bool.and_eq_true, decide_eq_true_iff] at hp
    rcases hp.1.lt_or_eq with hp0 | rfl
    · obtain ⟨L, hL, hL0, -⟩ := log1p_within hlog1 hε hp0 hp.2
      rw [hL] at h
      rcases gap_value (F := F) hL0 hy hy0 with ⟨q, h1, h2, h3⟩ | ⟨h1, h2⟩
      · rw [h3] at h
        rw [chk_val h]
        exact Int.floor_nonneg.2 h2
      · rw [h2] at h; cases h
    · obtain ⟨L, hL, he⟩ := hlog1 0 (by norm_num) le_rfl
      have hL0 : L = 0 := by
        simp at he
        exact he
      unfold gap at h
      rw [show neg (.fin 0) = .fin 0 by simp [neg], hL, hL0, hy] at h
      by_cases h0 : y = 0 <;> simp [Fp.div, h0, floor, llround] at h

/-- **C114**: what `geometric(lower, upper, p)` returns is in `[lower, upper)`, and `geometric(p)` is not negative. -/
theorem C114_geometric_range (F : Format) (log log1p : Flt → Flt) (ε : ℚ) (lower upper : Int) (p : Flt) (hlog : LogWithin ε log)
    (hlog1 : Log1pWithin ε log1p) (hε : ε < 1) (fuel : ℕ) (ws rest : List ℕ) (hw : ∀ w ∈ ws, w < 2 ^ 64) (m : Int) :
    (geometric F log log1p p ws = some (.ok m, rest) → 0 ≤ m) ∧
    (geometricIn F log log1p fuel lower upper p ws = some (.ok m, rest) → lower ≤ m ∧ m < upper) := by
  constructor
  · intro h
    unfold geometric at h
    split at h
    · simp at h
    next hp =>
    rw [Option.map_eq_some_iff] at h
    obtain ⟨⟨x, r⟩, hx, h2⟩ := h
    obtain ⟨x0, x1⟩ := realWords_range hw hx
    exact gap_nonneg hlog hlog1 hε (by simpa using hp) x0 x1 (congrArg Prod.fst h2)
  · intro h
    unfold geometricIn at h
    split at h
    · simp at h
    split at h
    · simp at h
    next hp =>
    have hp : (Fp.le (.fin 0) p && Fp.lt p (.fin 1)) = true := by simpa using hp
    clear * - h hp hlog hlog1 hε hw
    induction fuel generalizing ws with
    | zero => simp [geometricLoop] at h
    | succ fuel ih =>
      unfold geometricLoop at h
      split at h
      · cases h
      · next x ws' hx =>
        obtain ⟨x0, x1⟩ := realWords_range hw hx
        have hw' : ∀ w ∈ ws', w < 2 ^ 64 := by
          intro w hm
          obtain ⟨pre, rfl⟩ := realWords_suffix hx
          exact hw w (List.mem_append_right _ hm)
        split at h
        · simp at h
        · next res hres =>
          split at h
          · next hlt =>
            simp only [Option.some.injEq, Prod.mk.injEq, Except.ok.injEq] at h
            obtain ⟨rfl, rfl⟩ := h
            cases hg : gap F log x (log1p (neg p)) with
            | error e => rw [hg] at hres; cases hres
            | ok g =>
              rw [hg] at hres
              have hres : chk (lower + g) = .ok res := hres
              have := gap_nonneg hlog hlog1 hε hp x0 x1 hg
              rw [chk_val hres] at hlt ⊢
              exact ⟨by omega, hlt⟩
          · exact ih ws' hw' h

/-- **C114**: parameters for which there is no such distribution throw, before a random number is drawn. -/
theorem C114_throws (F : Format) (log log1p : Flt → Flt) (fuel : ℕ) (ws : List ℕ) :
    (∀ lambda, Fp.lt (.fin 0) lambda = false → exponential F log lambda ws = some (.error .throw, ws) ∧
      ∀ lower upper, exponentialIn F log fuel lower upper lambda ws = some (.error .throw, ws)) ∧
    (∀ lower upper lambda, Fp.lt lower upper = false ∨ lower = .inf true → exponentialIn F log fuel lower upper lambda ws = some (.error .throw, ws)) ∧
    (∀ p, (Fp.le (.fin 0) p && Fp.lt p (.fin 1)) = false → geometric F log log1p p ws = some (.error .throw, ws) ∧
      ∀ lower upper, geometricIn F log log1p fuel lower upper p ws = some (.error .throw, ws)) ∧
    (∀ lower upper p, upper ≤ lower → geometricIn F log log1p fuel lower upper p ws = some (.error .throw, ws)) := by
  refine ⟨fun lambda h => ⟨by simp [exponential, h], fun lower upper => ?_⟩, fun lower upper lambda h => ?_,
    fun p h => ⟨by unfold geometric; rw [h]; rfl, fun lower upper => ?_⟩, fun lower upper p h => ?_⟩
  · unfold exponentialIn
    rw [h]
    split <;> [rfl; (split <;> [rfl; (split <;> rfl)])]
  · rcases h with h | rfl
    · unfold exponentialIn
      rw [h]
      split <;> [rfl; (split <;> rfl)]
    · rfl
  · unfold geometricIn
    rw [h]
    split <;> rfl
  · unfold geometricIn
    rw [if_pos (by simpa using h)]

/-- There are such logarithms for every positive error. -/
example (ε : ℚ) (h : 0 < ε) : ∃ log log1p, LogWithin ε log ∧ Log1pWithin ε log1p := by
  have key : ∀ r : ℝ, ∃ y : ℚ, |(y : ℝ) - r| ≤ ε * |r| := by
    intro r
    by_cases hr : r = 0
    · exact ⟨0, by simp [hr]⟩
    · have hε : (0 : ℝ) < ε := by exact_mod_cast h
      have : 0 < ε * |r| := mul_pos hε (abs_pos.2 hr)
      obtain ⟨y, h1, h2⟩ := exists_rat_btwn (show r < r + ε * |r| by linarith)
      exact ⟨y, abs_le.2 ⟨by linarith, by linarith⟩⟩
  choose f hf using key
  refine ⟨fun x => match x with | .fin q => .fin (f (Real.log q)) | _ => .nan false,
    fun x => match x with | .fin q => .fin (f (Real.log (1 + q))) | _ => .nan false, ?_, ?_⟩
  · intro x _ _; exact ⟨_, rfl, hf _⟩
  · intro x _ _; exact ⟨_, rfl, hf _⟩

private def double : Format := ⟨53, -1074, 971, by norm_num, by norm_num⟩

/-- `exponential(1/2)` in double precision, with a logarithm that is correct up to one unit in the last place, is below its mean `2`
with probability `1 - 1/e`. -/
example (log : Flt → Flt) (h : LogWithin (1 / 2 ^ 52) log) :
    engine.real {ω | ∃ n a rest, exponential double log (.fin (1 / 2)) ((List.range n).map ω) = some (.ok a, rest) ∧ Fp.lt a (.fin 2) = true} ≤
      1 - Real.exp (-1) + 1 / 2 ^ 51 := by
  have := (C114_exponential_law double log (1 / 2 ^ 52) (1 / 2) 2 h (by positivity) (by norm_num) (by norm_num) (by norm_num)
    ⟨1, 1, by norm_num [double], by norm_num [double], by norm_num [double], by norm_num⟩).1
  have e : (((1 / 2 : ℚ) : ℝ) * ((2 : ℚ) : ℝ)) = 1 := by norm_num
  rw [e] at this
  refine this.trans ?_
  norm_num
  linarith

/-- The numbers of failures with `p = 1/2`: zero in half of the cases. -/
example (log log1p : Flt → Flt) (h : LogWithin (1 / 2 ^ 52) log) (h1 : Log1pWithin (1 / 2 ^ 52) log1p) :
    |engine.real {ω | ∃ n m rest, geometric double log log1p (.fin (1 / 2)) ((List.range n).map ω) = some (.ok m, rest) ∧ m < 1} - 1 / 2| ≤ 1 / 2 ^ 49 := by
  have := C114_geometric_law double log log1p (1 / 2 ^ 52) (1 / 2) 1 h h1 (by positivity) (by norm_num) (by norm_num) (by norm_num) le_rfl
    (by norm_num) ⟨1, 0, by norm_num [double], by norm_num [double], by norm_num [double], by norm_num⟩ (by norm_num [double]) (by norm_num [double])
  have hu : (unit double : ℝ) = 1 / 2 ^ 53 := by
    unfold unit double; norm_num
  rw [hu] at this
  have e : (1 - (1 - ((1 / 2 : ℚ) : ℝ)) ^ 1) = 1 / 2 := by norm_num
  rw [e] at this
  refine le_trans (by simpa using this) ?_
  norm_num

end ICPC.Props
