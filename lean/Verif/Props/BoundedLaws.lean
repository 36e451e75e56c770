import Verif.Props.Rejection

/-!
# C115: the laws of `exponential(lower, upper, lambda)` and `geometric(lower, upper, p)`, with the error of one iteration
-/

namespace ICPC.Props

open MeasureTheory Spec ICPC.Engine ICPC.Fp ICPC.Spec.Fp

private theorem ratio_err {a b A B α β : ℝ} (ha : 0 ≤ a) (hab : a ≤ b) (hB : 0 < B) (h1 : |a - A| ≤ α) (h2 : |b - B| ≤ β)
    (hb : 0 < b) : |a / b - A / B| ≤ (α + β) / B := by
  have e : a / b - A / B = ((a - A) + a / b * (B - b)) / B := by field_simp; ring
  rw [e, abs_div, abs_of_pos hB]
  refine div_le_div_of_nonneg_right ((abs_add_le _ _).trans (add_le_add h1 ?_)) hB.le
  rw [abs_mul, abs_of_nonneg (div_nonneg ha hb.le)]
  have h3 : a / b ≤ 1 := (div_le_one hb).2 hab
  rw [abs_sub_comm] at h2
  calc a / b * |B - b| ≤ 1 * |B - b| := mul_le_mul_of_nonneg_right h3 (abs_nonneg _)
    _ ≤ β := by rw [one_mul]; exact h2

/-- The value of one iteration of `exponential(lower, upper, lambda)`. -/
private def shifted (F : Format) (log : Flt → Flt) (l lam x : ℚ) : Flt := Fp.sub F (.fin l) (Fp.div F (log (.fin x)) (.fin lam))

private theorem exp_close {x y : ℝ} (hy : 0 ≤ y) (h : y ≤ x) : Real.exp (-y) - Real.exp (-x) ≤ x - y := by
  have e : Real.exp (-x) = Real.exp (-y) * Real.exp (-(x - y)) := by rw [← Real.exp_add]; ring_nf
  have h1 := Real.add_one_le_exp (-(x - y))
  have h2 : Real.exp (-y) ≤ 1 := Real.exp_le_one_iff.2 (by linarith)
  have h3 := Real.exp_pos (-y)
  rw [e]
  nlinarith

private theorem zpow_four (e : ℤ) : (2 : ℚ) ^ (e + 1) = 4 * 2 ^ (e - 1) := by
  rw [show e + 1 = 2 + (e - 1) by ring, zpow_add₀ (by norm_num)]; norm_num

private theorem unit_le {F : Format} (hF : 2 ≤ F.p) : unit F ≤ 1 / 4 := by
  unfold unit
  have : (2 : ℚ) ^ (-(F.p : ℤ)) ≤ 2 ^ (-2 : ℤ) := zpow_le_zpow_right₀ (by norm_num) (by omega)
  refine this.trans (by norm_num)

private theorem abs_le_max {l u w : ℚ} (h1 : l ≤ w) (h2 : w ≤ u) : |w| ≤ max |l| |u| := by
  rcases le_total 0 w with h | h
  · rw [abs_of_nonneg h]; exact le_max_of_le_right (h2.trans (le_abs_self u))
  · rw [abs_of_nonpos h]; exact le_max_of_le_left (le_trans (by linarith) (neg_abs_le l |> fun _ => neg_le_abs l))

private theorem round_fin_max {F : Format} {l u w : ℚ} (hl : Rep F l) (hu : Rep F u) (h : |w| ≤ max |l| |u|) : ∃ q, Fp.round F w = .fin q := by
  rcases le_max_iff.1 h with h | h
  · exact round_fin hl h
  · exact round_fin hu h

private theorem one_iteration (F : Format) (log : Flt → Flt) (ε l u lam t : ℚ) (hlog : LogWithin ε log) (hε0 : 0 ≤ ε) (hε : ε ≤ 1 / 4)
    (hF : 2 ≤ F.p) (hl : Rep F l) (hu : Rep F u) (hd : ∃ w, Rep F w ∧ u - l ≤ w) (hlam : 0 < lam) (h1 : l ≤ t) (h2 : t ≤ u) :
    |engine.real {ω | ∃ n x rest, realWords ((List.range n).map ω) = some (x, rest) ∧ Fp.lt (shifted F log l lam x) (.fin t) = true} -
      (1 - Real.exp (-(lam * (t - l))))| ≤
      ((ε + unit F + lam * (unit F * max |l| |u| + 2 ^ (F.emin + 1)) : ℚ) : ℝ) + 1 / 2 ^ 52 := by
  have hη := two_zpow_pos (F.emin - 1)
  rw [zpow_four]
  have hM : 0 ≤ max |l| |u| := le_trans (abs_nonneg l) (le_max_left _ _)
  have hv0 := unit_pos F
  have hv1 := unit_le hF
  have hmax : ∀ w, l ≤ w → w ≤ u → |w| ≤ max |l| |u| := fun w a b => abs_le_max a b
  have hfin : ∀ w, |w| ≤ max |l| |u| → ∃ q, Fp.round F w = .fin q := fun w a => round_fin_max hl hu a
  have herr : ∀ z q, Fp.round F z = .fin q → |q - z| ≤ unit F * |z| + 2 ^ (F.emin - 1) := fun z q h => round_err h
  generalize max |l| |u| = M at *
  generalize (2 : ℚ) ^ (F.emin - 1) = η at *
  generalize unit F = v at *
  have hvM : 0 ≤ v * M := mul_nonneg hv0.le hM
  have hlamR : (0 : ℝ) < lam := by exact_mod_cast hlam
  have hε0R : (0 : ℝ) ≤ ε := by exact_mod_cast hε0
  have hv0R : (0 : ℝ) < v := by exact_mod_cast hv0
  have hεR : (ε : ℝ) ≤ 1 / 4 := by
    have : ((ε : ℚ) : ℝ) ≤ ((1 / 4 : ℚ) : ℝ) := Rat.cast_le.2 hε
    simpa using this
  have hvR : (v : ℝ) ≤ 1 / 4 := by
    have : ((v : ℚ) : ℝ) ≤ ((1 / 4 : ℚ) : ℝ) := Rat.cast_le.2 hv1
    simpa using this
  have h1R : (l : ℝ) ≤ t := by exact_mod_cast h1
  have hvMR : (0 : ℝ) ≤ v * M := by exact_mod_cast hvM
  have hηR : (0 : ℝ) < η := by exact_mod_cast hη
  have hκ : (0 : ℝ) < 1 / 2 ^ 52 := by positivity
  have hc : (0 : ℝ) < (1 - ε) * (1 - v) := mul_pos (by linarith) (by linarith)
  have hd0 : 0 ≤ (lam : ℝ) * (t - l) := mul_nonneg hlamR.le (by linarith)
  have hslack : (0 : ℝ) ≤ lam * (v * M + 4 * η) := mul_nonneg hlamR.le (by linarith)
  -- an accepted value needs a large x
  have hA := above_le {ω | ∃ n x rest, realWords ((List.range n).map ω) = some (x, rest) ∧ Fp.lt (shifted F log l lam x) (.fin t) = true}
    (Real.exp (-((lam * (t - l) + lam * (v * M + 4 * η)) * (1 / ((1 - ε) * (1 - v)))))) (Real.exp_le_one_iff.2 (by
      have : 0 ≤ (lam * (t - l) + lam * (v * M + 4 * η) : ℝ) * (1 / ((1 - ε) * (1 - v))) := mul_nonneg (by linarith) (by positivity)
      linarith)) (by
    rintro ω hw ⟨n, x, rest, hx, ha⟩
    have hf : First ω x := ⟨n, rest, hx⟩
    obtain ⟨x0, x1⟩ := first_range hw hf
    have hx0 : (0 : ℝ) < x := by exact_mod_cast x0
    obtain ⟨y, hy, hy0, hy1, hy2⟩ := log_within hlog (by linarith) x0 x1
    refine ⟨x, hf, ?_⟩
    unfold shifted at ha
    rw [hy] at ha
    simp only [Fp.div, if_neg hlam.ne'] at ha
    have hz : y / lam ≤ 0 := div_nonpos_of_nonpos_of_nonneg hy0 hlam.le
    have key : -y * (1 - v) ≤ lam * (t - l) + lam * (v * M + 4 * η) := by
      cases hq : Fp.round F (y / lam) with
      | nan s => rw [hq] at ha; simp [Fp.sub, Fp.lt, Fp.le] at ha
      | inf s =>
        exfalso
        have hs : s = true := by
          by_contra hs
          unfold Fp.round at hq
          split at hq
          · cases hq
          · next hr =>
            have hz' : y / lam < 0 := by
              refine lt_of_le_of_ne hz fun h0 => hr ?_
              rw [h0, abs_zero, roundMag_zero]
              exact two_zpow_pos _
            injection hq with hq
            simp [hz'] at hq
            exact hs hq
        rw [hq, hs] at ha
        simp [Fp.sub, Fp.lt, Fp.le] at ha
      | fin q =>
        have hq0 := round_nonpos hq hz
        rw [hq] at ha
        have ha : Fp.lt (Fp.round F (l - q)) (.fin t) = true := ha
        have hle := le_round (F := F) hl (show l ≤ l - q by linarith)
        cases hr : Fp.round F (l - q) with
        | nan s => rw [hr] at ha; simp [Fp.lt, Fp.le] at ha
        | inf s => rw [hr] at ha hle; cases s <;> simp [Fp.lt, Fp.le] at ha hle
        | fin r =>
          rw [hr, lt_fin, decide_eq_true_iff] at ha
          have hwu : l - q ≤ u := by
            by_contra hc
            have := nearest_ge (round_nearest hr) hu (not_le.1 hc).le
            linarith
          have e1 := (abs_le.1 (herr _ _ hr)).1
          have e2 := (abs_le.1 (herr _ _ hq)).2
          rw [abs_of_nonpos hz] at e2
          have e3 : v * |l - q| ≤ v * M := mul_le_mul_of_nonneg_left (hmax _ (by linarith) hwu) hv0.le
          have e4 : -(y / lam) * (1 - v) ≤ (t - l) + (v * M + 4 * η) := by linarith
          have e5 : -y * (1 - v) = lam * (-(y / lam) * (1 - v)) := by field_simp
          rw [e5, ← mul_add]
          exact mul_le_mul_of_nonneg_left e4 hlam.le
    have keyR : ((-y : ℚ) : ℝ) * (1 - v) ≤ lam * (t - l) + lam * (v * M + 4 * η) := by exact_mod_cast key
    rw [← Real.le_log_iff_exp_le hx0]
    have : -Real.log x ≤ (lam * (t - l) + lam * (v * M + 4 * η)) * (1 / ((1 - ε) * (1 - v))) := by
      rw [mul_one_div, le_div_iff₀ hc]
      nlinarith [mul_le_mul_of_nonneg_right hy1 (by linarith : (0 : ℝ) ≤ 1 - v)]
    linarith)
  have hB := exp_neg_sub_le (x := (lam * (t - l) + lam * (v * M + 4 * η) : ℝ)) (r := 1 / ((1 - ε) * (1 - v)))
    (by rw [le_div_iff₀ hc]; nlinarith)
  have hC : (1 / ((1 - ε) * (1 - v)) - 1 : ℝ) ≤ 2 * (ε + v) := by
    rw [sub_le_iff_le_add, div_le_iff₀ hc]; nlinarith [mul_nonneg hε0R hv0R.le]
  have hD := exp_close hd0 (show (lam : ℝ) * (t - l) ≤ lam * (t - l) + lam * (v * M + 4 * η) by linarith)
  push_cast
  -- a large x gives an accepted value
  have hlow : (1 - Real.exp (-(lam * (t - l)))) - (ε + v + lam * (v * M + 4 * η)) - 1 / 2 ^ 52 ≤
      engine.real {ω | ∃ n x rest, realWords ((List.range n).map ω) = some (x, rest) ∧ Fp.lt (shifted F log l lam x) (.fin t) = true} := by
    rcases le_or_gt (t - l) (v * M + 4 * η) with hs | hs
    · have hsR : ((t - l : ℝ)) ≤ v * M + 4 * η := by exact_mod_cast hs
      have e1 := Real.add_one_le_exp (-(lam * (t - l) : ℝ))
      have e2 : (lam : ℝ) * (t - l) ≤ lam * (v * M + 4 * η) := mul_le_mul_of_nonneg_left hsR hlamR.le
      refine le_trans ?_ measureReal_nonneg
      linarith
    · have hsR : (v * M + 4 * η : ℝ) < t - l := by exact_mod_cast hs
      have hD0 : (0 : ℝ) ≤ lam * (t - l) - lam * (v * M + 4 * η) := by
        rw [← mul_sub]; exact mul_nonneg hlamR.le (by linarith)
      have hc2 : (0 : ℝ) < (1 + ε) * (1 + v) := mul_pos (by linarith) (by linarith)
      have hE := above_ge {ω | ∃ n x rest, realWords ((List.range n).map ω) = some (x, rest) ∧ Fp.lt (shifted F log l lam x) (.fin t) = true}
        (Real.exp (-((lam * (t - l) - lam * (v * M + 4 * η)) / ((1 + ε) * (1 + v))))) (Real.exp_pos _).le (by
        rintro ω hw x hf hxs
        obtain ⟨x0, x1⟩ := first_range hw hf
        have hx0 : (0 : ℝ) < x := by exact_mod_cast x0
        obtain ⟨y, hy, hy0, hy1, hy2⟩ := log_within hlog (by linarith) x0 x1
        obtain ⟨n, rest, hx⟩ := hf
        refine ⟨n, x, rest, hx, ?_⟩
        rw [← Real.le_log_iff_exp_le hx0] at hxs
        have e1 : -Real.log x ≤ (lam * (t - l) - lam * (v * M + 4 * η)) / ((1 + ε) * (1 + v)) := by linarith
        rw [le_div_iff₀ hc2] at e1
        have keyR : ((-y : ℚ) : ℝ) * (1 + v) ≤ lam * (t - l) - lam * (v * M + 4 * η) := by
          nlinarith [mul_le_mul_of_nonneg_right hy2 (by linarith : (0 : ℝ) ≤ 1 + v)]
        have key : -y * (1 + v) ≤ lam * (t - l) - lam * (v * M + 4 * η) := by exact_mod_cast keyR
        have hz : y / lam ≤ 0 := div_nonpos_of_nonpos_of_nonneg hy0 hlam.le
        have hz1 : -(y / lam) * (1 + v) ≤ (t - l) - (v * M + 4 * η) := by
          have e5 : -y * (1 + v) = lam * (-(y / lam) * (1 + v)) := by field_simp
          rw [e5, ← mul_sub] at key
          exact le_of_mul_le_mul_left key hlam
        have hz2 : -(y / lam) ≤ u - l := by nlinarith
        obtain ⟨w, hw1, hw2⟩ := hd
        obtain ⟨q, hq⟩ := round_fin (F := F) (z := y / lam) hw1 (by rw [abs_of_nonpos hz]; exact (hz2.trans hw2).trans (le_abs_self w))
        have hq0 := round_nonpos hq hz
        have e2 := (abs_le.1 (herr _ _ hq)).1
        rw [abs_of_nonpos hz] at e2
        have hWt : l - q ≤ t := by nlinarith
        have hWM := hmax _ (show l ≤ l - q by linarith) (hWt.trans h2)
        obtain ⟨r, hr⟩ := hfin _ hWM
        have e3 := (abs_le.1 (herr _ _ hr)).2
        have e4 : v * |l - q| ≤ v * M := mul_le_mul_of_nonneg_left hWM hv0.le
        unfold shifted
        rw [hy]
        simp only [Fp.div, if_neg hlam.ne', hq, Fp.sub, hr]
        rw [lt_fin, decide_eq_true_iff]
        nlinarith)
      have hG := exp_neg_sub_le (x := ((lam * (t - l) - lam * (v * M + 4 * η)) / ((1 + ε) * (1 + v)) : ℝ)) (r := (1 + ε) * (1 + v)) (by nlinarith)
      rw [div_mul_cancel₀ _ hc2.ne'] at hG
      have hH := exp_close hD0 (show (lam * (t - l) - lam * (v * M + 4 * η) : ℝ) ≤ lam * (t - l) by linarith)
      have hI : ((1 + ε) * (1 + v) - 1 : ℝ) ≤ 2 * (ε + v) := by nlinarith
      generalize (1 : ℝ) / 2 ^ 52 = κ at *
      linarith
  rw [abs_le]
  generalize (1 : ℝ) / 2 ^ 52 = κ at *
  constructor <;> linarith

/-- **C115**: `exponential(lower, upper, lambda)` is below `t` with the probability `(1 - exp(-lambda (t - lower))) / (1 - exp(-lambda
(upper - lower)))` of the conditioned exponential distribution, up to twice the error of one iteration, divided by the probability that a
value is accepted. -/
theorem C115_exponential_law (F : Format) (log : Flt → Flt) (ε l u lam t : ℚ) (hlog : LogWithin ε log) (hε0 : 0 ≤ ε) (hε : ε ≤ 1 / 4)
    (hF : 2 ≤ F.p) (hl : Rep F l) (hu : Rep F u) (hd : ∃ w, Rep F w ∧ u - l ≤ w) (hlam : 0 < lam) (hlu : l < u) (h1 : l ≤ t) (h2 : t ≤ u) :
    |engine.real {ω | ∃ fuel n a rest, exponentialIn F log fuel (.fin l) (.fin u) (.fin lam) ((List.range n).map ω) = some (.ok a, rest) ∧
        Fp.lt a (.fin t) = true} -
      (1 - Real.exp (-(lam * (t - l)))) / (1 - Real.exp (-(lam * (u - l))))| ≤
      2 * (((ε + unit F + lam * (unit F * max |l| |u| + 2 ^ (F.emin + 1)) : ℚ) : ℝ) + 1 / 2 ^ 52) / (1 - Real.exp (-(lam * (u - l)))) := by
  have hL := C115_exponential F log ε l lam (.fin u) hlog hl hlam (by rw [lt_fin]; exact decide_eq_true hlu)
  have hmono : ∀ a, Fp.lt a (.fin t) = true → Fp.lt a (.fin u) = true := by
    intro a ha
    cases a with
    | nan s => simp [Fp.lt, Fp.le] at ha
    | inf s => cases s <;> simp [Fp.lt, Fp.le] at ha ⊢
    | fin q =>
      rw [lt_fin, decide_eq_true_iff] at ha ⊢
      linarith
  rw [(hL fun a => Fp.lt a (.fin t) = true).1]
  have hset : {ω : ℕ → ℕ | ∃ n x rest, realWords ((List.range n).map ω) = some (x, rest) ∧
        Fp.lt (Fp.sub F (.fin l) (Fp.div F (log (.fin x)) (.fin lam))) (.fin u) = true ∧
        Fp.lt (Fp.sub F (.fin l) (Fp.div F (log (.fin x)) (.fin lam))) (.fin t) = true} =
      {ω | ∃ n x rest, realWords ((List.range n).map ω) = some (x, rest) ∧ Fp.lt (shifted F log l lam x) (.fin t) = true} := by
    ext ω
    constructor
    · rintro ⟨n, x, rest, h, -, h3⟩; exact ⟨n, x, rest, h, h3⟩
    · rintro ⟨n, x, rest, h, h3⟩; exact ⟨n, x, rest, h, hmono _ h3, h3⟩
  rw [hset]
  have hT := one_iteration F log ε l u lam t hlog hε0 hε hF hl hu hd hlam h1 h2
  have hU := one_iteration F log ε l u lam u hlog hε0 hε hF hl hu hd hlam hlu.le le_rfl
  have hend := (hL fun _ => True).2
  have hlim := (hL fun _ => True).1
  simp only [and_true] at hlim
  rw [hlim] at hend
  have hb : 0 < engine.real {ω | ∃ n x rest, realWords ((List.range n).map ω) = some (x, rest) ∧ Fp.lt (shifted F log l lam x) (.fin u) = true} := by
    refine lt_of_le_of_ne measureReal_nonneg fun h0 => ?_
    unfold shifted at h0
    rw [← h0, div_zero] at hend
    exact zero_ne_one hend
  have hluR : (0 : ℝ) < u - l := by
    have : (l : ℝ) < u := by exact_mod_cast hlu
    linarith
  have hlamR : (0 : ℝ) < lam := by exact_mod_cast hlam
  have hB : 0 < 1 - Real.exp (-(lam * (u - l))) := by
    have : Real.exp (-(lam * (u - l))) < 1 := by
      rw [← Real.exp_zero]; exact Real.exp_lt_exp.2 (by have := mul_pos hlamR hluR; linarith)
    linarith
  rw [two_mul]
  refine ratio_err measureReal_nonneg (measureReal_mono ?_) hB hT hU hb
  rintro ω ⟨n, x, rest, h, h3⟩
  exact ⟨n, x, rest, h, hmono _ h3⟩

/-- **C115**: `geometric(lower, lower + b, p)` is below `lower + a` with the probability `(1 - (1 - p)^a) / (1 - (1 - p)^b)` of the
conditioned geometric distribution, up to three times the error of one iteration and the probability `(1 - p)^K` that the sum `lower + K`
is exceeded, which need not fit into 64 bits; divided by the probability that a value is accepted. -/
theorem C115_geometric_law (F : Format) (log log1p : Flt → Flt) (ε p : ℚ) (lower : Int) (a b K : ℕ) (hlog : LogWithin ε log)
    (hlog1 : Log1pWithin ε log1p) (hε0 : 0 ≤ ε) (hε : ε ≤ 1 / 8) (hp0 : 0 < p) (hp1 : p < 1) (hF : F.emin ≤ 1 - F.p) (hFp : 3 ≤ F.p)
    (hl : I64 lower) (ha : 1 ≤ a) (hab : a ≤ b) (hbK : b ≤ K) (hK : lower + K ≤ 2 ^ 63) (hK2 : K < 2 ^ 63) (hra : Rep F a) (hrb : Rep F b)
    (hrK : Rep F K) :
    |engine.real {ω | ∃ fuel n m rest, geometricIn F log log1p fuel lower (lower + b) (.fin p) ((List.range n).map ω) = some (.ok m, rest) ∧
        m < lower + a} -
      (1 - (1 - (p : ℝ)) ^ a) / (1 - (1 - (p : ℝ)) ^ b)| ≤
      (3 * (2 * (ε + (unit F : ℚ)) + 1 / 2 ^ 52) + (1 - (p : ℝ)) ^ K) / (1 - (1 - (p : ℝ)) ^ b) := by
  have hL := C115_geometric F log log1p ε p lower (lower + b) hlog hlog1 (by linarith) hp0 hp1 (by omega)
  set value : ℚ → Out Int := fun x => llround (floor (Fp.div F (log (.fin x)) (log1p (.fin (-p))))) >>= fun g => chk (lower + g) with hv
  have hgeo : ∀ ws m rest, geometric F log log1p (.fin p) ws = some (.ok m, rest) ↔
      ∃ x, realWords ws = some (x, rest) ∧ llround (floor (Fp.div F (log (.fin x)) (log1p (.fin (-p))))) = .ok m := by
    intro ws m rest
    unfold geometric
    rw [lt_fin, decide_eq_true hp1, show Fp.le (.fin 0) (.fin p) = true from decide_eq_true hp0.le]
    simp only [Bool.and_self, Bool.not_true, Bool.false_eq_true, if_false, Option.map_eq_some_iff, Prod.mk.injEq]
    constructor
    · rintro ⟨⟨x, r⟩, h1, h2, rfl⟩; exact ⟨x, h1, h2⟩
    · rintro ⟨x, h1, h2⟩; exact ⟨(x, rest), h1, h2, rfl⟩
  have hbelow : ∀ c : ℕ, 1 ≤ c → c ≤ K → Rep F c →
      |engine.real {ω | ∃ n x rest, realWords ((List.range n).map ω) = some (x, rest) ∧ ∃ m, value x = .ok m ∧ m < lower + c} -
        (1 - (1 - (p : ℝ)) ^ c)| ≤ 2 * (ε + (unit F : ℚ)) + 1 / 2 ^ 52 := by
    intro c hc1 hc2 hrc
    have h := C114_geometric_law F log log1p ε p c hlog hlog1 hε0 hε hp0 hp1 hc1 (by omega) hrc hF hFp
    have e : engine.real {ω | ∃ n x rest, realWords ((List.range n).map ω) = some (x, rest) ∧ ∃ m, value x = .ok m ∧ m < lower + c} =
        engine.real {ω | ∃ n m rest, geometric F log log1p (.fin p) ((List.range n).map ω) = some (.ok m, rest) ∧ m < c} := by
      refine measureReal_congr ?_
      have hwords : ∀ᵐ ω ∂engine, Words ω := by
        rw [ae_iff]
        have := not_words_real
        unfold Measure.real at this
        rw [ENNReal.toReal_eq_zero_iff] at this
        exact this.resolve_right (measure_ne_top _ _)
      filter_upwards [hwords] with ω hw
      refine propext ?_
      show (∃ n x rest, realWords ((List.range n).map ω) = some (x, rest) ∧ ∃ m, value x = .ok m ∧ m < lower + c) ↔
        ∃ n m rest, geometric F log log1p (.fin p) ((List.range n).map ω) = some (.ok m, rest) ∧ m < c
      constructor
      · rintro ⟨n, x, rest, hx, m, hm, hmc⟩
        cases hg : llround (floor (Fp.div F (log (.fin x)) (log1p (.fin (-p))))) with
        | error e => simp only [hv, hg] at hm; cases hm
        | ok g =>
          simp only [hv, hg] at hm
          have hm : chk (lower + g) = .ok m := hm
          have := chk_val hm
          exact ⟨n, g, rest, (hgeo _ _ _).2 ⟨x, hx, hg⟩, by omega⟩
      · rintro ⟨n, g, rest, hg, hgc⟩
        have hg0 := (C114_geometric_range F log log1p ε 0 1 (.fin p) hlog hlog1 (by linarith) 0 ((List.range n).map ω) rest (by
          intro w hm
          obtain ⟨i, -, rfl⟩ := List.mem_map.1 hm
          exact hw i) g).1 hg
        obtain ⟨x, hx, hx2⟩ := (hgeo _ _ _).1 hg
        refine ⟨n, x, rest, hx, lower + g, ?_, by omega⟩
        simp only [hv, hx2]
        show chk (lower + g) = _
        unfold chk
        unfold I64 at hl
        rw [if_pos (by unfold I64; omega)]
    rw [e]; exact h
  have hA := hbelow a ha (hab.trans hbK) hra
  have hB := hbelow b (ha.trans hab) hbK hrb
  have hC := hbelow K (ha.trans (hab.trans hbK)) le_rfl hrK
  have hlimit := (hL fun o => ∃ m, o = .ok m ∧ m < lower + a).1
  have e1 : {ω : ℕ → ℕ | ∃ fuel n m rest, geometricIn F log log1p fuel lower (lower + b) (.fin p) ((List.range n).map ω) = some (.ok m, rest) ∧
        m < lower + a} =
      {ω | ∃ fuel n o rest, geometricIn F log log1p fuel lower (lower + b) (.fin p) ((List.range n).map ω) = some (o, rest) ∧
        o ≠ .error .fuel ∧ ∃ m, o = .ok m ∧ m < lower + a} := by
    ext ω
    constructor
    · rintro ⟨fuel, n, m, rest, h, hm⟩; exact ⟨fuel, n, _, rest, h, by simp, m, rfl, hm⟩
    · rintro ⟨fuel, n, _, rest, h, -, m, rfl, hm⟩; exact ⟨fuel, n, m, rest, h, hm⟩
  have e2 : {ω : ℕ → ℕ | ∃ n x rest, realWords ((List.range n).map ω) = some (x, rest) ∧ (∀ m, value x = .ok m → m < lower + b) ∧
        ∃ m, value x = .ok m ∧ m < lower + a} =
      {ω | ∃ n x rest, realWords ((List.range n).map ω) = some (x, rest) ∧ ∃ m, value x = .ok m ∧ m < lower + a} := by
    ext ω
    constructor
    · rintro ⟨n, x, rest, h, -, h3⟩; exact ⟨n, x, rest, h, h3⟩
    · rintro ⟨n, x, rest, h, m, h3, h4⟩
      refine ⟨n, x, rest, h, fun m' h' => ?_, m, h3, h4⟩
      rw [h3] at h'
      injection h' with h'
      omega
  rw [e1, hlimit, e2]
  have hend := (hL fun _ => True).2
  have hall := (hL fun _ => True).1
  simp only [and_true] at hall
  rw [hall] at hend
  set den := engine.real {ω | ∃ n x rest, realWords ((List.range n).map ω) = some (x, rest) ∧ ∀ m, value x = .ok m → m < lower + b} with hden
  have hden0 : 0 < den := by
    refine lt_of_le_of_ne measureReal_nonneg fun h0 => ?_
    rw [← h0, div_zero] at hend
    exact zero_ne_one hend
  have hp0R : (0 : ℝ) < p := by exact_mod_cast hp0
  have hp1R : (p : ℝ) < 1 := by exact_mod_cast hp1
  have hBpos : 0 < 1 - (1 - (p : ℝ)) ^ b := by
    have := pow_lt_one₀ (show (0 : ℝ) ≤ 1 - p by linarith) (by linarith) (show b ≠ 0 by omega)
    linarith
  -- the denominator
  have hlow : engine.real {ω | ∃ n x rest, realWords ((List.range n).map ω) = some (x, rest) ∧ ∃ m, value x = .ok m ∧ m < lower + b} ≤ den := by
    refine measureReal_mono ?_
    rintro ω ⟨n, x, rest, h, m, h3, h4⟩
    refine ⟨n, x, rest, h, fun m' h' => ?_⟩
    rw [h3] at h'
    injection h' with h'
    omega
  have hmeas : MeasurableSet {ω : ℕ → ℕ | ∃ n x rest, realWords ((List.range n).map ω) = some (x, rest) ∧ ∃ m, value x = .ok m ∧ m < lower + K} :=
    measurable_prefix fun _ ws => ∃ x rest, realWords ws = some (x, rest) ∧ ∃ m, value x = .ok m ∧ m < lower + K
  have hup : den ≤ engine.real {ω | ∃ n x rest, realWords ((List.range n).map ω) = some (x, rest) ∧ ∃ m, value x = .ok m ∧ m < lower + b} +
      (1 - engine.real {ω | ∃ n x rest, realWords ((List.range n).map ω) = some (x, rest) ∧ ∃ m, value x = .ok m ∧ m < lower + K}) := by
    rw [← probReal_compl_eq_one_sub hmeas]
    refine le_trans (measureReal_mono ?_) (measureReal_union_le _ _)
    rintro ω ⟨n, x, rest, h, h3⟩
    by_cases hm : ∃ m, value x = .ok m
    · obtain ⟨m, hm⟩ := hm
      exact .inl ⟨n, x, rest, h, m, hm, h3 m hm⟩
    · refine .inr ?_
      rintro ⟨n', x', rest', h', m, hm', -⟩
      have : x' = x := First.unique ⟨n', rest', h'⟩ ⟨n, rest, h⟩
      exact hm ⟨m, by rw [← this]; exact hm'⟩
  have hD : |den - (1 - (1 - (p : ℝ)) ^ b)| ≤ 2 * (2 * (ε + (unit F : ℚ)) + 1 / 2 ^ 52) + (1 - (p : ℝ)) ^ K := by
    have hpow : 0 ≤ (1 - (p : ℝ)) ^ K := pow_nonneg (by linarith) K
    have h1 := abs_le.1 hB
    have h2 := abs_le.1 hC
    have h3 : 0 ≤ 2 * ((ε : ℝ) + (unit F : ℚ)) + 1 / 2 ^ 52 := le_trans (abs_nonneg _) hB
    generalize (1 : ℝ) / 2 ^ 52 = κ at *
    rw [abs_le]
    constructor <;> linarith [h1.1, h1.2, h2.1, h2.2]
  have := ratio_err measureReal_nonneg (measureReal_mono (μ := engine) (s₁ := {ω | ∃ n x rest, realWords ((List.range n).map ω) = some (x, rest) ∧
      ∃ m, value x = .ok m ∧ m < lower + a}) (s₂ := {ω | ∃ n x rest, realWords ((List.range n).map ω) = some (x, rest) ∧ ∀ m, value x = .ok m → m < lower + b}) (by
    rintro ω ⟨n, x, rest, h, m, h3, h4⟩
    refine ⟨n, x, rest, h, fun m' h' => ?_⟩
    rw [h3] at h'
    injection h' with h'
    omega)) hBpos hA hD hden0
  refine this.trans (le_of_eq ?_)
  congr 1
  ring

private def double : Format := ⟨53, -1074, 971, by norm_num, by norm_num⟩

/-- `geometric(5, 7, 1/2)` in double precision is `5` in two of three cases. -/
example (log log1p : Flt → Flt) (h : LogWithin (1 / 2 ^ 52) log) (h1 : Log1pWithin (1 / 2 ^ 52) log1p) :
    |engine.real {ω | ∃ fuel n m rest, geometricIn double log log1p fuel 5 7 (.fin (1 / 2)) ((List.range n).map ω) = some (.ok m, rest) ∧
      m < 6} - 2 / 3| ≤ 1 / 2 ^ 47 := by
  have := C115_geometric_law double log log1p (1 / 2 ^ 52) (1 / 2) 5 1 2 64 h h1 (by positivity) (by norm_num) (by norm_num) (by norm_num)
    (by norm_num [double]) (by norm_num [double]) (by norm_num [I64]) le_rfl (by norm_num) (by norm_num) (by norm_num) (by norm_num)
    ⟨1, 0, by norm_num [double], by norm_num [double], by norm_num [double], by norm_num⟩
    ⟨1, 1, by norm_num [double], by norm_num [double], by norm_num [double], by norm_num⟩
    ⟨1, 6, by norm_num [double], by norm_num [double], by norm_num [double], by norm_num⟩
  have hu : (unit double : ℝ) = 1 / 2 ^ 53 := by
    unfold unit double; norm_num
  rw [hu] at this
  have e : (1 - (1 - ((1 / 2 : ℚ) : ℝ)) ^ 1) / (1 - (1 - ((1 / 2 : ℚ) : ℝ)) ^ 2) = 2 / 3 := by norm_num
  rw [e] at this
  refine le_trans (by simpa using this) ?_
  norm_num

/-- `exponential(1, 3, 2)` in double precision is below `2` with probability `(1 - e^-2) / (1 - e^-4)`. -/
example (log : Flt → Flt) (h : LogWithin (1 / 2 ^ 52) log) :
    |engine.real {ω | ∃ fuel n a rest, exponentialIn double log fuel (.fin 1) (.fin 3) (.fin 2) ((List.range n).map ω) = some (.ok a, rest) ∧
      Fp.lt a (.fin 2) = true} - (1 - Real.exp (-2)) / (1 - Real.exp (-4))| ≤ 1 / 2 ^ 47 := by
  have := C115_exponential_law double log (1 / 2 ^ 52) 1 3 2 2 h (by positivity) (by norm_num) (by norm_num [double])
    ⟨1, 0, by norm_num [double], by norm_num [double], by norm_num [double], by norm_num⟩
    ⟨3, 0, by norm_num [double], by norm_num [double], by norm_num [double], by norm_num⟩
    ⟨2, ⟨1, 1, by norm_num [double], by norm_num [double], by norm_num [double], by norm_num⟩, by norm_num⟩
    (by norm_num) (by norm_num) (by norm_num) (by norm_num)
  have e1 : (-(((2 : ℚ) : ℝ) * (((2 : ℚ) : ℝ) - ((1 : ℚ) : ℝ)))) = -2 := by norm_num
  have e2 : (-(((2 : ℚ) : ℝ) * (((3 : ℚ) : ℝ) - ((1 : ℚ) : ℝ)))) = -4 := by norm_num
  rw [e1, e2] at this
  refine this.trans ?_
  have h4 : Real.exp (-4) ≤ 1 / 2 := by
    have := Real.add_one_le_exp (4 : ℝ)
    rw [Real.exp_neg, inv_eq_one_div]
    exact one_div_le_one_div_of_le (by norm_num) (by linarith)
  have h5 : (((1 / 2 ^ 52 + unit double + 2 * (unit double * max |1| |3| + 2 ^ (double.emin + 1)) : ℚ) : ℝ) + 1 / 2 ^ 52) ≤ 1 / 2 ^ 49 := by
    have hz : (2 : ℚ) ^ (double.emin + 1) ≤ 1 / 2 ^ 60 := by
      rw [show double.emin + 1 = -1073 from rfl, show (1 / 2 ^ 60 : ℚ) = 2 ^ (-60 : ℤ) by norm_num]
      exact zpow_le_zpow_right₀ (by norm_num) (by norm_num)
    have hq : (1 / 2 ^ 52 + unit double + 2 * (unit double * max |1| |3| + 2 ^ (double.emin + 1)) : ℚ) ≤ 7 / 2 ^ 52 := by
      have hu : unit double = 1 / 2 ^ 53 := by unfold unit double; norm_num
      rw [hu, show max |(1 : ℚ)| |3| = 3 by norm_num]
      linarith
    have hqR := (Rat.cast_le (K := ℝ)).2 hq
    refine (add_le_add_left hqR _).trans ?_
    norm_num
  rw [div_le_iff₀ (by linarith)]
  linarith

end ICPC.Props
