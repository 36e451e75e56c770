import Verif.Lemmas.FloatDist
import Verif.Model.FloatNormal
import Verif.Spec.FloatNormal
import Mathlib.Analysis.Real.Pi.Bounds
import Mathlib.Analysis.SpecialFunctions.Trigonometric.Bounds

/-!
# The error of `normal` in floating point
-/

namespace ICPC

open Spec ICPC.Fp ICPC.Spec.Fp

private theorem round_real {F : Format} {ε W z : ℚ} (hu : unit F ≤ ε) (hW : Rep F W) (hz : (|(z : ℝ)|) ≤ W) :
    ∃ q : ℚ, Fp.round F z = .fin q ∧ |(q : ℝ) - z| ≤ ε * |(z : ℝ)| + ((2 ^ (F.emin - 1) : ℚ) : ℝ) := by
  have hz' : |z| ≤ |W| := by
    have : ((|z| : ℚ) : ℝ) ≤ (W : ℝ) := by push_cast; exact hz
    have : |z| ≤ W := by exact_mod_cast this
    exact this.trans (le_abs_self W)
  obtain ⟨q, hq⟩ := round_fin (F := F) hW hz'
  refine ⟨q, hq, ?_⟩
  have h := round_err hq
  have h1 : |q - z| ≤ ε * |z| + 2 ^ (F.emin - 1) := h.trans (add_le_add_left (mul_le_mul_of_nonneg_right hu (abs_nonneg z)) _)
  have h2 := (Rat.cast_le (K := ℝ)).2 h1
  push_cast at h2 ⊢
  exact h2

private theorem sqrt_near {Z z e : ℝ} (hZ : 0 ≤ Z) (he0 : 0 ≤ e) (he : e ≤ 1) (h : |z - Z| ≤ e * Z) : |√z - √Z| ≤ e * √Z := by
  have h := abs_le.1 h
  have hs := Real.sq_sqrt hZ
  have hs0 := Real.sqrt_nonneg Z
  rw [abs_le]
  constructor
  · have : (1 - e) * √Z ≤ √z := by
      refine Real.le_sqrt_of_sq_le ?_
      rw [mul_pow, hs]
      nlinarith
    linarith
  · have : √z ≤ (1 + e) * √Z := by
      rw [Real.sqrt_le_left (mul_nonneg (by linarith) hs0), mul_pow, hs]
      nlinarith
    linarith

private theorem round_bound {F : Format} {log sqrt cos : Flt → Flt} {ε W : ℚ} (A : Accurate F log sqrt cos ε W) : ∃ h : ℝ, 0 < h ∧ h ≤ ε / 2 ^ 56 ∧
    h = 2 ^ (F.emin - 1) ∧
    ∀ (z : ℚ) (b : ℝ), |(z : ℝ)| ≤ b → b ≤ W → ∃ q : ℚ, Fp.round F z = .fin q ∧ (0 ≤ z → 0 ≤ q) ∧ |(q : ℝ) - z| ≤ ε * b + h := by
  have ht := (Rat.cast_le (K := ℝ)).2 A.tiny
  push_cast at ht
  refine ⟨2 ^ (F.emin - 1), by positivity, ht, rfl, fun z b h1 h2 => ?_⟩
  obtain ⟨q, hq, he⟩ := round_real (F := F) A.unit A.rep (h1.trans h2)
  push_cast at he
  have hε : (0 : ℝ) ≤ ε := by
    have h := A.digits
    have : (0 : ℚ) ≤ ε := le_trans (by positivity) h
    exact_mod_cast this
  exact ⟨q, hq, fun h => round_nonneg hq h, he.trans (add_le_add_left (mul_le_mul_of_nonneg_left h1 hε) _)⟩

private theorem eps {F : Format} {log sqrt cos : Flt → Flt} {ε W : ℚ} (A : Accurate F log sqrt cos ε W) :
    (0 : ℝ) < ε ∧ (ε : ℝ) ≤ 1 / 1024 ∧ (1 / 2 ^ 64 : ℝ) ≤ ε := by
  have heR : (ε : ℝ) ≤ 1 / 2 ^ 10 := by
    have := (Rat.cast_le (K := ℝ)).2 A.small
    push_cast at this; exact this
  have hdR : (1 / 2 ^ 64 : ℝ) ≤ ε := by
    have := (Rat.cast_le (K := ℝ)).2 A.digits
    push_cast at this; exact this
  exact ⟨lt_of_lt_of_le (by positivity) hdR, heR.trans (by norm_num), hdR⟩

/-- The function is accurate up to `ε` for `tr`. -/
private structure TrigWithin (ε : ℚ) (trig : Flt → Flt) (tr : ℝ → ℝ) : Prop where
  near : ∀ x : ℚ, 0 ≤ x → x ≤ 7 → ∃ y : ℚ, trig (.fin x) = .fin y ∧ |(y : ℝ) - tr x| ≤ ε
  lip : ∀ x y : ℝ, |tr x - tr y| ≤ |x - y|
  le_one : ∀ x, tr x ≤ 1
  neg_one_le : ∀ x, -1 ≤ tr x

/-- The value of `std::cos(2 * PI * u2)` or `std::sin(2 * PI * u2)`. -/
private theorem trig_value {F : Format} {log sqrt cos trig : Flt → Flt} {ε W y : ℚ} {tr : ℝ → ℝ} (A : Accurate F log sqrt cos ε W)
    (T : TrigWithin ε trig tr) (hW : 100 ≤ W) (hy0 : 0 < y) (hy1 : y ≤ 1) :
    ∃ c : ℚ, trig (Fp.mul F (Fp.mul F (.fin 2) (PI F)) (.fin y)) = .fin c ∧ |(c : ℝ) - tr (2 * Real.pi * y)| ≤ 26 * ε := by
  have hWR : (100 : ℝ) ≤ W := by exact_mod_cast hW
  obtain ⟨hε0, heR, hdR⟩ := eps A
  obtain ⟨h, hh0, hh, -, rr⟩ := round_bound A
  have hhe : h ≤ ε / 64 := hh.trans (by
    refine div_le_div_of_nonneg_left hε0.le (by norm_num) (by norm_num))
  have hy0R : (0 : ℝ) < y := by exact_mod_cast hy0
  have hy1R : (y : ℝ) ≤ 1 := by exact_mod_cast hy1
  have hp1 := Real.pi_gt_d20
  have hp2 := Real.pi_lt_d20
  have hlit : |(((3141592653589793238462643383279502884 / 10 ^ 36 : ℚ)) : ℝ) - Real.pi| ≤ ε / 4 := by
    have e : (((3141592653589793238462643383279502884 / 10 ^ 36 : ℚ)) : ℝ) = 3141592653589793238462643383279502884 / 10 ^ 36 := by push_cast; rfl
    rw [e, abs_le]
    norm_num at hp1 hp2 hdR ⊢
    constructor <;> linarith
  have hlit := abs_le.1 hlit
  obtain ⟨p0, hp0, -, hp0e⟩ := rr (3141592653589793238462643383279502884 / 10 ^ 36) 3.2 (by rw [abs_le]; constructor <;> linarith) (by linarith)
  have hr0 : PI F = .fin p0 := hp0
  have hp0e := abs_le.1 hp0e
  have d0 := abs_le.1 (show |(p0 : ℝ) - Real.pi| ≤ 4 * ε by rw [abs_le]; constructor <;> linarith)
  have hp0pos : 0 ≤ p0 := by
    have : (0 : ℝ) ≤ p0 := by linarith
    exact_mod_cast this
  obtain ⟨w, hw, hw0, hwe⟩ := rr (2 * p0) 6.4 (by push_cast; rw [abs_le]; constructor <;> linarith) (by linarith)
  push_cast at hwe
  have hwe := abs_le.1 hwe
  have hw0 := hw0 (by linarith)
  have hw0R : (0 : ℝ) ≤ w := by exact_mod_cast hw0
  have d1 := abs_le.1 (show |(w : ℝ) - 2 * Real.pi| ≤ 15 * ε by rw [abs_le]; constructor <;> linarith)
  have hwy : (w : ℝ) * y ≤ w := by nlinarith
  have hwy0 : (0 : ℝ) ≤ w * y := mul_nonneg hw0R hy0R.le
  obtain ⟨a, ha, ha0, hae⟩ := rr (w * y) 6.4 (by push_cast; rw [abs_le]; constructor <;> linarith) (by linarith)
  push_cast at hae
  have hae := abs_le.1 hae
  have ha0 := ha0 (mul_nonneg hw0 hy0.le)
  have d2 : |(a : ℝ) - 2 * Real.pi * y| ≤ 25 * ε := by
    have e : (a : ℝ) - 2 * Real.pi * y = (a - w * y) + (w - 2 * Real.pi) * y := by ring
    have k1 : (w - 2 * Real.pi) * y ≤ 15 * ε := by nlinarith [d1.1, d1.2]
    have k2 : -(15 * (ε : ℝ)) ≤ (w - 2 * Real.pi) * y := by nlinarith [d1.1, d1.2]
    rw [e, abs_le]; constructor <;> linarith
  have hpy : 2 * Real.pi * y ≤ 2 * Real.pi := by nlinarith [Real.pi_pos]
  have ha7 : a ≤ 7 := by
    have := (abs_le.1 d2).2
    have : (a : ℝ) ≤ 7 := by linarith
    exact_mod_cast this
  obtain ⟨c, hc, hce⟩ := T.near a ha0 ha7
  refine ⟨c, ?_, ?_⟩
  · rw [hr0]
    show trig (Fp.mul F (Fp.round F (2 * p0)) (.fin y)) = _
    rw [hw]
    show trig (Fp.round F (w * y)) = _
    rw [ha, hc]
  · have k := (T.lip (a : ℝ) (2 * Real.pi * y)).trans d2
    have e : (c : ℝ) - tr (2 * Real.pi * y) = (c - tr a) + (tr a - tr (2 * Real.pi * y)) := by ring
    rw [e]
    refine (abs_add_le _ _).trans ?_
    linarith

/-- The value of `std::sqrt(-2 * std::log(u1))`. -/
private theorem radius_value {F : Format} {log sqrt cos : Flt → Flt} {ε W x : ℚ} (A : Accurate F log sqrt cos ε W) (hW : 100 ≤ W)
    (hx0 : 0 < x) (hx1 : x ≤ 1) (hx2 : (x : ℝ) ≤ 1 - 1 / 2 ^ 52) (hx3 : Real.exp (-(81 / 2)) ≤ x) :
    ∃ r : ℚ, sqrt (Fp.mul F (.fin (-2)) (log (.fin x))) = .fin r ∧ |(r : ℝ) - √(-2 * Real.log x)| ≤ 5 * ε * √(-2 * Real.log x) ∧
      √(-2 * Real.log x) ≤ 9 ∧ 1 / 2 ^ 55 ≤ √(-2 * Real.log x) := by
  have hWR : (100 : ℝ) ≤ W := by exact_mod_cast hW
  obtain ⟨hε0, heR, hdR⟩ := eps A
  obtain ⟨h, hh0, hh, -, rr⟩ := round_bound A
  have hx0R : (0 : ℝ) < x := by exact_mod_cast hx0
  obtain ⟨a, ha, ha0, ha1, ha2⟩ := log_within A.log (lt_of_le_of_lt A.small (by norm_num)) hx0 hx1
  have hL : Real.log x ≤ -(1 / 2 ^ 52) := by have := Real.log_le_sub_one_of_pos hx0R; linarith
  have hL2 : -(81 / 2) ≤ Real.log x := (Real.le_log_iff_exp_le hx0R).2 hx3
  generalize hZ : -2 * Real.log x = Z at *
  have hZ1 : 2 * (1 / 2 ^ 52) ≤ Z := by linarith
  have hZ2 : Z ≤ 81 := by linarith
  have hlogZ : -Real.log x = Z / 2 := by linarith
  rw [hlogZ] at ha1 ha2
  have hZ0 : 0 < Z := lt_of_lt_of_le (by positivity) hZ1
  have hhZ : h ≤ ε * Z / 32 := by
    refine hh.trans ?_
    have : (ε : ℝ) / 2 ^ 56 = ε * (2 * (1 / 2 ^ 52)) / 32 := by ring
    rw [this]
    have := mul_le_mul_of_nonneg_left hZ1 hε0.le
    linarith
  push_cast at ha1 ha2
  have hεZ : (ε : ℝ) * Z ≤ 1 / 1024 * Z := mul_le_mul_of_nonneg_right heR hZ0.le
  have hεZ0 : 0 < (ε : ℝ) * Z := mul_pos hε0 hZ0
  obtain ⟨z, hz, hz0, hze⟩ := rr (-2 * a) (Z + ε * Z) (by push_cast; rw [abs_le]; constructor <;> linarith) (by linarith)
  push_cast at hze
  have hz0 := hz0 (by linarith)
  have hze := abs_le.1 hze
  have heeZ : (ε : ℝ) * (Z + ε * Z) ≤ ε * Z + ε * Z / 1024 := by nlinarith
  have d1 : |(z : ℝ) - Z| ≤ 3 * ε * Z := by rw [abs_le]; constructor <;> linarith
  have d2 := sqrt_near hZ0.le (by linarith : (0 : ℝ) ≤ 3 * ε) (by linarith) d1
  obtain ⟨r, hr, hre⟩ := A.sqrt z hz0
  have hR : 0 ≤ √Z := Real.sqrt_nonneg Z
  have hR9 : √Z ≤ 9 := by rw [Real.sqrt_le_left (by norm_num)]; linarith
  refine ⟨r, ?_, ?_, hR9, ?_⟩
  · rw [ha]
    show sqrt (Fp.round F (-2 * a)) = _
    rw [hz, hr]
  · have k := abs_le.1 d2
    have k2 := abs_le.1 hre
    have m1 : (ε : ℝ) * √(z : ℝ) ≤ ε * ((1 + 3 * ε) * √Z) := mul_le_mul_of_nonneg_left (by linarith) hε0.le
    have m2 : (ε : ℝ) * ((1 + 3 * ε) * √Z) ≤ 2 * ε * √Z := by nlinarith [mul_nonneg hε0.le hR]
    have m3 : (0 : ℝ) ≤ ε * √Z := mul_nonneg hε0.le hR
    rw [abs_le]; constructor <;> linarith
  · have hs := Real.sq_sqrt hZ0.le
    have : Z ≤ 9 * √Z := by nlinarith
    have e : (1 : ℝ) / 2 ^ 55 = (1 / 2 ^ 52) / 8 := by ring
    rw [e]
    linarith

set_option maxHeartbeats 800000 in
private theorem value_near {F : Format} {log sqrt cos trig : Flt → Flt} {ε W x y v mu : ℚ} {tr : ℝ → ℝ} (A : Accurate F log sqrt cos ε W)
    (T : TrigWithin ε trig tr)
    (hW : 27 * (v + 1) + |mu| + 100 ≤ W) (hx0 : 0 < x) (hx1 : x ≤ 1) (hx2 : (x : ℝ) ≤ 1 - 1 / 2 ^ 52) (hx3 : Real.exp (-(81 / 2)) ≤ x)
    (hy0 : 0 < y) (hy1 : y ≤ 1) (hv : 0 ≤ v) : ∃ m : ℚ, Fp.scaled F sqrt (.fin mu) (.fin v) (Fp.boxMuller F log sqrt trig x y) = .fin m ∧
      |(m : ℝ) - (√(v : ℝ) * (√(-2 * Real.log x) * tr (2 * Real.pi * y)) + mu)| ≤ 378 * ε * √(v : ℝ) + ε * |(mu : ℝ)| + 2 ^ (F.emin + 1) := by
  have hmu := abs_nonneg mu
  have hW100 : 100 ≤ W := by linarith
  obtain ⟨hε0, heR, hdR⟩ := eps A
  obtain ⟨h, hh0, hh, hhe, rr⟩ := round_bound A
  obtain ⟨r, hr, hr1, hr9, hr0⟩ := radius_value A hW100 hx0 hx1 hx2 hx3
  obtain ⟨c, hc, hc1⟩ := trig_value A T hW100 hy0 hy1
  obtain ⟨s, hs, hs1⟩ := A.sqrt v hv
  have hWR : 27 * ((v : ℝ) + 1) + |(mu : ℝ)| + 100 ≤ W := by
    have := (Rat.cast_le (K := ℝ)).2 hW
    push_cast at this; exact this
  have hmuR := abs_nonneg (mu : ℝ)
  have hvR : (0 : ℝ) ≤ v := by exact_mod_cast hv
  have hS0 := Real.sqrt_nonneg (v : ℝ)
  have hS1 : √(v : ℝ) ≤ v + 1 := by
    rw [Real.sqrt_le_left (by linarith)]; nlinarith
  have hC1 := T.le_one (2 * Real.pi * y)
  have hC2 := T.neg_one_le (2 * Real.pi * y)
  unfold Fp.scaled Fp.boxMuller
  rw [hr, hc, hs]
  generalize √(-2 * Real.log x) = R at *
  generalize tr (2 * Real.pi * y) = C at *
  generalize √(v : ℝ) = S at *
  have hR0 : 0 ≤ R := le_trans (by positivity) hr0
  have hCabs : |C| ≤ 1 := abs_le.2 ⟨hC2, hC1⟩
  have hhR : h ≤ ε * R := by
    refine hh.trans ?_
    have : (ε : ℝ) / 2 ^ 56 ≤ ε * (1 / 2 ^ 55) := by
      rw [div_eq_mul_one_div]
      refine mul_le_mul_of_nonneg_left ?_ hε0.le
      norm_num
    exact this.trans (mul_le_mul_of_nonneg_left hr0 hε0.le)
  have hεR : 0 ≤ ε * R := mul_nonneg hε0.le hR0
  have hεS : 0 ≤ ε * S := mul_nonneg hε0.le hS0
  have hεR2 : ε * R ≤ 1 / 1024 * R := mul_le_mul_of_nonneg_right heR hR0
  -- r * c
  have hcabs : |(c : ℝ)| ≤ 1 + 26 * ε := by
    have := abs_sub_abs_le_abs_sub (c : ℝ) C
    linarith
  have g1 : |(r * c : ℝ) - R * C| ≤ 32 * (ε * R) := by
    have e : (r * c : ℝ) - R * C = (r - R) * c + R * (c - C) := by ring
    rw [e]
    refine (abs_add_le _ _).trans ?_
    rw [abs_mul, abs_mul, abs_of_nonneg hR0]
    have k1 : |(r : ℝ) - R| * |(c : ℝ)| ≤ (5 * ε * R) * (1 + 26 * ε) := mul_le_mul hr1 hcabs (abs_nonneg _) (by nlinarith)
    have k2 : R * |(c : ℝ) - C| ≤ R * (26 * ε) := mul_le_mul_of_nonneg_left hc1 hR0
    nlinarith
  have hRC : |R * C| ≤ R := by rw [abs_mul, abs_of_nonneg hR0]; nlinarith
  have g2 : |((r * c : ℚ) : ℝ)| ≤ 2 * R := by
    push_cast
    have := abs_sub_abs_le_abs_sub (r * c : ℝ) (R * C)
    linarith
  obtain ⟨m1, hm1, -, hm1e⟩ := rr (r * c) (2 * R) g2 (by linarith)
  push_cast at hm1e
  have g3 : |(m1 : ℝ) - R * C| ≤ 35 * (ε * R) := by
    have e : (m1 : ℝ) - R * C = (m1 - r * c) + (r * c - R * C) := by ring
    rw [e]
    refine (abs_add_le _ _).trans ?_
    linarith
  have g4 : |(m1 : ℝ)| ≤ 2 * R := by
    have := abs_sub_abs_le_abs_sub (m1 : ℝ) (R * C)
    linarith
  -- sqrt(stddev) * res
  have hSR : 0 ≤ ε * (S * R) := mul_nonneg hε0.le (mul_nonneg hS0 hR0)
  have hSR0 : 0 ≤ S * R := mul_nonneg hS0 hR0
  have hSR9 : S * R ≤ 9 * S := by nlinarith
  have g5 : |(s * m1 : ℝ) - S * (R * C)| ≤ 37 * (ε * (S * R)) := by
    have e : (s * m1 : ℝ) - S * (R * C) = (s - S) * m1 + S * (m1 - R * C) := by ring
    rw [e]
    refine (abs_add_le _ _).trans ?_
    rw [abs_mul, abs_mul, abs_of_nonneg hS0]
    have k1 : |(s : ℝ) - S| * |(m1 : ℝ)| ≤ (ε * S) * (2 * R) := mul_le_mul hs1 g4 (abs_nonneg _) hεS
    have k2 : S * |(m1 : ℝ) - R * C| ≤ S * (35 * (ε * R)) := mul_le_mul_of_nonneg_left g3 hS0
    linarith
  have hSRC : |S * (R * C)| ≤ S * R := by rw [abs_mul, abs_of_nonneg hS0]; exact mul_le_mul_of_nonneg_left hRC hS0
  have hεSR : ε * (S * R) ≤ 1 / 1024 * (S * R) := mul_le_mul_of_nonneg_right heR hSR0
  have g6 : |((s * m1 : ℚ) : ℝ)| ≤ 2 * (S * R) := by
    push_cast
    have := abs_sub_abs_le_abs_sub (s * m1 : ℝ) (S * (R * C))
    linarith
  obtain ⟨m2, hm2, -, hm2e⟩ := rr (s * m1) (2 * (S * R)) g6 (by linarith)
  push_cast at hm2e
  have g7 : |(m2 : ℝ) - S * (R * C)| ≤ 39 * (ε * (S * R)) + h := by
    have e : (m2 : ℝ) - S * (R * C) = (m2 - s * m1) + (s * m1 - S * (R * C)) := by ring
    rw [e]
    refine (abs_add_le _ _).trans ?_
    linarith
  have hh1 : h ≤ 1 := by
    refine hh.trans ?_
    rw [div_le_one (by positivity)]
    have : (1 : ℝ) ≤ 2 ^ 56 := by norm_num
    linarith
  -- + mean
  have g8 : |((m2 + mu : ℚ) : ℝ)| ≤ 2 * (S * R) + h + |(mu : ℝ)| := by
    push_cast
    refine (abs_add_le _ _).trans ?_
    have := abs_sub_abs_le_abs_sub (m2 : ℝ) (S * (R * C))
    linarith
  obtain ⟨m3, hm3, -, hm3e⟩ := rr (m2 + mu) (2 * (S * R) + h + |(mu : ℝ)|) g8 (by linarith)
  push_cast at hm3e
  refine ⟨m3, ?_, ?_⟩
  · show Fp.add F (Fp.mul F (.fin s) (Fp.round F (r * c))) (.fin mu) = _
    rw [hm1]
    show Fp.add F (Fp.round F (s * m1)) (.fin mu) = _
    rw [hm2]
    exact hm3
  · have e : (m3 : ℝ) - (S * (R * C) + mu) = (m3 - (m2 + mu)) + (m2 - S * (R * C)) := by ring
    have h4 : (2 : ℝ) ^ (F.emin + 1) = 4 * h := by
      rw [hhe, show F.emin + 1 = 2 + (F.emin - 1) by ring, zpow_add₀ (by norm_num)]; norm_num
    have hεh : ε * h ≤ h := mul_le_of_le_one_left hh0.le (by linarith)
    have k9 : ε * (S * R) ≤ 9 * (ε * S) := by
      refine (mul_le_mul_of_nonneg_left hSR9 hε0.le).trans (le_of_eq ?_)
      ring
    have k10 : (ε : ℝ) * (2 * (S * R) + h + |(mu : ℝ)|) = 2 * (ε * (S * R)) + ε * h + ε * |(mu : ℝ)| := by ring
    have k11 : 378 * (ε : ℝ) * S = 378 * (ε * S) := by ring
    rw [k10] at hm3e
    rw [k11]
    rw [e, h4]
    refine (abs_add_le _ _).trans ?_
    linarith

/-- `normal(mean, stddev)` is close to the exact transformation of the numbers of `real()`. -/
theorem normal_value {F : Format} {log sqrt cos : Flt → Flt} {ε W x y v mu : ℚ} (A : Accurate F log sqrt cos ε W)
    (hW : 27 * (v + 1) + |mu| + 100 ≤ W) (hx0 : 0 < x) (hx1 : x ≤ 1) (hx2 : (x : ℝ) ≤ 1 - 1 / 2 ^ 52) (hx3 : Real.exp (-(81 / 2)) ≤ x)
    (hy0 : 0 < y) (hy1 : y ≤ 1) (hv : 0 ≤ v) : ∃ m : ℚ, Fp.scaled F sqrt (.fin mu) (.fin v) (Fp.boxMuller F log sqrt cos x y) = .fin m ∧
      |(m : ℝ) - (√(v : ℝ) * (√(-2 * Real.log x) * Real.cos (2 * Real.pi * y)) + mu)| ≤ 378 * ε * √(v : ℝ) + ε * |(mu : ℝ)| + 2 ^ (F.emin + 1) :=
  value_near A ⟨A.cos, Real.abs_cos_sub_cos_le, Real.cos_le_one, Real.neg_one_le_cos⟩ hW hx0 hx1 hx2 hx3 hy0 hy1 hv

/-- Likewise with the sine. -/
theorem normal_value_sin {F : Format} {log sqrt cos sin : Flt → Flt} {ε W x y v mu : ℚ} (A : Accurate F log sqrt cos ε W) (hsin : SinWithin ε sin)
    (hW : 27 * (v + 1) + |mu| + 100 ≤ W) (hx0 : 0 < x) (hx1 : x ≤ 1) (hx2 : (x : ℝ) ≤ 1 - 1 / 2 ^ 52) (hx3 : Real.exp (-(81 / 2)) ≤ x)
    (hy0 : 0 < y) (hy1 : y ≤ 1) (hv : 0 ≤ v) : ∃ m : ℚ, Fp.scaled F sqrt (.fin mu) (.fin v) (Fp.boxMuller F log sqrt sin x y) = .fin m ∧
      |(m : ℝ) - (√(v : ℝ) * (√(-2 * Real.log x) * Real.sin (2 * Real.pi * y)) + mu)| ≤ 378 * ε * √(v : ℝ) + ε * |(mu : ℝ)| + 2 ^ (F.emin + 1) :=
  value_near A ⟨hsin, Real.abs_sin_sub_sin_le, Real.sin_le_one, Real.neg_one_le_sin⟩ hW hx0 hx1 hx2 hx3 hy0 hy1 hv

end ICPC
