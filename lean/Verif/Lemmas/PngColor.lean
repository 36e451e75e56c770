import Verif.Lemmas.PngDraw
import Mathlib.Tactic.Positivity
import Mathlib.Algebra.Order.Field.Rat

/-!
# Scaling and interpolating colours
-/

namespace ICPC.Spec.PngFormat

/-- `v` is an integer nearest to `x`, cut off to `0..255`. -/
def NearestByte (x : Rat) (v : ICPC.Png.Byte) : Prop :=
  ∃ i : Int, |x - i| ≤ 1 / 2 ∧ (v.toNat : Int) = max 0 (min 255 i)

end ICPC.Spec.PngFormat

namespace ICPC.Png

open Spec.PngFormat

/-- The value of `llround`. -/
def roundAway (q : Rat) : Int := if 0 ≤ q then (q + 1 / 2).floor else -((-q + 1 / 2).floor)

theorem floor_bounds (q : Rat) : (q.floor : Rat) ≤ q ∧ q < q.floor + 1 := by
  refine ⟨Rat.le_floor_iff.1 le_rfl, ?_⟩
  by_contra h
  have : q.floor + 1 ≤ q.floor := Rat.le_floor_iff.2 (by push_cast; exact not_lt.1 h)
  omega

theorem roundAway_near (q : Rat) : |q - roundAway q| ≤ 1 / 2 := by
  unfold roundAway
  split
  · have := floor_bounds (q + 1 / 2)
    rw [abs_le]
    constructor <;> linarith [this.1, this.2]
  · have := floor_bounds (-q + 1 / 2)
    rw [abs_le]
    push_cast
    constructor <;> linarith [this.1, this.2]

theorem roundAway_i64 {q : Rat} (h : |q| ≤ 2 ^ 62) : I64 (roundAway q) := by
  have h1 := abs_le.1 (roundAway_near q)
  have h2 := abs_le.1 h
  have h3 : (roundAway q : Rat) ≤ ((2 ^ 62 + 1 : Int) : Rat) := by push_cast; linarith [h1.1, h1.2, h2.1, h2.2]
  have h4 : ((-(2 ^ 62) - 1 : Int) : Rat) ≤ (roundAway q : Rat) := by push_cast; linarith [h1.1, h1.2, h2.1, h2.2]
  have h3 : roundAway q ≤ 2 ^ 62 + 1 := by exact_mod_cast h3
  have h4 : -(2 ^ 62) - 1 ≤ roundAway q := by exact_mod_cast h4
  unfold I64
  omega

theorem clampColor_toNat (i : Int) : ((clampColor i).toNat : Int) = max 0 (min 255 i) := by
  unfold clampColor
  split
  · rw [BitVec.toNat_ofInt]; omega
  split
  · rw [BitVec.toNat_ofInt]; omega
  · rw [BitVec.toNat_ofInt]; omega

theorem clampReal_eq {q : Rat} (h : |q| ≤ 2 ^ 62) : clampReal q = .ok (clampColor (roundAway q)) := by
  unfold clampReal llround
  rw [show (if 0 ≤ q then (q + 1 / 2).floor else -((-q + 1 / 2).floor)) = roundAway q from rfl, chk_ok (roundAway_i64 h)]
  rfl

theorem clampReal_near {q : Rat} (h : |q| ≤ 2 ^ 62) : ∃ v, clampReal q = .ok v ∧ NearestByte q v :=
  ⟨_, clampReal_eq h, roundAway q, roundAway_near q, clampColor_toNat _⟩

theorem channel_bound (x : Byte) {f : Rat} (h : |f| ≤ 2 ^ 54) : |(x.toNat : Rat) * f| ≤ 2 ^ 62 := by
  have hx : (x.toNat : Rat) ≤ 255 := by exact_mod_cast byte_le x
  have h0 : (0 : Rat) ≤ x.toNat := by positivity
  rw [abs_mul, abs_of_nonneg h0]
  calc (x.toNat : Rat) * |f| ≤ 255 * 2 ^ 54 := mul_le_mul hx h (abs_nonneg f) (by norm_num)
    _ ≤ 2 ^ 62 := by norm_num

theorem scale_eq (c : Color) {f : Rat} (h : |f| ≤ 2 ^ 54) : c.scale f =
    .ok ⟨clampColor (roundAway (c.r.toNat * f)), clampColor (roundAway (c.g.toNat * f)), clampColor (roundAway (c.b.toNat * f)),
      clampColor (roundAway (c.a.toNat * f))⟩ := by
  unfold Color.scale
  rw [clampReal_eq (channel_bound _ h), clampReal_eq (channel_bound _ h), clampReal_eq (channel_bound _ h), clampReal_eq (channel_bound _ h)]
  rfl

/-- The rounded parts of a number add up to at least that number. -/
theorem round_parts (n : Nat) {f : Rat} (h0 : 0 ≤ f) (h1 : f ≤ 1) :
    (n : Int) ≤ roundAway (n * f) + roundAway (n * (1 - f)) ∧ 0 ≤ roundAway (n * f) ∧ 0 ≤ roundAway (n * (1 - f)) ∧
    roundAway (n * f) ≤ n ∧ roundAway (n * (1 - f)) ≤ n := by
  have hn : (0 : Rat) ≤ n := by positivity
  have hx : 0 ≤ (n : Rat) * f := mul_nonneg hn h0
  have hy : 0 ≤ (n : Rat) * (1 - f) := mul_nonneg hn (by linarith)
  have hsum : (n : Rat) * f + n * (1 - f) = n := by ring
  unfold roundAway
  rw [if_pos hx, if_pos hy]
  generalize (n : Rat) * f = x at *
  generalize (n : Rat) * (1 - f) = y at *
  have bx := floor_bounds (x + 1 / 2)
  have bY := floor_bounds (y + 1 / 2)
  have e1 : (((n : Int) - 1 : Int) : Rat) < (((x + 1 / 2).floor + (y + 1 / 2).floor : Int) : Rat) := by
    push_cast; linarith [bx.2, bY.2]
  have e1 : (n : Int) - 1 < (x + 1 / 2).floor + (y + 1 / 2).floor := by exact_mod_cast e1
  have e2 : 0 ≤ (x + 1 / 2).floor := Rat.le_floor_iff.2 (by push_cast; linarith)
  have e3 : 0 ≤ (y + 1 / 2).floor := Rat.le_floor_iff.2 (by push_cast; linarith)
  have e4 : (((x + 1 / 2).floor : Int) : Rat) < ((n + 1 : Int) : Rat) := by push_cast; linarith [bx.1]
  have e5 : (((y + 1 / 2).floor : Int) : Rat) < ((n + 1 : Int) : Rat) := by push_cast; linarith [bY.1]
  have e4 : (x + 1 / 2).floor < n + 1 := by exact_mod_cast e4
  have e5 : (y + 1 / 2).floor < n + 1 := by exact_mod_cast e5
  omega

theorem roundAway_nonneg {q : Rat} (h : 0 ≤ q) : 0 ≤ roundAway q := by
  unfold roundAway
  rw [if_pos h]
  exact Rat.le_floor_iff.2 (by push_cast; linarith)

theorem clamp_round_le {x : Nat} (hx : x ≤ 255) {f : Rat} (h0 : 0 ≤ f) (h1 : f ≤ 1) :
    ((clampColor (roundAway (x * f))).toNat : Int) = roundAway (x * f) := by
  rw [clampColor_toNat]
  obtain ⟨-, h2, -, h3, -⟩ := round_parts x h0 h1
  omega

/-- One channel of `lerp`. -/
theorem lerp_channel (x y : Byte) {f : Rat} (h0 : 0 ≤ f) (h1 : f ≤ 1) :
    |((clampColor ((clampColor (roundAway (x.toNat * f))).toNat + (clampColor (roundAway (y.toNat * (1 - f)))).toNat)).toNat : Rat) -
      (x.toNat * f + y.toNat * (1 - f))| ≤ 1 := by
  have e1 := clamp_round_le (byte_le x) h0 h1
  have e2 := clamp_round_le (byte_le y) (f := 1 - f) (by linarith) (by linarith)
  have hx : (x.toNat : Rat) ≤ 255 := by exact_mod_cast byte_le x
  have hy : (y.toNat : Rat) ≤ 255 := by exact_mod_cast byte_le y
  have hx0 : (0 : Rat) ≤ x.toNat := by positivity
  have hy0 : (0 : Rat) ≤ y.toNat := by positivity
  have n1 := abs_le.1 (roundAway_near (x.toNat * f))
  have n2 := abs_le.1 (roundAway_near (y.toNat * (1 - f)))
  have p1 : (0 : Rat) ≤ x.toNat * f := mul_nonneg hx0 h0
  have p2 : (0 : Rat) ≤ y.toNat * (1 - f) := mul_nonneg hy0 (by linarith)
  have p3 : (x.toNat : Rat) * f ≤ 255 * f := mul_le_mul_of_nonneg_right hx h0
  have p4 : (y.toNat : Rat) * (1 - f) ≤ 255 * (1 - f) := mul_le_mul_of_nonneg_right hy (by linarith)
  have r1 := roundAway_nonneg p1
  have r2 := roundAway_nonneg p2
  generalize roundAway (x.toNat * f) = i at *
  generalize roundAway (y.toNat * (1 - f)) = j at *
  rw [e1, e2]
  have hc := clampColor_toNat (i + j)
  generalize (clampColor (i + j)).toNat = v at *
  rw [abs_le]
  rcases le_total (i + j) 255 with h | h
  · have hv : (v : Int) = i + j := by omega
    have hv : (v : Rat) = i + j := by exact_mod_cast hv
    constructor <;> linarith [n1.1, n1.2, n2.1, n2.2]
  · have hv : v = 255 := by omega
    have h' : (255 : Rat) ≤ (i : Rat) + j := by exact_mod_cast h
    subst hv
    push_cast
    constructor <;> linarith [n1.1, n1.2, n2.1, n2.2]

end ICPC.Png
