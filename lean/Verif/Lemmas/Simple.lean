import Verif.Model.IsSimple
import Verif.Spec.Simple
import Verif.Spec.Geo
import Mathlib.Tactic.LinearCombination
import Mathlib.Tactic.Linarith
import Mathlib.Tactic.NormNum
import Mathlib.Tactic.Positivity
import Mathlib.Tactic.FieldSimp
import Mathlib.Tactic.Ring

/-!
# Segments as graphs of affine functions

The shear `(x, y) ↦ (2^32 x + y, y)` maps the lexicographic order of points with small coordinates to the order
of first coordinates, makes no segment vertical, and multiplies every cross product by `2^32`.  After it, a
segment is the graph of an affine function `line` on an interval.
-/

namespace ICPC.Sweep
open ICPC ICPC.Spec

/-- Coordinates of absolute value at most `2^30 - 1`. -/
def Small (p : Pt) : Prop := (-1073741823 ≤ p.1 ∧ p.1 ≤ 1073741823) ∧ -1073741823 ≤ p.2 ∧ p.2 ≤ 1073741823

/-- The sheared first coordinate. -/
def X (p : Pt) : Int := 4294967296 * p.1 + p.2

/-- The lexicographic order is the order of `X`. -/
theorem X_lt {p q : Pt} (hp : Small p) (hq : Small q) : X p < X q ↔ p.1 < q.1 ∨ (p.1 = q.1 ∧ p.2 < q.2) := by
  obtain ⟨⟨_, _⟩, _, _⟩ := hp
  obtain ⟨⟨_, _⟩, _, _⟩ := hq
  unfold X
  omega

theorem X_inj {p q : Pt} (hp : Small p) (hq : Small q) (h : X p = X q) : p = q := by
  obtain ⟨⟨_, _⟩, _, _⟩ := hp
  obtain ⟨⟨_, _⟩, _, _⟩ := hq
  unfold X at h
  apply Prod.ext <;> omega

/-- A segment with small ends, the left one lexicographically smaller. -/
structure Proper (s : Seg) : Prop where
  hl : Small s.l
  hr : Small s.r
  lt : X s.l < X s.r

theorem Proper.lt' {s : Seg} (h : Proper s) : (X s.l : ℝ) < X s.r := by exact_mod_cast h.lt

/-- The affine function through the sheared ends of `s`. -/
noncomputable def line (s : Seg) (x : ℝ) : ℝ :=
  s.l.2 + (s.r.2 - s.l.2) * (x - X s.l) / (X s.r - X s.l)

theorem line_l (s : Seg) : line s (X s.l) = s.l.2 := by simp [line]

theorem line_r {s : Seg} (h : Proper s) : line s (X s.r) = s.r.2 := by
  have := h.lt'
  have hne : (X s.r : ℝ) - X s.l ≠ 0 := by linarith
  unfold line
  field_simp
  ring

/-- The values of an affine function on a line through two others. -/
theorem line_comb (s : Seg) (x y z : ℝ) : (z - x) * line s y = (z - y) * line s x + (y - x) * line s z := by
  unfold line
  ring

/-- `x` is between the ends of `s`. -/
def In (s : Seg) (x : ℝ) : Prop := X s.l ≤ x ∧ x ≤ X s.r

/-- The cross product tells the side of the line. -/
theorem turn_eq {s : Seg} (h : Proper s) (p : Pt) :
    (4294967296 : ℝ) * turn s.l s.r p = (X s.r - X s.l) * (p.2 - line s (X p)) := by
  have := h.lt'
  have hne : (X s.r : ℝ) - X s.l ≠ 0 := by linarith
  unfold line turn
  have : (X s.r - X s.l : ℝ) * (p.2 - (s.l.2 + (s.r.2 - s.l.2) * (X p - X s.l) / (X s.r - X s.l)))
      = (X s.r - X s.l) * (p.2 - s.l.2) - (s.r.2 - s.l.2) * (X p - X s.l) := by
    field_simp
    ring
  rw [this]
  simp only [X]
  push_cast
  ring

theorem turn_pos {s : Seg} (h : Proper s) (p : Pt) : 0 < turn s.l s.r p ↔ line s (X p) < p.2 := by
  have h1 := turn_eq h p
  have h2 := h.lt'
  rw [← Int.cast_pos (R := ℝ)]
  constructor
  · intro h3
    by_contra h4
    nlinarith
  · intro h3
    by_contra h4
    nlinarith

theorem turn_neg {s : Seg} (h : Proper s) (p : Pt) : turn s.l s.r p < 0 ↔ (p.2 : ℝ) < line s (X p) := by
  have h1 := turn_eq h p
  have h2 := h.lt'
  rw [← Int.cast_lt_zero (R := ℝ)]
  constructor
  · intro h3
    by_contra h4
    nlinarith
  · intro h3
    by_contra h4
    nlinarith

theorem turn_zero {s : Seg} (h : Proper s) (p : Pt) : turn s.l s.r p = 0 ↔ (p.2 : ℝ) = line s (X p) := by
  have h1 := turn_pos h p
  have h2 := turn_neg h p
  constructor
  · intro h3
    rw [h3] at h1 h2
    simp only [lt_irrefl, false_iff, not_lt] at h1 h2
    exact le_antisymm h1 h2
  · intro h3
    rw [h3] at h1 h2
    simp only [lt_irrefl, iff_false, not_lt] at h1 h2
    exact le_antisymm h1 h2

/-- The points of a segment. -/
theorem on_iff {s : Seg} (h : Proper s) (p : ℝ × ℝ) :
    OnSegment s.l s.r p ↔ In s (4294967296 * p.1 + p.2) ∧ p.2 = line s (4294967296 * p.1 + p.2) := by
  have h2 := h.lt'
  have hne : (X s.r : ℝ) - X s.l ≠ 0 := by linarith
  constructor
  · rintro ⟨t, h0, h1, hx, hy⟩
    have e : (4294967296 * p.1 + p.2 : ℝ) = X s.l + t * (X s.r - X s.l) := by
      rw [hx, hy]
      simp only [X]
      push_cast
      ring
    refine ⟨⟨?_, ?_⟩, ?_⟩
    · rw [e]
      have := mul_nonneg h0 (by linarith : (0 : ℝ) ≤ X s.r - X s.l)
      linarith
    · rw [e]
      have := mul_nonneg (by linarith : (0 : ℝ) ≤ 1 - t) (by linarith : (0 : ℝ) ≤ X s.r - X s.l)
      linarith
    · rw [e, hy]
      unfold line
      field_simp
      ring
  · rintro ⟨⟨ha, hb⟩, hy⟩
    refine ⟨((4294967296 * p.1 + p.2) - X s.l) / (X s.r - X s.l), ?_, ?_, ?_, ?_⟩
    · exact div_nonneg (by linarith) (by linarith)
    · rw [div_le_one (by linarith)]
      linarith
    · have e1 : (4294967296 * p.1 : ℝ) = (4294967296 * p.1 + p.2) - p.2 := by ring
      generalize (4294967296 * p.1 + p.2 : ℝ) = z at *
      have : (4294967296 * p.1 : ℝ) = z - line s z := by rw [e1, hy]
      have e2 : (s.l.1 : ℝ) * 4294967296 = X s.l - s.l.2 := by simp only [X]; push_cast; ring
      have e3 : (s.r.1 : ℝ) * 4294967296 = X s.r - s.r.2 := by simp only [X]; push_cast; ring
      unfold line at this
      have h4 : (4294967296 : ℝ) * p.1 = 4294967296 * (s.l.1 + (z - X s.l) / (X s.r - X s.l) * (s.r.1 - s.l.1)) := by
        have h5 : (s.l.1 : ℝ) = (X s.l - s.l.2) / 4294967296 := by rw [← e2]; norm_num
        have h6 : (s.r.1 : ℝ) = (X s.r - s.r.2) / 4294967296 := by rw [← e3]; norm_num
        rw [this, h5, h6]
        field_simp
        ring
      exact mul_left_cancel₀ (by norm_num) h4
    · generalize (4294967296 * p.1 + p.2 : ℝ) = z at *
      rw [hy]
      unfold line
      ring

theorem onSegment_comm {a b : Pt} {p : ℝ × ℝ} : OnSegment a b p ↔ OnSegment b a p := by
  constructor <;>
  · rintro ⟨t, h0, h1, hx, hy⟩
    exact ⟨1 - t, by linarith, by linarith, by rw [hx]; ring, by rw [hy]; ring⟩

/-- Two segments have a common point. -/
def Meet (s o : Seg) : Prop := ∃ x, In s x ∧ In o x ∧ line s x = line o x

theorem meet_iff {s o : Seg} (hs : Proper s) (ho : Proper o) :
    Meet s o ↔ ∃ p, OnSegment s.l s.r p ∧ OnSegment o.l o.r p := by
  constructor
  · rintro ⟨x, h1, h2, h3⟩
    have e : (4294967296 * ((x - line s x) / 4294967296) + line s x : ℝ) = x := by ring
    refine ⟨((x - line s x) / 4294967296, line s x), (on_iff hs _).2 ?_, (on_iff ho _).2 ?_⟩
    · simp only [e]
      exact ⟨h1, trivial⟩
    · simp only [e]
      exact ⟨h2, h3⟩
  · rintro ⟨p, h1, h2⟩
    rw [on_iff hs] at h1
    rw [on_iff ho] at h2
    exact ⟨_, h1.1, h2.1, by rw [← h1.2, ← h2.2]⟩

theorem Meet.symm {s o : Seg} (h : Meet s o) : Meet o s := by
  obtain ⟨x, h1, h2, h3⟩ := h
  exact ⟨x, h2, h1, h3.symm⟩

theorem sign_mul_le (a b : Int) : signI a * b ≤ 0 ↔ a * b ≤ 0 := by
  unfold signI
  rcases lt_trichotomy a 0 with h | h | h
  · rw [if_neg (by omega), if_pos h]
    constructor
    · intro h1
      nlinarith
    · intro h1
      by_contra h2
      nlinarith
  · simp [h]
  · rw [if_pos h, if_neg (by omega)]
    constructor
    · intro h1
      nlinarith
    · intro h1
      by_contra h2
      nlinarith

/-- The difference of two segments as affine functions. -/
noncomputable def diff (s o : Seg) (x : ℝ) : ℝ := line o x - line s x

theorem diff_comb (s o : Seg) (x y z : ℝ) : (z - x) * diff s o y = (z - y) * diff s o x + (y - x) * diff s o z := by
  unfold diff
  linear_combination line_comb o x y z - line_comb s x y z

/-- Values of different sign: a zero in between. -/
theorem diff_zero {s o : Seg} {x y : ℝ} (hx : diff s o x < 0) (hy : 0 < diff s o y) :
    ∃ z, min x y < z ∧ z < max x y ∧ diff s o z = 0 := by
  have hne : x ≠ y := by rintro rfl; linarith
  set a := diff s o x with ha
  set b := diff s o y with hb
  have hab : 0 < b - a := by linarith
  refine ⟨(b * x - a * y) / (b - a), ?_, ?_, ?_⟩
  · rw [lt_div_iff₀ hab]
    rcases lt_or_gt_of_ne hne with h | h
    · rw [min_eq_left h.le]; nlinarith
    · rw [min_eq_right h.le]; nlinarith
  · rw [div_lt_iff₀ hab]
    rcases lt_or_gt_of_ne hne with h | h
    · rw [max_eq_right h.le]; nlinarith
    · rw [max_eq_left h.le]; nlinarith
  · have h := diff_comb s o x ((b * x - a * y) / (b - a)) y
    rw [← ha, ← hb] at h
    have h1 : (y - (b * x - a * y) / (b - a)) * a + ((b * x - a * y) / (b - a) - x) * b = 0 := by
      field_simp
      ring
    rw [h1] at h
    rcases mul_eq_zero.1 h with h2 | h2
    · exact absurd (by linarith : x = y) hne
    · exact h2

/-- The test of `Segment::intersect` on segments with a common abscissa. -/
theorem meet_test {s o : Seg} (hs : Proper s) (ho : Proper o) {q : ℝ} (hsq : In s q) (hoq : In o q) :
    (turn s.l s.r o.l * turn s.l s.r o.r ≤ 0 ∧ turn o.l o.r s.l * turn o.l o.r s.r ≤ 0) ↔ Meet s o := by
  have ls := hs.lt'
  have lo := ho.lt'
  -- the tests in terms of `diff`
  have e1 : turn s.l s.r o.l * turn s.l s.r o.r ≤ 0 ↔ diff s o (X o.l) * diff s o (X o.r) ≤ 0 := by
    have h1 := turn_eq hs o.l
    have h2 := turn_eq hs o.r
    rw [← line_l o] at h1
    rw [← line_r ho] at h2
    change _ = _ * diff s o _ at h1
    change _ = _ * diff s o _ at h2
    rw [← Int.cast_nonpos (R := ℝ)]
    push_cast
    have h3 : (4294967296 * 4294967296 : ℝ) * ((turn s.l s.r o.l : ℝ) * turn s.l s.r o.r)
        = ((X s.r - X s.l) * (X s.r - X s.l)) * (diff s o (X o.l) * diff s o (X o.r)) := by
      rw [show (4294967296 * 4294967296 : ℝ) * ((turn s.l s.r o.l : ℝ) * turn s.l s.r o.r)
        = (4294967296 * turn s.l s.r o.l) * (4294967296 * turn s.l s.r o.r) by ring, h1, h2]
      ring
    have h4 : (0 : ℝ) < (X s.r - X s.l) * (X s.r - X s.l) := mul_pos (by linarith) (by linarith)
    constructor
    · intro h5
      by_contra h6
      nlinarith
    · intro h5
      by_contra h6
      nlinarith
  have e2 : turn o.l o.r s.l * turn o.l o.r s.r ≤ 0 ↔ diff s o (X s.l) * diff s o (X s.r) ≤ 0 := by
    have h1 := turn_eq ho s.l
    have h2 := turn_eq ho s.r
    rw [← line_l s] at h1
    rw [← line_r hs] at h2
    have h1' : (4294967296 : ℝ) * turn o.l o.r s.l = -((X o.r - X o.l) * diff s o (X s.l)) := by
      rw [h1]; unfold diff; ring
    have h2' : (4294967296 : ℝ) * turn o.l o.r s.r = -((X o.r - X o.l) * diff s o (X s.r)) := by
      rw [h2]; unfold diff; ring
    rw [← Int.cast_nonpos (R := ℝ)]
    push_cast
    have h3 : (4294967296 * 4294967296 : ℝ) * ((turn o.l o.r s.l : ℝ) * turn o.l o.r s.r)
        = ((X o.r - X o.l) * (X o.r - X o.l)) * (diff s o (X s.l) * diff s o (X s.r)) := by
      rw [show (4294967296 * 4294967296 : ℝ) * ((turn o.l o.r s.l : ℝ) * turn o.l o.r s.r)
        = (4294967296 * turn o.l o.r s.l) * (4294967296 * turn o.l o.r s.r) by ring, h1', h2']
      ring
    have h4 : (0 : ℝ) < (X o.r - X o.l) * (X o.r - X o.l) := mul_pos (by linarith) (by linarith)
    constructor
    · intro h5
      by_contra h6
      nlinarith
    · intro h5
      by_contra h6
      nlinarith
  rw [e1, e2]
  constructor
  · rintro ⟨h1, h2⟩
    -- a zero in each interval
    have zero : ∀ a b : ℝ, a ≤ b → diff s o a * diff s o b ≤ 0 → ∃ z, a ≤ z ∧ z ≤ b ∧ diff s o z = 0 := by
      intro a b hab h
      rcases lt_trichotomy (diff s o a) 0 with h3 | h3 | h3
      · rcases lt_or_ge 0 (diff s o b) with h4 | h4
        · obtain ⟨z, h5, h6, h7⟩ := diff_zero h3 h4
          rw [min_eq_left hab] at h5
          rw [max_eq_right hab] at h6
          exact ⟨z, h5.le, h6.le, h7⟩
        · exact ⟨b, hab, le_rfl, by nlinarith⟩
      · exact ⟨a, le_rfl, hab, h3⟩
      · rcases lt_or_ge (diff s o b) 0 with h4 | h4
        · obtain ⟨z, h5, h6, h7⟩ := diff_zero h4 h3
          rw [min_eq_right hab] at h5
          rw [max_eq_left hab] at h6
          exact ⟨z, h5.le, h6.le, h7⟩
        · exact ⟨b, hab, le_rfl, by nlinarith⟩
    obtain ⟨z, z1, z2, z3⟩ := zero _ _ lo.le h1
    obtain ⟨w, w1, w2, w3⟩ := zero _ _ ls.le h2
    by_cases hzw : z = w
    · subst hzw
      exact ⟨z, ⟨w1, w2⟩, ⟨z1, z2⟩, by unfold diff at z3; linarith⟩
    · refine ⟨q, hsq, hoq, ?_⟩
      have h3 := diff_comb s o z q w
      rw [z3, w3] at h3
      have h4 : (w - z) * diff s o q = 0 := by rw [h3]; ring
      rcases mul_eq_zero.1 h4 with h5 | h5
      · exact absurd (by linarith : z = w) hzw
      · unfold diff at h5
        linarith
  · rintro ⟨x, ⟨a1, a2⟩, ⟨b1, b2⟩, h⟩
    have hx : diff s o x = 0 := by unfold diff; linarith
    have key : ∀ a b : ℝ, a ≤ x → x ≤ b → diff s o a * diff s o b ≤ 0 := by
      intro a b ha hb
      have h3 := diff_comb s o a x b
      rw [hx, mul_zero] at h3
      by_contra h4
      rcases pos_and_pos_or_neg_and_neg_of_mul_pos (not_le.1 h4) with ⟨h5, h6⟩ | ⟨h5, h6⟩
      · have h7 := mul_nonneg (by linarith : 0 ≤ b - x) h5.le
        have h8 := mul_nonneg (by linarith : 0 ≤ x - a) h6.le
        have h9 : (b - x) * diff s o a = 0 := by linarith
        have h10 : (x - a) * diff s o b = 0 := by linarith
        rcases mul_eq_zero.1 h9 with h11 | h11
        · rcases mul_eq_zero.1 h10 with h12 | h12
          · have : a = x := by linarith
            rw [this] at h5; linarith
          · linarith
        · linarith
      · have h7 := mul_nonneg (by linarith : 0 ≤ b - x) (neg_nonneg.2 h5.le)
        have h8 := mul_nonneg (by linarith : 0 ≤ x - a) (neg_nonneg.2 h6.le)
        have h9 : (b - x) * diff s o a = 0 := by linarith
        have h10 : (x - a) * diff s o b = 0 := by linarith
        rcases mul_eq_zero.1 h9 with h11 | h11
        · rcases mul_eq_zero.1 h10 with h12 | h12
          · have : a = x := by linarith
            rw [this] at h5; linarith
          · linarith
        · linarith
    exact ⟨key _ _ b1 b2, key _ _ a1 a2⟩

end ICPC.Sweep
