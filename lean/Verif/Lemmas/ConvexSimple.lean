import Mathlib.Data.Real.Basic
import Mathlib.Data.Finset.Max
import Mathlib.Order.Interval.Finset.Nat
import Mathlib.Tactic.Linarith
import Mathlib.Tactic.LinearCombination
import Mathlib.Tactic.FieldSimp
import Mathlib.Tactic.Push
import Mathlib.Tactic.Ring

/-!
# Closed walks that turn left around their first vertex

A closed walk `P 0 = 0, P 1, …, P (n - 1)` that nowhere turns right and goes counter-clockwise around its first vertex either
goes around it less than half a turn, or it meets itself: otherwise it would be, in the wedge between the first and the last edge, at first inside
and finally outside of its own second lap.
-/

namespace ICPC

/-- The cross product. -/
def cr (a b : ℝ × ℝ) : ℝ := a.1 * b.2 - a.2 * b.1

/-- The point of the segment from `a` to `b` with parameter `s`. -/
def along (a b : ℝ × ℝ) (s : ℝ) : ℝ × ℝ := (a.1 + s * (b.1 - a.1), a.2 + s * (b.2 - a.2))

/-- Twice the area of the triangle `a b x`. -/
def tri (a b x : ℝ × ℝ) : ℝ := cr (b - a) (x - a)

theorem tri_along (a b x y : ℝ × ℝ) (s : ℝ) : tri a b (along x y s) = (1 - s) * tri a b x + s * tri a b y := by
  simp only [tri, cr, along, Prod.fst_sub, Prod.snd_sub]; ring

theorem cr_along_right (a x y : ℝ × ℝ) (s : ℝ) : cr a (along x y s) = (1 - s) * cr a x + s * cr a y := by
  simp only [cr, along]; ring

theorem cr_along_left (a x y : ℝ × ℝ) (s : ℝ) : cr (along x y s) a = (1 - s) * cr x a + s * cr y a := by
  simp only [cr, along]; ring

theorem tri_zero (a b : ℝ × ℝ) : tri a b 0 = cr a b := by
  simp only [tri, cr, Prod.fst_sub, Prod.snd_sub, Prod.fst_zero, Prod.snd_zero]; ring

theorem tri_rot (a b c : ℝ × ℝ) : tri b c a = tri a b c := by
  simp only [tri, cr, Prod.fst_sub, Prod.snd_sub]; ring

theorem tri_left (a b : ℝ × ℝ) : tri a b a = 0 := by
  simp only [tri, cr, Prod.fst_sub, Prod.snd_sub]; ring

theorem tri_right (a b : ℝ × ℝ) : tri a b b = 0 := by
  simp only [tri, cr, Prod.fst_sub, Prod.snd_sub]; ring

theorem cr_self (a : ℝ × ℝ) : cr a a = 0 := by unfold cr; ring

theorem cr_zero (a : ℝ × ℝ) : cr a 0 = 0 := by simp [cr]

theorem cr_four (u w z v : ℝ × ℝ) : cr u w * cr z v = cr u z * cr w v - cr u v * cr w z := by unfold cr; ring

theorem along_along (a b : ℝ × ℝ) (r s : ℝ) : along a (along a b r) s = along a b (s * r) := by
  simp only [along, Prod.mk.injEq]; constructor <;> ring

theorem norm_pos {v u : ℝ × ℝ} (h : cr u v ≠ 0) : 0 < v.1 * v.1 + v.2 * v.2 := by
  rcases eq_or_ne v.1 0 with h1 | h1
  · rcases eq_or_ne v.2 0 with h2 | h2
    · unfold cr at h; rw [h1, h2] at h; simp at h
    · nlinarith [mul_self_pos.2 h2, mul_self_nonneg v.1]
  · nlinarith [mul_self_pos.2 h1, mul_self_nonneg v.2]

/-- A point on the line through two different points. -/
theorem on_line {a b x : ℝ × ℝ} (hne : cr a b ≠ 0) (h : tri a b x = 0) : ∃ t, x = along a b t := by
  have hd : 0 < (b - a).1 * (b - a).1 + (b - a).2 * (b - a).2 := by
    refine norm_pos (u := a) ?_
    rwa [show cr a (b - a) = cr a b by simp only [cr, Prod.fst_sub, Prod.snd_sub]; ring]
  simp only [Prod.fst_sub, Prod.snd_sub] at hd
  simp only [tri, cr, Prod.fst_sub, Prod.snd_sub] at h
  refine ⟨((x.1 - a.1) * (b.1 - a.1) + (x.2 - a.2) * (b.2 - a.2)) / ((b.1 - a.1) * (b.1 - a.1) + (b.2 - a.2) * (b.2 - a.2)), ?_⟩
  apply Prod.ext
  · simp only [along]
    rw [div_mul_eq_mul_div, ← sub_eq_iff_eq_add', eq_div_iff hd.ne']
    linear_combination -(b.2 - a.2) * h
  · simp only [along]
    rw [div_mul_eq_mul_div, ← sub_eq_iff_eq_add', eq_div_iff hd.ne']
    linear_combination (b.1 - a.1) * h

/-- A point on the line through the origin and `v`. -/
theorem on_ray {v x u : ℝ × ℝ} (hne : cr u v ≠ 0) (h : cr x v = 0) : ∃ t, x = along 0 v t := by
  have hd := norm_pos hne
  unfold cr at h
  refine ⟨(x.1 * v.1 + x.2 * v.2) / (v.1 * v.1 + v.2 * v.2), ?_⟩
  apply Prod.ext
  · simp only [along, Prod.fst_zero, Prod.snd_zero]
    rw [div_mul_eq_mul_div, ← sub_eq_iff_eq_add', eq_div_iff hd.ne']
    linear_combination v.2 * h
  · simp only [along, Prod.fst_zero, Prod.snd_zero]
    rw [div_mul_eq_mul_div, ← sub_eq_iff_eq_add', eq_div_iff hd.ne']
    linear_combination -v.1 * h

/-- Finitely many affine functions that are nonnegative at the start and not all at the end: at some point the first of them vanish. -/
theorem exit_point {ι : Type*} (K : Finset ι) (f g : ι → ℝ) (h0 : ∀ k ∈ K, 0 ≤ f k) (h1 : ∃ k ∈ K, g k < 0) :
    ∃ s : ℝ, 0 ≤ s ∧ s ≤ 1 ∧ (∀ k ∈ K, 0 ≤ (1 - s) * f k + s * g k) ∧ ∃ k ∈ K, (1 - s) * f k + s * g k = 0 := by
  classical
  obtain ⟨k0, hk0, hneg⟩ := h1
  obtain ⟨k, hk, hmin⟩ := Finset.exists_min_image (K.filter fun k => g k < 0) (fun k => f k / (f k - g k)) ⟨k0, by simp [hk0, hneg]⟩
  rw [Finset.mem_filter] at hk
  have hd : 0 < f k - g k := by have := h0 k hk.1; linarith [hk.2]
  have hs0 : 0 ≤ f k / (f k - g k) := div_nonneg (h0 k hk.1) hd.le
  have hs1 : f k / (f k - g k) ≤ 1 := by rw [div_le_one hd]; linarith [hk.2]
  refine ⟨f k / (f k - g k), hs0, hs1, fun j hj => ?_, k, hk.1, ?_⟩
  · by_cases hg : g j < 0
    · have hm := hmin j (by simp [hj, hg])
      have hdj : 0 < f j - g j := by have := h0 j hj; linarith
      rw [le_div_iff₀ hdj] at hm
      linarith
    · have := h0 j hj
      nlinarith
  · field_simp
    ring

/-- If the start of a chain of points is on the inner side of all lines, and the end is not, then some segment of the chain leaves. -/
theorem exists_exit (Q : ℕ → ℝ × ℝ) (inner : ℝ × ℝ → Prop) (a b : ℕ) (hab : a ≤ b) (h0 : inner (Q a)) (h1 : ¬ inner (Q b)) :
    ∃ i, a ≤ i ∧ i < b ∧ inner (Q i) ∧ ¬ inner (Q (i + 1)) := by
  induction b, hab using Nat.le_induction with
  | base => exact absurd h0 h1
  | succ b hb ih =>
    by_cases h : inner (Q b)
    · exact ⟨b, hb, by omega, h, h1⟩
    · obtain ⟨i, h2, h3, h4⟩ := ih h
      exact ⟨i, h2, by omega, h4⟩

/-- A walk around the origin that turns left; see the head of the file. -/
structure Walk (P : ℕ → ℝ × ℝ) (n : ℕ) : Prop where
  start : P 0 = 0
  around : ∀ i, 1 ≤ i → i + 1 < n → 0 < cr (P i) (P (i + 1))
  left : ∀ i, i + 2 < n → 0 ≤ tri (P i) (P (i + 1)) (P (i + 2))
  /-- the turn at the origin, where the walk does not go back -/
  closing : 0 < cr (P 1) (P (n - 1)) ∨ cr (P 1) (P (n - 1)) = 0 ∧ 0 < cr (P 1) (P (n - 2))
  /-- no two edges that are not neighbours meet, the last edge included -/
  apart : ∀ i j, i + 1 < j → j + 1 < n → ∀ s t, 0 ≤ s → s ≤ 1 → 0 ≤ t → t ≤ 1 → along (P i) (P (i + 1)) s ≠ along (P j) (P (j + 1)) t
  apart_last : ∀ i, 1 ≤ i → i + 2 < n → ∀ s t, 0 ≤ s → s ≤ 1 → 0 ≤ t → t ≤ 1 → along (P i) (P (i + 1)) s ≠ along (P (n - 1)) 0 t
  neighbours : ∀ i, i + 2 < n → ∀ s t, 0 ≤ s → s ≤ 1 → 0 ≤ t → t ≤ 1 → along (P i) (P (i + 1)) s = along (P (i + 1)) (P (i + 2)) t →
    along (P i) (P (i + 1)) s = P (i + 1)

theorem Walk.half {P : ℕ → ℝ × ℝ} {n : ℕ} (h : Walk P n) (hn : 3 ≤ n) (j : ℕ) (hj2 : 2 ≤ j) (hjn : j + 1 < n) : 0 < cr (P 1) (P j) := by
  classical
  by_contra hneg
  rw [not_lt] at hneg
  have huv : 0 ≤ cr (P 1) (P (n - 1)) := by rcases h.closing with h' | h' <;> linarith
  -- the last vertex that is not to the left of the first edge
  obtain ⟨c, hc2, hc1, hcS, hS1, hcmax⟩ : ∃ c, 2 ≤ c ∧ c + 1 < n ∧ cr (P 1) (P c) ≤ 0 ∧ 0 < cr (P 1) (P (c + 1)) ∧
      ∀ k, c < k → k < n → 0 ≤ cr (P 1) (P k) := by
    obtain ⟨c, hc, hmax⟩ := Finset.exists_max_image ((Finset.range (n - 1)).filter fun c => 2 ≤ c ∧ cr (P 1) (P c) ≤ 0) id
      ⟨j, by simp [hj2, hneg]; omega⟩
    simp only [Finset.mem_filter, Finset.mem_range, id] at hc hmax
    have hpos : ∀ k, c < k → k + 1 < n → 0 < cr (P 1) (P k) := by
      intro k hk hkn
      by_contra hno
      have := hmax k ⟨by omega, by omega, not_lt.1 hno⟩
      omega
    refine ⟨c, hc.2.1, by omega, hc.2.2, ?_, fun k hk hkn => ?_⟩
    · rcases Nat.lt_or_ge (c + 2) n with h' | h'
      · exact hpos (c + 1) (by omega) h'
      · rcases h.closing with h1 | ⟨-, h1⟩
        · rwa [show c + 1 = n - 1 by omega]
        · rw [show n - 2 = c by omega] at h1; linarith [hc.2.2]
    · rcases Nat.lt_or_ge (k + 1) n with h' | h'
      · exact (hpos k hk h').le
      · rwa [show k = n - 1 by omega]
  -- the first vertex that is not to the left of the first edge
  obtain ⟨a, ha2, hac, haS, hamin⟩ : ∃ a, 2 ≤ a ∧ a ≤ c ∧ cr (P 1) (P a) ≤ 0 ∧ ∀ k, 2 ≤ k → k < a → 0 < cr (P 1) (P k) := by
    have hex : ∃ a, 2 ≤ a ∧ cr (P 1) (P a) ≤ 0 := ⟨c, hc2, hcS⟩
    refine ⟨Nat.find hex, (Nat.find_spec hex).1, Nat.find_min' hex ⟨hc2, hcS⟩, (Nat.find_spec hex).2, fun k hk hka => ?_⟩
    have := Nat.find_min hex hka
    push Not at this
    exact this hk
  have ha3 : 3 ≤ a := by
    rcases Nat.lt_or_ge 2 a with h' | h'
    · exact h'
    · have h2 : a = 2 := by omega
      rw [h2] at haS
      have := h.around 1 le_rfl (by omega)
      linarith
  -- the first vertex beyond the direction of the last one
  have hT2 := h.around 1 le_rfl (by omega)
  have hTl : 0 < cr (P (n - 2)) (P (n - 1)) := by
    have := h.around (n - 2) (by omega) (by omega)
    rwa [show n - 2 + 1 = n - 1 by omega] at this
  obtain ⟨d, hd2, hda, hdv, hdpos, hdmin⟩ : ∃ d, 2 ≤ d ∧ d ≤ a ∧ cr (P d) (P (n - 1)) ≤ 0 ∧ 0 < cr (P (d - 1)) (P (n - 1)) ∧
      ∀ k, 1 ≤ k → k < d → 0 ≤ cr (P k) (P (n - 1)) := by
    have hex : ∃ d, 2 ≤ d ∧ cr (P d) (P (n - 1)) ≤ 0 := by
      by_cases hall : ∀ k, 2 ≤ k → k < a → 0 < cr (P k) (P (n - 1))
      · refine ⟨a, ha2, ?_⟩
        have hw := hall (a - 1) (by omega) (by omega)
        have hS := hamin (a - 1) (by omega) (by omega)
        have hT := h.around (a - 1) (by omega) (by omega)
        rw [show a - 1 + 1 = a by omega] at hT
        have id := cr_four (P 1) (P (a - 1)) (P a) (P (n - 1))
        by_contra hpos
        rw [not_le] at hpos
        have := mul_pos hS hpos
        have := mul_nonneg (neg_nonneg.2 haS) hw.le
        have := mul_nonneg huv hT.le
        linarith
      · push Not at hall
        obtain ⟨k, hk, -, hk'⟩ := hall
        exact ⟨k, hk, hk'⟩
    have hlt : ∀ k, 2 ≤ k → k < Nat.find hex → 0 < cr (P k) (P (n - 1)) := by
      intro k hk hkd
      have := Nat.find_min hex hkd
      push Not at this
      exact this hk
    have hda : Nat.find hex ≤ a := by
      by_contra hgt
      have hw := hlt (a - 1) (by omega) (by omega)
      have hw' := hlt a (by omega) (by omega)
      have hS := hamin (a - 1) (by omega) (by omega)
      have hT := h.around (a - 1) (by omega) (by omega)
      rw [show a - 1 + 1 = a by omega] at hT
      have id := cr_four (P 1) (P (a - 1)) (P a) (P (n - 1))
      have := mul_pos hS hw'
      have := mul_nonneg (neg_nonneg.2 haS) hw.le
      have := mul_nonneg huv hT.le
      linarith
    refine ⟨Nat.find hex, (Nat.find_spec hex).1, hda, (Nat.find_spec hex).2, ?_, fun k hk hkd => ?_⟩
    · rcases Nat.lt_or_ge 2 (Nat.find hex) with h' | h'
      · exact hlt _ (by omega) (by omega)
      · have e : Nat.find hex = 2 := le_antisymm h' (Nat.find_spec hex).1
        have h2 := (Nat.find_spec hex).2
        rw [e] at h2 ⊢
        rcases h.closing with h1 | ⟨h1, h1'⟩
        · exact h1
        · have id := cr_four (P 1) (P 2) (P (n - 2)) (P (n - 1))
          rw [h1, zero_mul, sub_zero] at id
          have := mul_pos hT2 hTl
          have := mul_nonneg h1'.le (neg_nonneg.2 h2)
          linarith
    · rcases Nat.lt_or_ge 1 k with h' | h'
      · exact (hlt k h' hkd).le
      · rwa [show k = 1 by omega]
  set v := P (n - 1) with hv
  -- where the first lap meets the ray through `v`
  obtain ⟨r, hr0, hr1, hrv⟩ : ∃ r : ℝ, 0 ≤ r ∧ r ≤ 1 ∧ cr (along (P (d - 1)) (P d) r) v = 0 := by
    have hp := hdpos
    refine ⟨cr (P (d - 1)) v / (cr (P (d - 1)) v - cr (P d) v), div_nonneg hp.le (by linarith), ?_, ?_⟩
    · rw [div_le_one (by linarith)]; linarith
    · rw [cr_along_left]
      have : cr (P (d - 1)) v - cr (P d) v ≠ 0 := by linarith
      field_simp
      ring
  set X := along (P (d - 1)) (P d) r with hX
  have hTd : 0 < cr (P (d - 1)) (P d) := by
    have := h.around (d - 1) (by omega) (by omega)
    rwa [show d - 1 + 1 = d by omega] at this
  have hXr : cr (P (d - 1)) X = r * cr (P (d - 1)) (P d) := by rw [hX, cr_along_right, cr_self]; ring
  obtain ⟨m, hm⟩ := on_ray hTl.ne' hrv
  have hm0 : 0 ≤ m := by
    have h1 : cr (P (d - 1)) X = m * cr (P (d - 1)) v := by rw [hm, cr_along_right, cr_zero]; ring
    have h2 := mul_nonneg hr0 hTd.le
    rw [← hXr, h1] at h2
    exact nonneg_of_mul_nonneg_left h2 hdpos
  have hm1 : 1 < m := by
    by_contra hle
    rw [not_lt] at hle
    refine h.apart_last (d - 1) (by omega) (by omega) r (1 - m) hr0 hr1 (by linarith) (by linarith) ?_
    rw [show d - 1 + 1 = d by omega, ← hX, hm, ← hv]
    simp only [along, Prod.fst_zero, Prod.snd_zero, Prod.mk.injEq]
    constructor <;> ring
  -- the second lap passes the first edge on the outside
  have hTc : 0 < cr (P c) (P (c + 1)) := h.around c (by omega) hc1
  have hu0 : 0 < tri (P c) (P (c + 1)) (P 1) := by
    by_contra hle
    rw [not_lt] at hle
    have hden : cr (P 1) (P (c + 1)) - cr (P 1) (P c) ≠ 0 := by linarith
    set t := -cr (P 1) (P c) / (cr (P 1) (P (c + 1)) - cr (P 1) (P c)) with ht
    have ht0 : 0 ≤ t := div_nonneg (by linarith) (by linarith)
    have ht1 : t ≤ 1 := by rw [ht, div_le_one (by linarith)]; linarith
    have hY : cr (along (P c) (P (c + 1)) t) (P 1) = 0 := by
      have : cr (P 1) (along (P c) (P (c + 1)) t) = 0 := by
        rw [cr_along_right, ht]
        field_simp
        ring
      unfold cr at *
      linarith
    obtain ⟨l, hl⟩ := on_ray (u := P 2) (by unfold cr at *; intro h0; linarith) hY
    have hz : (1 - l) * cr (P c) (P (c + 1)) + l * tri (P c) (P (c + 1)) (P 1) = 0 := by
      rw [← tri_zero, ← tri_along, ← hl, tri_along, tri_left, tri_right]; ring
    have hl0 : 0 ≤ l := by
      by_contra h0
      rw [not_le] at h0
      have := mul_pos (by linarith : 0 < 1 - l) hTc
      have := mul_nonneg_of_nonpos_of_nonpos h0.le hle
      linarith
    have hl1 : l ≤ 1 := by
      by_contra h0
      rw [not_le] at h0
      have := mul_pos (by linarith : 0 < l - 1) hTc
      have := mul_nonneg (by linarith : 0 ≤ l) (neg_nonneg.2 hle)
      linarith
    refine h.apart 0 c (by omega) hc1 l t hl0 hl1 ht0 ht1 ?_
    rw [h.start, zero_add, hl]
  have huall : ∀ k, c ≤ k → k + 1 < n → 0 < tri (P k) (P (k + 1)) (P 1) := by
    intro k hk
    induction k, hk using Nat.le_induction with
    | base => intro _; exact hu0
    | succ k hk ih =>
      intro hkn
      have h1 := ih (by omega)
      have h2 := h.left k (by omega)
      have h3 := h.around k (by omega) (by omega)
      have h4 := h.around (k + 1) (by omega) (by omega)
      have h5 := hcmax (k + 1) (by omega) (by omega)
      have id : tri (P (k + 1)) (P (k + 1 + 1)) (P 1) * cr (P k) (P (k + 1)) =
          cr (P (k + 1)) (P (k + 1 + 1)) * tri (P k) (P (k + 1)) (P 1) + tri (P k) (P (k + 1)) (P (k + 2)) * cr (P 1) (P (k + 1)) := by
        simp only [tri, cr, Prod.fst_sub, Prod.snd_sub]; ring
      have h6 := mul_pos h4 h1
      have h7 := mul_nonneg h2 h5
      exact pos_of_mul_pos_left (by rw [id]; linarith) h3.le
  -- where the first lap leaves the second one
  set Q : ℕ → ℝ × ℝ := fun i => if i < d then P i else X with hQ
  have hQlt : ∀ i, i < d → Q i = P i := fun i hi => by rw [hQ]; exact if_pos hi
  have hQd : Q d = X := by rw [hQ]; exact if_neg (lt_irrefl d)
  have hout : tri (P (n - 2)) (P (n - 2 + 1)) X < 0 := by
    rw [show n - 2 + 1 = n - 1 by omega, ← hv, hm, tri_along, tri_right, tri_zero]
    have := h.around (n - 2) (by omega) (by omega)
    rw [show n - 2 + 1 = n - 1 by omega, ← hv] at this
    nlinarith
  obtain ⟨i, hi1, hid, hin, hnot⟩ := exists_exit Q (fun x => ∀ k ∈ Finset.Icc c (n - 2), 0 ≤ tri (P k) (P (k + 1)) x) 1 d (by omega)
    (by
      intro k hk
      rw [Finset.mem_Icc] at hk
      rw [hQlt 1 (by omega)]
      exact (huall k hk.1 (by omega)).le)
    (by
      intro hall
      have := hall (n - 2) (by rw [Finset.mem_Icc]; omega)
      rw [hQd] at this
      linarith)
  push Not at hnot
  obtain ⟨s, hs0, hs1, hsall, k, hk, hkz⟩ := exit_point _ _ _ hin hnot
  rw [Finset.mem_Icc] at hk
  have hQstep : ∃ s1 : ℝ, 0 ≤ s1 ∧ s1 ≤ 1 ∧ Q (i + 1) = along (P i) (P (i + 1)) s1 := by
    rcases Nat.lt_or_ge (i + 1) d with h' | h'
    · refine ⟨1, zero_le_one, le_rfl, ?_⟩
      rw [hQlt _ h']
      simp [along]
    · have e : i + 1 = d := by omega
      refine ⟨r, hr0, hr1, ?_⟩
      rw [e, hQd, hX, show d - 1 = i by omega]
  obtain ⟨s1, h10, h11, hs1e⟩ := hQstep
  simp only [← tri_along] at hsall hkz
  rw [hQlt i hid] at hsall hkz
  set Z := along (P i) (Q (i + 1)) s with hZ
  have hZe : Z = along (P i) (P (i + 1)) (s * s1) := by rw [hZ, hs1e, along_along]
  have hP1 : ∀ k, 1 ≤ k → k < d → 0 ≤ cr (P 1) (P k) := by
    intro k hk1 hkd
    rcases Nat.lt_or_ge 1 k with h' | h'
    · exact (hamin k h' (by omega)).le
    · rw [show k = 1 by omega, cr_self]
  have hXu : cr (P 1) X = m * cr (P 1) v := by rw [hm, cr_along_right, cr_zero]; ring
  have hZu : 0 ≤ cr (P 1) Z := by
    rw [hZ, cr_along_right]
    have h2 : 0 ≤ cr (P 1) (Q (i + 1)) := by
      rcases Nat.lt_or_ge (i + 1) d with h' | h'
      · rw [hQlt _ h']; exact hP1 _ (by omega) h'
      · rw [show i + 1 = d by omega, hQd, hXu]; exact mul_nonneg hm0 huv
    have := mul_nonneg (by linarith : 0 ≤ 1 - s) (hP1 i hi1 hid)
    have := mul_nonneg hs0 h2
    linarith
  have hZv : 0 ≤ cr Z v := by
    rw [hZ, cr_along_left]
    have h2 : 0 ≤ cr (Q (i + 1)) v := by
      rcases Nat.lt_or_ge (i + 1) d with h' | h'
      · rw [hQlt _ h']; exact hdmin _ (by omega) h'
      · rw [show i + 1 = d by omega, hQd, hrv]
    have := mul_nonneg (by linarith : 0 ≤ 1 - s) (hdmin i hi1 hid)
    have := mul_nonneg hs0 h2
    linarith
  -- the edge of the second lap that contains it
  obtain ⟨k, hk, hkz, t, ht, ht0, ht1⟩ : ∃ k, (c ≤ k ∧ k ≤ n - 2) ∧ tri (P k) (P (k + 1)) Z = 0 ∧ ∃ t, Z = along (P k) (P (k + 1)) t ∧ 0 ≤ t ∧ t ≤ 1 := by
    have hT : ∀ k, c ≤ k → k ≤ n - 2 → 0 < cr (P k) (P (k + 1)) := fun k h1 h2 => h.around k (by omega) (by omega)
    obtain ⟨k1, hk1, hmin⟩ := Finset.exists_min_image ((Finset.Icc c (n - 2)).filter fun k => tri (P k) (P (k + 1)) Z = 0) id
      ⟨k, by rw [Finset.mem_filter, Finset.mem_Icc]; exact ⟨hk, hkz⟩⟩
    simp only [Finset.mem_filter, Finset.mem_Icc, id] at hk1 hmin
    have hstart : 0 ≤ cr (P k1) Z := by
      obtain ⟨t, ht⟩ := on_line (hT k1 hk1.1.1 hk1.1.2).ne' hk1.2
      have ht0 : 0 ≤ t := by
        rcases Nat.lt_or_ge c k1 with h' | h'
        · have h1 := hsall (k1 - 1) (by rw [Finset.mem_Icc]; omega)
          have h2 := h.left (k1 - 1) (by omega)
          have h3 : tri (P (k1 - 1)) (P (k1 - 1 + 1)) Z ≠ 0 := by
            intro h3
            have := hmin (k1 - 1) ⟨by omega, h3⟩
            omega
          rw [show k1 - 1 + 1 = k1 by omega] at h1 h2 h3
          rw [show k1 - 1 + 2 = k1 + 1 by omega] at h2
          rw [ht, tri_along, tri_right, mul_zero, zero_add] at h1 h3
          by_contra hlt
          rw [not_le] at hlt
          have h4 := mul_nonneg (neg_nonneg.2 hlt.le) h2
          exact h3 (le_antisymm (by linarith) h1)
        · have e : k1 = c := by omega
          rw [ht, cr_along_right, e] at hZu
          by_contra hlt
          rw [not_le] at hlt
          have := mul_nonneg (by linarith : 0 ≤ 1 - t) (neg_nonneg.2 hcS)
          have := mul_pos (neg_pos.2 hlt) hS1
          linarith
      rw [ht, cr_along_right, cr_self, mul_zero, zero_add]
      exact mul_nonneg ht0 (hT k1 hk1.1.1 hk1.1.2).le
    obtain ⟨k2, hk2, hmax⟩ := Finset.exists_max_image ((Finset.Icc c (n - 2)).filter fun k => tri (P k) (P (k + 1)) Z = 0 ∧ 0 ≤ cr (P k) Z) id
      ⟨k1, by rw [Finset.mem_filter, Finset.mem_Icc]; exact ⟨hk1.1, hk1.2, hstart⟩⟩
    simp only [Finset.mem_filter, Finset.mem_Icc, id] at hk2 hmax
    have hT2 := hT k2 hk2.1.1 hk2.1.2
    obtain ⟨t, ht⟩ := on_line hT2.ne' hk2.2.1
    refine ⟨k2, hk2.1, hk2.2.1, t, ht, ?_, ?_⟩
    · have h1 := hk2.2.2
      rw [ht, cr_along_right, cr_self, mul_zero, zero_add] at h1
      exact nonneg_of_mul_nonneg_left h1 hT2
    · rcases Nat.lt_or_ge k2 (n - 2) with h' | h'
      · by_contra hgt
        rw [not_le] at hgt
        have h1 := hsall (k2 + 1) (by rw [Finset.mem_Icc]; omega)
        have h2 := h.left k2 (by omega)
        have h3 : tri (P (k2 + 1)) (P (k2 + 1 + 1)) Z = (1 - t) * tri (P k2) (P (k2 + 1)) (P (k2 + 2)) := by
          rw [ht, tri_along, tri_left, tri_rot]; ring
        have h4 := mul_nonneg (by linarith : 0 ≤ t - 1) h2
        have h5 : cr (P (k2 + 1)) Z = (t - 1) * cr (P k2) (P (k2 + 1)) := by
          rw [ht, cr_along_right, cr_self]; unfold cr; ring
        have := hmax (k2 + 1) ⟨by omega, le_antisymm (by rw [h3]; linarith) h1, by rw [h5]; exact mul_nonneg (by linarith) hT2.le⟩
        omega
      · have e : k2 = n - 2 := by omega
        rw [ht, cr_along_left, e, show n - 2 + 1 = n - 1 by omega, ← hv, cr_self, mul_zero, add_zero] at hZv
        have := h.around (n - 2) (by omega) (by omega)
        rw [show n - 2 + 1 = n - 1 by omega, ← hv] at this
        have := nonneg_of_mul_nonneg_left hZv this
        linarith
  have hss0 : 0 ≤ s * s1 := mul_nonneg hs0 h10
  have hss1 : s * s1 ≤ 1 := mul_le_one₀ hs1 h10 h11
  rcases Nat.lt_or_ge (i + 1) k with hfar | hnear
  · exact h.apart i k hfar (by omega) _ _ hss0 hss1 ht0 ht1 (by rw [← hZe, ht])
  · have e1 : k = c := by omega
    have e2 : i + 1 = c := by omega
    subst e1
    subst e2
    have hZc := h.neighbours i (by omega) _ _ hss0 hss1 ht0 ht1 (by rw [← hZe, ht])
    rw [← hZe] at hZc
    have hda' : d = i + 1 := by omega
    have hT := h.around i (by omega) (by omega)
    have hSi := hamin i (by omega) (by omega)
    have id := cr_four (P 1) (P i) (P (i + 1)) (P (i + 1 + 1))
    rw [hZc] at hZu
    have hS0 : cr (P 1) (P (i + 1)) = 0 := le_antisymm hcS hZu
    rw [hS0, zero_mul, zero_sub] at id
    have := mul_pos hSi hTc
    have := mul_pos hS1 hT
    linarith

/-! ## Tours with straight angles -/

/-- From local turns to all turns, along points seen from the origin in strictly growing direction. -/
theorem chain_convex {P : ℕ → ℝ × ℝ} {a z : ℕ} (hfan : ∀ i j, a ≤ i → i < j → j ≤ z → 0 < cr (P i) (P j))
    (hloc : ∀ i, a ≤ i → i + 2 ≤ z → 0 ≤ tri (P i) (P (i + 1)) (P (i + 2))) :
    ∀ m i j k, a ≤ i → i < j → j < k → k ≤ z → k - i ≤ m → 0 ≤ tri (P i) (P j) (P k) := by
  intro m
  induction m with
  | zero => intro i j k h0 h1 h2 h3 h4; omega
  | succ m ih =>
    intro i j k h0 h1 h2 h3 h4
    by_cases hj : j = i + 1
    · subst hj
      by_cases hk : k = i + 2
      · subst hk; exact hloc i h0 h3
      · have key : tri (P i) (P (i + 1)) (P k) * cr (P (i + 1)) (P (k - 1)) =
            tri (P i) (P (i + 1)) (P (k - 1)) * cr (P (i + 1)) (P k) + cr (P i) (P (i + 1)) * tri (P (i + 1)) (P (k - 1)) (P k) := by
          simp only [tri, cr, Prod.fst_sub, Prod.snd_sub]; ring
        have p1 := hfan (i + 1) (k - 1) (by omega) (by omega) (by omega)
        have p2 := hfan (i + 1) k (by omega) (by omega) (by omega)
        have p3 := hfan i (i + 1) (by omega) (by omega) (by omega)
        have q1 := ih i (i + 1) (k - 1) (by omega) (by omega) (by omega) (by omega) (by omega)
        have q2 := ih (i + 1) (k - 1) k (by omega) (by omega) (by omega) (by omega) (by omega)
        have := mul_nonneg q1 p2.le
        have := mul_nonneg p3.le q2
        exact nonneg_of_mul_nonneg_left (by rw [key]; linarith) p1
    · have key : tri (P i) (P j) (P k) * cr (P (i + 1)) (P j) =
          tri (P (i + 1)) (P j) (P k) * cr (P i) (P j) + cr (P j) (P k) * tri (P i) (P (i + 1)) (P j) := by
        simp only [tri, cr, Prod.fst_sub, Prod.snd_sub]; ring
      have p1 := hfan (i + 1) j (by omega) (by omega) (by omega)
      have p2 := hfan i j (by omega) (by omega) (by omega)
      have p3 := hfan j k (by omega) (by omega) (by omega)
      have q1 := ih (i + 1) j k (by omega) (by omega) (by omega) (by omega) (by omega)
      have q2 := ih i (i + 1) j (by omega) (by omega) (by omega) (by omega) (by omega)
      have := mul_nonneg q1 p2.le
      have := mul_nonneg p3.le q2
      exact nonneg_of_mul_nonneg_left (by rw [key]; linarith) p1

/-- A simple closed walk around the origin that nowhere turns right. -/
structure Tour (P : ℕ → ℝ × ℝ) (n : ℕ) : Prop where
  three : 3 ≤ n
  start : P 0 = 0
  finish : P n = 0
  proper : ∀ i, i < n → P i ≠ P (i + 1)
  fan : ∀ i, 1 ≤ i → i + 1 < n → 0 ≤ cr (P i) (P (i + 1))
  left : ∀ i, i + 2 < n → 0 ≤ tri (P i) (P (i + 1)) (P (i + 2))
  closing : 0 ≤ cr (P 1) (P (n - 1))
  simple : ∀ i j, i < j → j < n → ∀ s t, 0 ≤ s → s ≤ 1 → 0 ≤ t → t ≤ 1 → along (P i) (P (i + 1)) s = along (P j) (P (j + 1)) t →
    (j = i + 1 ∧ along (P i) (P (i + 1)) s = P j) ∨ (i = 0 ∧ j = n - 1 ∧ along (P i) (P (i + 1)) s = 0)
  area : ∃ i, 1 ≤ i ∧ i + 1 < n ∧ cr (P i) (P (i + 1)) ≠ 0

theorem along_zero_zero (v : ℝ × ℝ) : along 0 v 0 = 0 := by simp [along]

theorem along_one (a b : ℝ × ℝ) : along a b 1 = b := by simp [along]

theorem along_start (a b : ℝ × ℝ) : along a b 0 = a := by simp [along]

/-- Points of the segment between two multiples of a vector. -/
theorem along_multiples (v : ℝ × ℝ) (p q s : ℝ) : along (along 0 v p) (along 0 v q) s = along 0 v (p + s * (q - p)) := by
  simp only [along, Prod.fst_zero, Prod.snd_zero, Prod.mk.injEq]; constructor <;> ring

theorem multiple_inj {v : ℝ × ℝ} (hv : v ≠ 0) {p q : ℝ} (h : along 0 v p = along 0 v q) : p = q := by
  simp only [along, Prod.fst_zero, Prod.snd_zero, Prod.mk.injEq, zero_add, sub_zero] at h
  by_contra hne
  apply hv
  apply Prod.ext
  · rcases mul_eq_mul_right_iff.1 h.1 with h' | h'
    · exact absurd h' hne
    · exact h'
  · rcases mul_eq_mul_right_iff.1 h.2 with h' | h'
    · exact absurd h' hne
    · exact h'

theorem multiple_of_cr {v x : ℝ × ℝ} (hv : v ≠ 0) (h : cr v x = 0) : ∃ l, x = along 0 v l := by
  refine on_ray (u := (v.2, -v.1)) ?_ (by unfold cr at *; linarith)
  unfold cr
  intro h0
  apply hv
  have : v.1 * v.1 + v.2 * v.2 = 0 := by simp only at h0; linarith
  have h1 : v.1 = 0 := by nlinarith [mul_self_nonneg v.1, mul_self_nonneg v.2]
  have h2 : v.2 = 0 := by nlinarith [mul_self_nonneg v.1, mul_self_nonneg v.2]
  exact Prod.ext h1 h2

theorem cr_multiple_left (v x : ℝ × ℝ) (l : ℝ) : cr (along 0 v l) x = l * cr v x := by
  simp only [cr, along, Prod.fst_zero, Prod.snd_zero]; ring

theorem cr_multiple_right (v x : ℝ × ℝ) (l : ℝ) : cr x (along 0 v l) = l * cr x v := by
  simp only [cr, along, Prod.fst_zero, Prod.snd_zero]; ring

namespace Tour

variable {P : ℕ → ℝ × ℝ} {n : ℕ}

theorem off (h : Tour P n) {i : ℕ} (h1 : 1 ≤ i) (hn : i + 1 < n) {t : ℝ} (t0 : 0 ≤ t) (t1 : t ≤ 1) : along (P i) (P (i + 1)) t ≠ 0 := by
  intro he
  rcases h.simple 0 i (by omega) (by omega) 0 t le_rfl zero_le_one t0 t1 (by rw [along_start, h.start, he]) with ⟨e, h'⟩ | ⟨-, e, -⟩
  · subst e
    rw [along_start] at h'
    exact h.proper 0 (by omega) h'
  · omega

theorem nonzero (h : Tour P n) {i : ℕ} (h1 : 1 ≤ i) (hn : i < n) : P i ≠ 0 := by
  rcases Nat.lt_or_ge (i + 1) n with h' | h'
  · have := h.off h1 h' le_rfl zero_le_one
    rwa [along_start] at this
  · have := h.proper i hn
    rwa [show i + 1 = n by omega, h.finish] at this

theorem radial (h : Tour P n) {i : ℕ} (h1 : 1 ≤ i) (hn : i + 1 < n) (h0 : cr (P i) (P (i + 1)) = 0) :
    ∃ l, 0 < l ∧ l ≠ 1 ∧ P (i + 1) = along 0 (P i) l := by
  obtain ⟨l, hl⟩ := multiple_of_cr (h.nonzero h1 (by omega)) h0
  refine ⟨l, ?_, ?_, hl⟩
  · by_contra hle
    rw [not_lt] at hle
    refine h.off h1 hn (t := 1 / (1 - l)) (div_nonneg zero_le_one (by linarith)) (by rw [div_le_one (by linarith)]; linarith) ?_
    have hP : P i = along 0 (P i) 1 := (along_one _ _).symm
    rw [hl]
    nth_rw 1 [hP]
    rw [along_multiples]
    have hd : 1 - l ≠ 0 := by linarith
    rw [show 1 + 1 / (1 - l) * (l - 1) = 0 by field_simp; ring, along_zero_zero]
  · intro e
    rw [e, along_one] at hl
    exact h.proper i (by omega) hl.symm

/-- The first edges that are on one ray lead away from the origin. -/
theorem outward (h : Tour P n) {a : ℕ} (han : a + 1 < n) (h0 : ∀ i, 1 ≤ i → i < a → cr (P i) (P (i + 1)) = 0) :
    ∀ i, i < a → ∃ l, 0 ≤ l ∧ l < 1 ∧ P i = along 0 (P (i + 1)) l := by
  intro i
  induction i with
  | zero => intro _; exact ⟨0, le_rfl, zero_lt_one, by rw [along_zero_zero, h.start]⟩
  | succ i ih =>
    intro hia
    obtain ⟨l, hl0, hl1, hl⟩ := ih (by omega)
    obtain ⟨m, hm0, hm1, hm⟩ := h.radial (by omega) (by omega) (h0 (i + 1) (by omega) hia)
    have hne := h.nonzero (i := i + 1) (by omega) (by omega)
    rcases lt_or_gt_of_ne hm1 with hlt | hgt
    · exfalso
      -- the edge folds back
      have hx : ∃ x, l ≤ x ∧ m ≤ x ∧ x < 1 := ⟨max l m, le_max_left _ _, le_max_right _ _, max_lt hl1 hlt⟩
      obtain ⟨x, hx1, hx2, hx3⟩ := hx
      have hP : P (i + 1) = along 0 (P (i + 1)) 1 := (along_one _ _).symm
      have e1 : along (P i) (P (i + 1)) ((x - l) / (1 - l)) = along 0 (P (i + 1)) x := by
        rw [hl]
        nth_rw 2 [hP]
        rw [along_multiples]
        have : 1 - l ≠ 0 := by linarith
        congr 1
        field_simp
        ring
      have e2 : along (P (i + 1)) (P (i + 1 + 1)) ((1 - x) / (1 - m)) = along 0 (P (i + 1)) x := by
        rw [hm]
        nth_rw 1 [hP]
        rw [along_multiples]
        have : 1 - m ≠ 0 := by linarith
        congr 1
        field_simp
        ring
      rcases h.simple i (i + 1) (by omega) (by omega) _ _ (div_nonneg (by linarith) (by linarith))
        (by rw [div_le_one (by linarith)]; linarith) (div_nonneg (by linarith) (by linarith))
        (by rw [div_le_one (by linarith)]; linarith) (e1.trans e2.symm) with ⟨-, h'⟩ | ⟨-, e, -⟩
      · rw [e1] at h'
        nth_rw 2 [hP] at h'
        have := multiple_inj hne h'
        linarith
      · omega
    · refine ⟨1 / m, by positivity, by rw [div_lt_one (by linarith)]; exact hgt, ?_⟩
      rw [hm]
      have : m ≠ 0 := by linarith
      simp only [along, Prod.fst_zero, Prod.snd_zero]
      apply Prod.ext <;> · simp only; field_simp; ring

theorem outward_le (h : Tour P n) {a : ℕ} (han : a + 1 < n) (h0 : ∀ i, 1 ≤ i → i < a → cr (P i) (P (i + 1)) = 0) :
    ∀ j, j ≤ a → ∀ i, i ≤ j → ∃ l, 0 ≤ l ∧ l ≤ 1 ∧ P i = along 0 (P j) l := by
  intro j
  induction j with
  | zero => intro _ i hi; exact ⟨1, zero_le_one, le_rfl, by rw [along_one, Nat.le_zero.1 hi]⟩
  | succ j ih =>
    intro hja i hi
    rcases Nat.lt_or_ge j i with h' | h'
    · exact ⟨1, zero_le_one, le_rfl, by rw [along_one, show i = j + 1 by omega]⟩
    · obtain ⟨l, l0, l1, hl⟩ := ih (by omega) i h'
      obtain ⟨m, m0, m1, hm⟩ := h.outward han h0 j (by omega)
      refine ⟨l * m, mul_nonneg l0 m0, mul_le_one₀ l1 m0 m1.le, ?_⟩
      rw [hl, hm, along_along]

/-- The last edges, from one that is on a ray, lead to the origin. -/
theorem inward (h : Tour P n) {z : ℕ} (h2 : 2 ≤ z) (hz : z < n) (hT : 0 < cr (P (z - 1)) (P z)) (h0 : z = n - 1 ∨ cr (P z) (P (z + 1)) = 0) :
    ∀ i, z ≤ i → i < n → ∃ l, 0 ≤ l ∧ l < 1 ∧ P (i + 1) = along 0 (P i) l := by
  intro i hi
  induction i, hi using Nat.le_induction with
  | base =>
    intro _
    rcases Nat.lt_or_ge (z + 1) n with h' | h'
    · obtain ⟨l, l0, l1, hl⟩ := h.radial (by omega) h' (by rcases h0 with h0 | h0; omega; exact h0)
      refine ⟨l, l0.le, lt_of_le_of_ne ?_ l1, hl⟩
      have hleft := h.left (z - 1) (by omega)
      rw [show z - 1 + 1 = z by omega, show z - 1 + 2 = z + 1 by omega, hl, tri_along, tri_zero, tri_right] at hleft
      have := nonneg_of_mul_nonneg_left (by linarith : 0 ≤ (1 - l) * cr (P (z - 1)) (P z)) hT
      linarith
    · exact ⟨0, le_rfl, zero_lt_one, by rw [along_zero_zero, show z + 1 = n by omega, h.finish]⟩
  | succ i hi ih =>
    intro hin
    obtain ⟨l, l0, l1, hl⟩ := ih (by omega)
    have hne := h.nonzero (i := i) (by omega) (by omega)
    have hne' := h.nonzero (i := i + 1) (by omega) (by omega)
    have lpos : 0 < l := by
      rcases eq_or_lt_of_le l0 with e | e
      · rw [← e, along_zero_zero] at hl; exact absurd hl hne'
      · exact e
    rcases Nat.lt_or_ge (i + 2) n with h' | h'
    · have hc0 : cr (P (i + 1)) (P (i + 1 + 1)) = 0 := by
        have hleft := h.left i h'
        have e : tri (P i) (P (i + 1)) (P (i + 2)) = (l - 1) * cr (P i) (P (i + 2)) := by
          rw [hl]; simp only [tri, cr, along, Prod.fst_sub, Prod.snd_sub, Prod.fst_zero, Prod.snd_zero]; ring
        rw [e] at hleft
        have h1 : cr (P i) (P (i + 2)) ≤ 0 := by
          by_contra hgt
          rw [not_le] at hgt
          have := mul_pos (by linarith : 0 < 1 - l) hgt
          linarith
        have hf := h.fan (i + 1) (by omega) h'
        have e2 : cr (P (i + 1)) (P (i + 1 + 1)) = l * cr (P i) (P (i + 2)) := by
          nth_rw 1 [hl]; rw [cr_multiple_left]
        have := mul_nonneg l0 (neg_nonneg.2 h1)
        rw [e2] at hf ⊢
        linarith
      obtain ⟨m, m0, m1, hm⟩ := h.radial (by omega) h' hc0
      refine ⟨m, m0.le, ?_, hm⟩
      by_contra hge
      rw [not_lt] at hge
      have hgt : 1 < m := lt_of_le_of_ne hge (Ne.symm m1)
      have hx : ∃ x, x ≤ 1 ∧ x ≤ m * l ∧ l < x := ⟨min 1 (m * l), min_le_left _ _, min_le_right _ _, lt_min l1 (by nlinarith)⟩
      obtain ⟨x, hx1, hx2, hx3⟩ := hx
      have hP : P i = along 0 (P i) 1 := (along_one _ _).symm
      have hm' : P (i + 1 + 1) = along 0 (P i) (m * l) := by rw [hm, hl, along_along]
      have e1 : along (P i) (P (i + 1)) ((1 - x) / (1 - l)) = along 0 (P i) x := by
        rw [hl]
        nth_rw 1 [hP]
        rw [along_multiples]
        have : 1 - l ≠ 0 := by linarith
        congr 1
        field_simp
        ring
      have hml : m * l - l ≠ 0 := by nlinarith
      have e2 : along (P (i + 1)) (P (i + 1 + 1)) ((x - l) / (m * l - l)) = along 0 (P i) x := by
        rw [hm', hl, along_multiples]
        congr 1
        field_simp
        ring
      have hpos : 0 < m * l - l := by nlinarith
      rcases h.simple i (i + 1) (by omega) (by omega) _ _ (div_nonneg (by linarith) (by linarith))
        (by rw [div_le_one (by linarith)]; linarith) (div_nonneg (by linarith) hpos.le)
        (by rw [div_le_one hpos]; linarith) (e1.trans e2.symm) with ⟨-, h'⟩ | ⟨-, e, -⟩
      · rw [e1, hl] at h'
        have := multiple_inj hne h'
        linarith
      · omega
    · exact ⟨0, le_rfl, zero_lt_one, by rw [along_zero_zero, show i + 1 + 1 = n by omega, h.finish]⟩

theorem inward_le (h : Tour P n) {z : ℕ} (h2 : 2 ≤ z) (hz : z < n) (hT : 0 < cr (P (z - 1)) (P z)) (h0 : z = n - 1 ∨ cr (P z) (P (z + 1)) = 0) :
    ∀ i, z ≤ i → ∀ j, i ≤ j → j ≤ n → ∃ l, 0 ≤ l ∧ l ≤ 1 ∧ P j = along 0 (P i) l := by
  intro i hi j hj
  induction j, hj using Nat.le_induction with
  | base => intro _; exact ⟨1, zero_le_one, le_rfl, (along_one _ _).symm⟩
  | succ j hj ih =>
    intro hjn
    obtain ⟨l, l0, l1, hl⟩ := ih (by omega)
    obtain ⟨m, m0, m1, hm⟩ := h.inward h2 hz hT h0 j (by omega) (by omega)
    refine ⟨m * l, mul_nonneg m0 l0, mul_le_one₀ m1.le l0 l1, ?_⟩
    rw [hm, hl, along_along]

end Tour

end ICPC
