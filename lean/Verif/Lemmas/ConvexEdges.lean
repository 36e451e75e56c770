import Verif.Lemmas.ConvexSimple

/-!
# The edges of a convex polygon meet only in common vertices
-/

namespace ICPC

/-- A polygon without right turns, as a periodic sequence. -/
structure ConvexRing (f : ℕ → ℝ × ℝ) (n : ℕ) : Prop where
  three : 3 ≤ n
  period : ∀ i, f (i + n) = f i
  proper : ∀ i, f i ≠ f (i + 1)
  turns : ∀ i j k, i < j → j < k → k < i + n → 0 ≤ tri (f i) (f j) (f k)
  /-- no edge has all vertices on its line -/
  wide : ∀ i, ∃ w, i + 1 < w ∧ w < i + n ∧ 0 < tri (f i) (f (i + 1)) (f w)

theorem on_line' {a b x : ℝ × ℝ} (hne : a ≠ b) (h : tri a b x = 0) : ∃ t, x = along a b t := by
  have h0 : b - a ≠ 0 := sub_ne_zero.2 hne.symm
  have h1 : cr (b - a) (x - a) = 0 := h
  have h2 : 0 < (b - a).1 * (b - a).1 + (b - a).2 * (b - a).2 := by
    refine norm_pos (u := (-(b - a).2, (b - a).1)) ?_
    unfold cr
    simp only
    intro h3
    apply h0
    have e1 : (b - a).1 = 0 := by nlinarith [mul_self_nonneg (b - a).1, mul_self_nonneg (b - a).2]
    have e2 : (b - a).2 = 0 := by nlinarith [mul_self_nonneg (b - a).1, mul_self_nonneg (b - a).2]
    exact Prod.ext e1 e2
  obtain ⟨t, ht⟩ := on_ray (v := b - a) (x := x - a) (u := (-(b - a).2, (b - a).1))
    (by unfold cr; simp only; intro h3; linarith) (by unfold cr at *; linarith)
  refine ⟨t, ?_⟩
  have e1 := congrArg Prod.fst ht
  have e2 := congrArg Prod.snd ht
  simp only [along, Prod.fst_sub, Prod.snd_sub, Prod.fst_zero, Prod.snd_zero] at e1 e2
  apply Prod.ext
  · simp only [along]; linarith
  · simp only [along]; linarith

theorem along_inj {a b : ℝ × ℝ} (hne : a ≠ b) {s t : ℝ} (h : along a b s = along a b t) : s = t := by
  simp only [along, Prod.mk.injEq] at h
  by_contra hst
  apply hne
  have h1 : (s - t) * (b.1 - a.1) = 0 := by linarith [h.1]
  have h2 : (s - t) * (b.2 - a.2) = 0 := by linarith [h.2]
  have hst' : s - t ≠ 0 := sub_ne_zero.2 hst
  have e1 := (mul_eq_zero.1 h1).resolve_left hst'
  have e2 := (mul_eq_zero.1 h2).resolve_left hst'
  exact Prod.ext (by linarith) (by linarith)

theorem tri_line1 (a b w : ℝ × ℝ) (r : ℝ) : tri a w (along a b r) = -r * tri a b w := by
  simp only [tri, cr, along, Prod.fst_sub, Prod.snd_sub]; ring

theorem tri_line2 (a b w : ℝ × ℝ) (p r : ℝ) : tri (along a b p) (along a b r) w = (r - p) * tri a b w := by
  simp only [tri, cr, along, Prod.fst_sub, Prod.snd_sub]; ring

theorem tri_line3 (a b w : ℝ × ℝ) (p r : ℝ) : tri (along a b p) w (along a b r) = (p - r) * tri a b w := by
  simp only [tri, cr, along, Prod.fst_sub, Prod.snd_sub]; ring

theorem tri_line4 (a b w : ℝ × ℝ) (p r : ℝ) : tri w (along a b p) (along a b r) = (r - p) * tri a b w := by
  simp only [tri, cr, along, Prod.fst_sub, Prod.snd_sub]; ring

namespace ConvexRing

variable {f : ℕ → ℝ × ℝ} {n : ℕ}

/-- Vertices to the left of an edge. -/
theorem edge (h : ConvexRing f n) (i m : ℕ) (h1 : i + 1 < m) (h2 : m < i + n) : 0 ≤ tri (f i) (f (i + 1)) (f m) := h.turns i (i + 1) m (by omega) h1 h2

/-- A vertex on the line of an edge, after a vertex that is not on it, is behind the edge. -/
theorem behind (h : ConvexRing f n) {i m w : ℕ} (hm1 : i + 1 < m) (hm2 : m < i + n) (hw1 : i + 1 < w) (hw2 : w < m)
    (hw : 0 < tri (f i) (f (i + 1)) (f w)) {r : ℝ} (hr : f m = along (f i) (f (i + 1)) r) : r < 0 := by
  have h1 := h.turns i w m (by omega) hw2 hm2
  rw [hr, tri_line1] at h1
  have hle : 0 ≤ -r := nonneg_of_mul_nonneg_left h1 hw
  refine lt_of_le_of_ne (by linarith) fun h0 => ?_
  have hfm : f m = f i := by rw [hr, h0, along_start]
  rcases Nat.lt_or_ge (m + 1) (i + n) with h' | h'
  · have e := h.turns (i + 1) m (m + 1) hm1 (by omega) (by omega)
    have e' := h.edge i (m + 1) (by omega) h'
    rw [hfm] at e
    have hz : tri (f i) (f (i + 1)) (f (m + 1)) = 0 := by
      refine le_antisymm ?_ e'
      have : tri (f (i + 1)) (f i) (f (m + 1)) = -tri (f i) (f (i + 1)) (f (m + 1)) := by
        simp only [tri, cr, Prod.fst_sub, Prod.snd_sub]; ring
      linarith
    obtain ⟨q, hq⟩ := on_line' (h.proper i) hz
    have g1 := h.turns i w (m + 1) (by omega) (by omega) h'
    rw [hq, tri_line1] at g1
    have hq1 : 0 ≤ -q := nonneg_of_mul_nonneg_left g1 hw
    have g2 := h.turns w m (m + 1) hw2 (by omega) (by omega)
    rw [hr, hq, tri_line4, h0, sub_zero] at g2
    have hq2 : 0 ≤ q := nonneg_of_mul_nonneg_left g2 hw
    have hq0 : q = 0 := by linarith
    rw [hq0, along_start] at hq
    exact h.proper m (hfm.trans hq.symm)
  · have e : m + 1 = i + n := by omega
    exact h.proper m (by rw [e, h.period, hfm])

/-- A vertex on the line of an edge, before a vertex that is not on it, is ahead of the edge. -/
theorem ahead (h : ConvexRing f n) {i m w : ℕ} (hm1 : i + 1 < m) (hw1 : m < w) (hw2 : w < i + n)
    (hw : 0 < tri (f i) (f (i + 1)) (f w)) {r : ℝ} (hr : f m = along (f i) (f (i + 1)) r) : 1 < r := by
  have e1 : f (i + 1) = along (f i) (f (i + 1)) 1 := (along_one _ _).symm
  have h1 := h.turns (i + 1) m w hm1 hw1 (by omega)
  have key : tri (f (i + 1)) (f m) (f w) = (r - 1) * tri (f i) (f (i + 1)) (f w) := by
    nth_rw 1 [e1]; rw [hr, tri_line2]
  rw [key] at h1
  have hle : 0 ≤ r - 1 := nonneg_of_mul_nonneg_left h1 hw
  refine lt_of_le_of_ne (by linarith) fun h0 => ?_
  have hfm : f m = f (i + 1) := by rw [hr, ← h0, along_one]
  rcases Nat.lt_or_ge (i + 1) (m - 1) with h' | h'
  · have e := h.turns i (m - 1) m (by omega) (by omega) (by omega)
    have e' := h.edge i (m - 1) h' (by omega)
    rw [hfm] at e
    have hz : tri (f i) (f (i + 1)) (f (m - 1)) = 0 := by
      refine le_antisymm ?_ e'
      have : tri (f i) (f (m - 1)) (f (i + 1)) = -tri (f i) (f (i + 1)) (f (m - 1)) := by
        simp only [tri, cr, Prod.fst_sub, Prod.snd_sub]; ring
      linarith
    obtain ⟨q, hq⟩ := on_line' (h.proper i) hz
    have g1 := h.turns (m - 1) m w (by omega) hw1 (by omega)
    rw [hr, hq, tri_line2, ← h0] at g1
    have hq1 : 0 ≤ 1 - q := nonneg_of_mul_nonneg_left g1 hw
    have g2 := h.turns (i + 1) (m - 1) w h' (by omega) (by omega)
    have key2 : tri (f (i + 1)) (f (m - 1)) (f w) = (q - 1) * tri (f i) (f (i + 1)) (f w) := by
      nth_rw 1 [e1]; rw [hq, tri_line2]
    rw [key2] at g2
    have hq2 : 0 ≤ q - 1 := nonneg_of_mul_nonneg_left g2 hw
    have hq0 : q = 1 := by linarith
    rw [hq0, along_one] at hq
    have := h.proper (m - 1)
    rw [show m - 1 + 1 = m by omega] at this
    exact this (hq.trans hfm.symm)
  · have e : m = i + 2 := by omega
    rw [e] at hfm
    exact h.proper (i + 1) hfm.symm

/-- Neighbouring edges meet in the vertex between them only. -/
theorem adjacent (h : ConvexRing f n) {i : ℕ} {s t : ℝ} (s1 : s ≤ 1) (t0 : 0 ≤ t)
    (heq : along (f i) (f (i + 1)) s = along (f (i + 1)) (f (i + 2)) t) : along (f i) (f (i + 1)) s = f (i + 1) := by
  have h3 := h.three
  have hz : t * tri (f i) (f (i + 1)) (f (i + 2)) = 0 := by
    have : tri (f i) (f (i + 1)) (along (f i) (f (i + 1)) s) = 0 := by rw [tri_along, tri_left, tri_right]; ring
    rw [heq, tri_along, tri_right] at this
    linarith
  rcases mul_eq_zero.1 hz with h0 | h0
  · rw [heq, h0, along_start]
  · obtain ⟨r, hr⟩ := on_line' (h.proper i) h0
    obtain ⟨w, w1, w2, hw⟩ := h.wide i
    have hwne : w ≠ i + 2 := by rintro rfl; linarith
    have hr1 := h.ahead (m := i + 2) (by omega) (by omega) w2 hw hr
    have e1 : f (i + 1) = along (f i) (f (i + 1)) 1 := (along_one _ _).symm
    have e2 : along (f (i + 1)) (f (i + 2)) t = along (f i) (f (i + 1)) (1 + t * (r - 1)) := by
      rw [hr]
      simp only [along, Prod.mk.injEq]; constructor <;> ring
    rw [e2] at heq
    have := along_inj (h.proper i) heq
    have ht : t * (r - 1) = 0 := by
      have := mul_nonneg t0 (by linarith : 0 ≤ r - 1)
      linarith
    have hs : s = 1 := by linarith
    rw [hs, along_one]

/-- Other edges do not meet. -/
theorem apart (h : ConvexRing f n) {i j : ℕ} (hij : i + 1 < j) (hj : j + 1 < i + n) {s t : ℝ} (s0 : 0 ≤ s) (s1 : s ≤ 1) (t0 : 0 ≤ t) (t1 : t ≤ 1) :
    along (f i) (f (i + 1)) s ≠ along (f j) (f (j + 1)) t := by
  intro heq
  obtain ⟨w, w1, w2, hw⟩ := h.wide i
  have p1 := h.edge i j hij (by omega)
  have p2 := h.edge i (j + 1) (by omega) hj
  have hz : (1 - t) * tri (f i) (f (i + 1)) (f j) + t * tri (f i) (f (i + 1)) (f (j + 1)) = 0 := by
    have : tri (f i) (f (i + 1)) (along (f i) (f (i + 1)) s) = 0 := by rw [tri_along, tri_left, tri_right]; ring
    rwa [heq, tri_along] at this
  have q1 := mul_nonneg (by linarith : 0 ≤ 1 - t) p1
  have q2 := mul_nonneg t0 p2
  -- a vertex of the line is behind or ahead
  have hout : ∀ m, i + 1 < m → m < i + n → ∀ r, f m = along (f i) (f (i + 1)) r → r < 0 ∨ 1 < r := by
    intro m h1 h2 r hr
    rcases Nat.lt_trichotomy w m with h' | h' | h'
    · exact .inl (h.behind h1 h2 w1 h' hw hr)
    · rw [h', hr, tri_along, tri_left, tri_right] at hw; simp at hw
    · exact .inr (h.ahead h1 h' w2 hw hr)
  rcases eq_or_ne t 0 with e0 | e0
  · rw [e0, along_start] at heq
    rcases hout j hij (by omega) s heq.symm with h' | h' <;> linarith
  rcases eq_or_ne t 1 with e1 | e1
  · rw [e1, along_one] at heq
    rcases hout (j + 1) (by omega) hj s heq.symm with h' | h' <;> linarith
  have z1 : tri (f i) (f (i + 1)) (f j) = 0 :=
    (mul_eq_zero.1 (by linarith : (1 - t) * tri (f i) (f (i + 1)) (f j) = 0)).resolve_left (by intro h'; apply e1; linarith)
  have z2 : tri (f i) (f (i + 1)) (f (j + 1)) = 0 :=
    (mul_eq_zero.1 (by linarith : t * tri (f i) (f (i + 1)) (f (j + 1)) = 0)).resolve_left e0
  obtain ⟨r1, hr1⟩ := on_line' (h.proper i) z1
  obtain ⟨r2, hr2⟩ := on_line' (h.proper i) z2
  have e : along (f j) (f (j + 1)) t = along (f i) (f (i + 1)) ((1 - t) * r1 + t * r2) := by
    rw [hr1, hr2]; simp only [along, Prod.mk.injEq]; constructor <;> ring
  rw [e] at heq
  have hs := along_inj (h.proper i) heq
  rcases Nat.lt_or_ge w j with h' | h'
  · have g1 := h.behind hij (by omega) w1 h' hw hr1
    have g2 := h.behind (by omega) hj w1 (by omega : w < j + 1) hw hr2
    have := mul_nonneg (by linarith : 0 ≤ 1 - t) (by linarith : 0 ≤ -r1)
    have := mul_pos (lt_of_le_of_ne t0 (Ne.symm e0)) (by linarith : 0 < -r2)
    linarith
  · have hwj : w ≠ j := by rintro rfl; linarith
    have hwj' : w ≠ j + 1 := by rintro rfl; linarith
    have g1 := h.ahead hij (by omega : j < w) w2 hw hr1
    have g2 := h.ahead (by omega) (by omega : j + 1 < w) w2 hw hr2
    have := mul_nonneg (by linarith : 0 ≤ 1 - t) (by linarith : 0 ≤ r1 - 1)
    have := mul_pos (lt_of_le_of_ne t0 (Ne.symm e0)) (by linarith : 0 < r2 - 1)
    linarith

end ConvexRing

end ICPC
