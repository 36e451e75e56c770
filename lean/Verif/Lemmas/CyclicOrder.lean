import Verif.Model.Geo
import Mathlib.Algebra.BigOperators.Group.List.Basic
import Mathlib.Algebra.Group.Prod
import Mathlib.Tactic.LinearCombination
import Mathlib.Tactic.Linarith
import Mathlib.Algebra.Order.BigOperators.Group.List
import Mathlib.Tactic.Abel
import Mathlib.Tactic.Ring

/-!
# Vectors sorted by direction

The main result is `cr_blocks`: if the vectors of a list are sorted by their direction and their sum is zero,
then the polygon that has them as edges has no right turn.
-/

namespace ICPC.Cyc

/-- The cross product. -/
def cr (a b : Pt) : Int := a.1 * b.2 - a.2 * b.1

/-- The scalar product. -/
def dt (a b : Pt) : Int := a.1 * b.1 + a.2 * b.2

/-- Directions in the half-open interval from straight down (excluded) over right to straight up. -/
def Rt (v : Pt) : Prop := 0 < v.1 ∨ (v.1 = 0 ∧ 0 < v.2)

theorem cr_add_right (a b c : Pt) : cr a (b + c) = cr a b + cr a c := by simp only [cr, Prod.fst_add, Prod.snd_add]; ring
theorem cr_add_left (a b c : Pt) : cr (a + b) c = cr a c + cr b c := by simp only [cr, Prod.fst_add, Prod.snd_add]; ring
theorem cr_neg_right (a b : Pt) : cr a (-b) = - cr a b := by simp only [cr, Prod.fst_neg, Prod.snd_neg]; ring
theorem cr_neg_left (a b : Pt) : cr (-a) b = - cr a b := by simp only [cr, Prod.fst_neg, Prod.snd_neg]; ring
theorem dt_neg_right (a b : Pt) : dt a (-b) = - dt a b := by simp only [dt, Prod.fst_neg, Prod.snd_neg]; ring
theorem dt_neg_left (a b : Pt) : dt (-a) b = - dt a b := by simp only [dt, Prod.fst_neg, Prod.snd_neg]; ring
theorem dt_add_right (a b c : Pt) : dt a (b + c) = dt a b + dt a c := by simp only [dt, Prod.fst_add, Prod.snd_add]; ring
theorem cr_swap (a b : Pt) : cr a b = - cr b a := by simp only [cr]; ring
theorem cr_zero_right (a : Pt) : cr a 0 = 0 := by simp [cr]
theorem cr_zero_left (a : Pt) : cr 0 a = 0 := by simp [cr]
theorem cr_self (a : Pt) : cr a a = 0 := by simp only [cr]; ring
theorem dt_self_pos {a : Pt} (h : a ≠ 0) : 0 < dt a a := by
  have h' : a.1 ≠ 0 ∨ a.2 ≠ 0 := by
    by_contra hc
    simp only [ne_eq, not_or, not_not] at hc
    exact h (Prod.ext hc.1 hc.2)
  unfold dt
  rcases h' with h' | h'
  · nlinarith [mul_self_nonneg a.2, mul_self_pos.2 h']
  · nlinarith [mul_self_nonneg a.1, mul_self_pos.2 h']

theorem cr_sum_right (D : Pt) (l : List Pt) : cr D l.sum = (l.map (cr D)).sum := by
  induction l with
  | nil => simp [cr_zero_right]
  | cons a l ih => rw [List.sum_cons, cr_add_right, ih, List.map_cons, List.sum_cons]

theorem cr_sum_nonneg {D : Pt} {l : List Pt} (h : ∀ v ∈ l, 0 ≤ cr D v) : 0 ≤ cr D l.sum := by
  rw [cr_sum_right]
  refine List.sum_nonneg fun x hx => ?_
  obtain ⟨v, hv, rfl⟩ := List.mem_map.1 hx
  exact h v hv

theorem cr_sum_nonpos {D : Pt} {l : List Pt} (h : ∀ v ∈ l, cr D v ≤ 0) : cr D l.sum ≤ 0 := by
  have := cr_sum_nonneg (D := -D) (l := l) (fun v hv => by rw [cr_neg_left]; have := h v hv; omega)
  rw [cr_neg_left] at this; omega

theorem cr_sum_zero {D : Pt} {l : List Pt} (h : ∀ v ∈ l, 0 ≤ cr D v) (h0 : cr D l.sum = 0) : ∀ v ∈ l, cr D v = 0 := by
  induction l with
  | nil => simp
  | cons a l ih =>
    have h1 := h a (by simp)
    have h2 := cr_sum_nonneg (D := D) (l := l) (fun v hv => h v (by simp [hv]))
    rw [List.sum_cons, cr_add_right] at h0
    intro v hv
    rcases List.mem_cons.1 hv with rfl | hv
    · omega
    · exact ih (fun v hv => h v (by simp [hv])) (by omega) v hv

theorem dt_sum_nonneg {D : Pt} {l : List Pt} (h : ∀ v ∈ l, 0 ≤ dt D v) : 0 ≤ dt D l.sum := by
  induction l with
  | nil => simp [dt]
  | cons a l ih =>
    rw [List.sum_cons, dt_add_right]
    have := h a (by simp)
    have := ih (fun v hv => h v (by simp [hv]))
    omega

/-- All pairs of two lists turn left, so their sums do. -/
theorem cr_sum_sum {l m : List Pt} (h : ∀ a ∈ l, ∀ b ∈ m, 0 ≤ cr a b) : 0 ≤ cr l.sum m.sum := by
  refine cr_sum_nonneg fun b hb => ?_
  rw [cr_swap, ← cr_neg_right]
  rw [cr_neg_right, ← cr_neg_left]
  have := cr_sum_nonneg (D := -b) (l := l) (fun a ha => by
    rw [cr_neg_left, ← cr_swap]; exact h a ha b hb)
  exact this

/-! ### Half planes -/

theorem rt_trans {u v w : Pt} (hu : Rt u) (hv : Rt v) (hw : Rt w) (h1 : 0 ≤ cr u v) (h2 : 0 ≤ cr v w) : 0 ≤ cr u w := by
  have id : v.1 * cr u w = w.1 * cr u v + u.1 * cr v w := by simp only [cr]; ring
  have hu0 : 0 ≤ u.1 := by rcases hu with h | h <;> omega
  have hw0 : 0 ≤ w.1 := by rcases hw with h | h <;> omega
  rcases hv with hv | ⟨hv, hv'⟩
  · have : 0 ≤ v.1 * cr u w := by
      rw [id]; exact add_nonneg (mul_nonneg hw0 h1) (mul_nonneg hu0 h2)
    exact nonneg_of_mul_nonneg_right this hv
  · have hw1 : w.1 = 0 := by
      unfold cr at h2
      rw [hv] at h2
      have : v.2 * w.1 ≤ 0 := by linarith
      nlinarith
    have hw2 : 0 < w.2 := by rcases hw with h | h <;> omega
    unfold cr
    rw [hw1]
    nlinarith [mul_nonneg hu0 hw2.le]

theorem rt_parallel {u v : Pt} (hu : Rt u) (hv : Rt v) (h : cr u v = 0) : 0 < dt u v := by
  unfold cr at h
  unfold dt
  rcases hu with hu | ⟨hu, hu'⟩
  · rcases hv with hv | ⟨hv, hv'⟩
    · have h1 : 0 < u.1 * v.1 := mul_pos hu hv
      have h2 : (u.1 * v.1) * (u.2 * v.2) = (u.1 * v.2) * (u.1 * v.2) := by linear_combination (-(u.1 * v.2)) * h
      have h3 : 0 ≤ (u.1 * v.1) * (u.2 * v.2) := by rw [h2]; exact mul_self_nonneg _
      have := nonneg_of_mul_nonneg_right h3 h1
      omega
    · rw [hv] at h
      have : 0 < u.1 * v.2 := mul_pos hu hv'
      omega
  · rcases hv with hv | ⟨hv, hv'⟩
    · rw [hu] at h
      have : 0 < u.2 * v.1 := mul_pos hu' hv
      omega
    · rw [hu, hv]
      have : 0 < u.2 * v.2 := mul_pos hu' hv'
      omega

/-- What is used of a half-open half plane of directions. -/
structure Half (H : Pt → Prop) : Prop where
  trans : ∀ {u v w : Pt}, H u → H v → H w → 0 ≤ cr u v → 0 ≤ cr v w → 0 ≤ cr u w
  parallel : ∀ {u v : Pt}, H u → H v → cr u v = 0 → 0 < dt u v

theorem half_rt : Half Rt := ⟨rt_trans, rt_parallel⟩

theorem half_neg {H : Pt → Prop} (h : Half H) : Half fun v => H (-v) where
  trans := fun {u v w} hu hv hw h1 h2 => by
    have := h.trans hu hv hw (by simpa [cr_neg_left, cr_neg_right] using h1) (by simpa [cr_neg_left, cr_neg_right] using h2)
    simpa [cr_neg_left, cr_neg_right] using this
  parallel := fun {u v} hu hv h1 => by
    have := h.parallel hu hv (by simpa [cr_neg_left, cr_neg_right] using h1)
    simpa [dt_neg_left, dt_neg_right] using this

/-- The direction of `v` is at an angle in `[0, π)` from `D`. -/
def Up (D v : Pt) : Prop := 0 < cr D v ∨ (cr D v = 0 ∧ 0 < dt D v)

theorem Up.nonneg {D v : Pt} (h : Up D v) : 0 ≤ cr D v := by rcases h with h | h <;> omega

/-- `P ++ Q` is sorted by the angle from `D`. -/
structure Fan (D : Pt) (P Q : List Pt) : Prop where
  up : ∀ v ∈ P, Up D v
  down : ∀ v ∈ Q, Up (-D) v
  sortedP : P.Pairwise fun a b => 0 ≤ cr a b
  sortedQ : Q.Pairwise fun a b => 0 ≤ cr a b

theorem split_while (p : Pt → Bool) : ∀ X : List Pt, ∃ X1 X2, X = X1 ++ X2 ∧ (∀ x ∈ X1, p x = true) ∧
    (∀ x ∈ X2.head?, p x = false)
  | [] => ⟨[], [], by simp, by simp, by simp⟩
  | a :: X => by
    cases h : p a with
    | false => exact ⟨[], a :: X, by simp, by simp, by simpa using h⟩
    | true =>
      obtain ⟨X1, X2, e, h1, h2⟩ := split_while p X
      exact ⟨a :: X1, X2, by simp [e], by simpa [h] using h1, h2⟩

theorem rebase_half {H : Pt → Prop} (hH : Half H) {D : Pt} (hD : H D) {X Y : List Pt} (hX : ∀ x ∈ X, H x)
    (hY : ∀ y ∈ Y, H (-y)) (sX : X.Pairwise fun a b => 0 ≤ cr a b) (sY : Y.Pairwise fun a b => 0 ≤ cr a b) :
    ∃ X1 X2 Ya Yb, X = X1 ++ X2 ∧ Y = Ya ++ Yb ∧ Fan D (X2 ++ Ya) (Yb ++ X1) := by
  obtain ⟨X1, X2, rfl, hx1, hx2⟩ := split_while (fun x => decide (cr D x < 0)) X
  obtain ⟨Ya, Yb, rfl, hya, hyb⟩ := split_while (fun y => decide (0 < cr D y)) Y
  rw [List.pairwise_append] at sX sY
  have hx1' : ∀ x ∈ X1, cr D x < 0 := fun x hx => by simpa using hx1 x hx
  have hya' : ∀ x ∈ Ya, 0 < cr D x := fun x hx => by simpa using hya x hx
  have hx2' : ∀ x ∈ X2, 0 ≤ cr D x := by
    cases X2 with
    | nil => simp
    | cons a X2 =>
      have ha : 0 ≤ cr D a := by simpa using hx2 a (by simp)
      intro x hx
      rcases List.mem_cons.1 hx with rfl | hx'
      · exact ha
      · exact hH.trans hD (hX a (by simp)) (hX x (by simp [hx'])) ha ((List.pairwise_cons.1 sX.2.1).1 x hx')
  have hyb' : ∀ y ∈ Yb, cr D y ≤ 0 := by
    cases Yb with
    | nil => simp
    | cons a Yb =>
      have ha : cr D a ≤ 0 := by simpa using hyb a (by simp)
      intro x hx
      rcases List.mem_cons.1 hx with rfl | hx'
      · exact ha
      · have h1 : 0 ≤ cr D (-a) := by rw [cr_neg_right]; omega
        have h2 : 0 ≤ cr (-a) (-x) := by
          rw [cr_neg_right, cr_neg_left]
          have := (List.pairwise_cons.1 sY.2.1).1 x hx'
          omega
        have := hH.trans hD (hY a (by simp)) (hY x (by simp [hx'])) h1 h2
        rw [cr_neg_right] at this; omega
  have mX1 : ∀ x ∈ X1, H x := fun x hx => hX x (by simp [hx])
  have mX2 : ∀ x ∈ X2, H x := fun x hx => hX x (by simp [hx])
  have mYa : ∀ x ∈ Ya, H (-x) := fun x hx => hY x (by simp [hx])
  have mYb : ∀ x ∈ Yb, H (-x) := fun x hx => hY x (by simp [hx])
  refine ⟨X1, X2, Ya, Yb, rfl, rfl, ⟨?_, ?_, ?_, ?_⟩⟩
  · intro v hv
    rcases List.mem_append.1 hv with hv | hv
    · have h0 := hx2' v hv
      rcases h0.lt_or_eq with h | h
      · exact Or.inl h
      · exact Or.inr ⟨h.symm, hH.parallel hD (mX2 v hv) h.symm⟩
    · exact Or.inl (hya' v hv)
  · intro v hv
    rcases List.mem_append.1 hv with hv | hv
    · have h0 := hyb' v hv
      rcases h0.lt_or_eq with h | h
      · exact Or.inl (by rw [cr_neg_left]; omega)
      · refine Or.inr ⟨by rw [cr_neg_left]; omega, ?_⟩
        have := hH.parallel hD (mYb v hv) (by rw [cr_neg_right]; omega)
        rw [dt_neg_right] at this
        rw [dt_neg_left]; omega
    · exact Or.inl (by rw [cr_neg_left]; have := hx1' v hv; omega)
  · refine List.pairwise_append.2 ⟨sX.2.1, sY.1, fun r hr a ha => ?_⟩
    have h1 : 0 ≤ cr (-a) D := by
      rw [cr_neg_left, ← cr_swap]; exact (hya' a ha).le
    have := hH.trans (mYa a ha) hD (mX2 r hr) h1 (hx2' r hr)
    rw [cr_neg_left, ← cr_swap] at this; exact this
  · refine List.pairwise_append.2 ⟨sY.2.1, sX.1, fun y hy x hx => ?_⟩
    have h1 : 0 ≤ cr x D := by
      rw [cr_swap]; have := hx1' x hx; omega
    have h2 : 0 ≤ cr D (-y) := by rw [cr_neg_right]; have := hyb' y hy; omega
    have := hH.trans (mX1 x hx) hD (mYb y hy) h1 h2
    rw [cr_neg_right, ← cr_swap] at this; exact this

/-- Sorted by direction, starting straight up. -/
structure Sorted (L R : List Pt) : Prop where
  left : ∀ v ∈ L, Rt (-v)
  right : ∀ v ∈ R, Rt v
  sortedL : L.Pairwise fun a b => 0 ≤ cr a b
  sortedR : R.Pairwise fun a b => 0 ≤ cr a b

theorem rt_or {v : Pt} (h : v ≠ 0) : Rt v ∨ Rt (-v) := by
  unfold Rt
  simp only [Prod.fst_neg, Prod.snd_neg]
  rcases lt_trichotomy v.1 0 with h1 | h1 | h1
  · right; left; omega
  · rcases lt_trichotomy v.2 0 with h2 | h2 | h2
    · right; right; omega
    · exact absurd (Prod.ext h1 h2) h
    · left; right; omega
  · left; left; omega

/-- A list that is sorted by direction can be rotated such that the sorting starts at `D`. -/
theorem rebase {L R : List Pt} (h : Sorted L R) {D : Pt} (hD : D ≠ 0) :
    ∃ L1 L2 P Q, L ++ R = L1 ++ L2 ∧ L2 ++ L1 = P ++ Q ∧ Fan D P Q := by
  rcases rt_or hD with hd | hd
  · obtain ⟨X1, X2, Ya, Yb, rfl, rfl, hf⟩ := rebase_half half_rt hd h.right h.left h.sortedR h.sortedL
    exact ⟨Ya ++ Yb ++ X1, X2, X2 ++ Ya, Yb ++ X1, by simp, by simp, hf⟩
  · obtain ⟨X1, X2, Ya, Yb, rfl, rfl, hf⟩ := rebase_half (half_neg half_rt) hd h.left (fun y hy => by simpa using h.right y hy)
      h.sortedL h.sortedR
    exact ⟨X1, X2 ++ (Ya ++ Yb), X2 ++ Ya, Yb ++ X1, by simp, by simp, hf⟩

/-! ### Three consecutive blocks -/

section
variable {D : Pt} {P Q A B Z : List Pt}

theorem Fan.p_nonneg (h : Fan D P Q) {v : Pt} (hv : v ∈ P) : 0 ≤ cr D v := (h.up v hv).nonneg
theorem Fan.q_nonpos (h : Fan D P Q) {v : Pt} (hv : v ∈ Q) : cr D v ≤ 0 := by
  have := (h.down v hv).nonneg
  rw [cr_neg_left] at this; omega

/-- The block does not contain the start of the sorting. -/
theorem fan_inner (h : Fan D P Q) {Y : List Pt} (e : P ++ Q = Y ++ (A ++ B) ++ Z) (h0 : (P ++ Q).sum = 0)
    (hD : (A ++ B).sum = D) : cr D A.sum ≤ 0 := by
  have hAB : cr D A.sum + cr D B.sum = 0 := by
    rw [← cr_add_right, ← List.sum_append, hD, cr_self]
  -- the boundary between `P` and `Q` is inside of the block
  have key : ∀ U V, U ++ V = A ++ B → P = Y ++ U → Q = V ++ Z → cr D U.sum ≤ 0 := by
    rintro U V hUV rfl rfl
    have hy : 0 ≤ cr D Y.sum := cr_sum_nonneg fun v hv => h.p_nonneg (by simp [hv])
    have hu : 0 ≤ cr D U.sum := cr_sum_nonneg fun v hv => h.p_nonneg (by simp [hv])
    have h1 : 0 ≤ cr Y.sum U.sum := cr_sum_sum (List.pairwise_append.1 h.sortedP).2.2
    have h2 : 0 ≤ cr V.sum Z.sum := cr_sum_sum (List.pairwise_append.1 h.sortedQ).2.2
    have hD' : U.sum + V.sum = D := by rw [← List.sum_append, hUV, hD]
    have h0' : Y.sum + U.sum + (V.sum + Z.sum) = 0 := by
      rw [← List.sum_append, ← List.sum_append, ← List.sum_append, h0]
    have e1 := congrArg Prod.fst hD'
    have e2 := congrArg Prod.snd hD'
    have e3 := congrArg Prod.fst h0'
    have e4 := congrArg Prod.snd h0'
    simp only [Prod.fst_add, Prod.snd_add, Prod.fst_zero, Prod.snd_zero] at e1 e2 e3 e4
    have id : cr Y.sum U.sum + cr V.sum Z.sum = - cr D U.sum - cr D Y.sum := by
      simp only [cr]
      generalize Y.sum = y at *
      generalize U.sum = u at *
      generalize V.sum = v at *
      generalize Z.sum = z at *
      have z1 : z.1 = - y.1 - u.1 - v.1 := by omega
      have z2 : z.2 = - y.2 - u.2 - v.2 := by omega
      rw [z1, z2, ← e1, ← e2]; ring
    omega
  rw [List.append_assoc] at e
  rcases List.append_eq_append_iff.1 e with ⟨a', hY, hQ⟩ | ⟨c', hP, hZ⟩
  · -- `Y = P ++ a'`
    refine cr_sum_nonpos fun v hv => h.q_nonpos ?_
    rw [hQ]; simp [hv]
  · -- `P = Y ++ c'`, `A ++ B ++ Z = c' ++ Q`
    rw [List.append_assoc] at hZ
    rcases List.append_eq_append_iff.1 hZ with ⟨a', hc, hBZ⟩ | ⟨c'', hA, hQ⟩
    · -- `c' = A ++ a'`
      rcases List.append_eq_append_iff.1 hBZ with ⟨a'', ha, _⟩ | ⟨c'', hB, hQ⟩
      · -- `a' = B ++ a''`
        have : 0 ≤ cr D B.sum := cr_sum_nonneg fun v hv => h.p_nonneg (by rw [hP, hc, ha]; simp [hv])
        omega
      · -- `B = a' ++ c''`
        have k := key (A ++ a') c'' (by rw [hB]; simp) (by rw [hP, hc]) hQ
        rw [List.sum_append, cr_add_right] at k
        have : 0 ≤ cr D a'.sum := cr_sum_nonneg fun v hv => h.p_nonneg (by rw [hP, hc]; simp [hv])
        omega
    · -- `A = c' ++ c''`
      have k := key c' (c'' ++ B) (by rw [hA]; simp) hP (by rw [hQ]; simp)
      have : cr D c''.sum ≤ 0 := cr_sum_nonpos fun v hv => h.q_nonpos (by rw [hQ]; simp [hv])
      rw [hA, List.sum_append, cr_add_right]
      omega

theorem cr_opposite {b z : Pt} (hD : D ≠ 0) (h1 : cr D z = 0) (h2 : dt D z < 0) (h3 : 0 ≤ cr b z) : 0 ≤ cr D b := by
  have id : dt D D * cr b z = dt D z * cr b D + cr D z * dt b D := by simp only [dt, cr]; ring
  have hp := dt_self_pos hD
  rw [h1] at id
  have : 0 ≤ dt D z * cr b D := by nlinarith
  rw [cr_swap]
  by_contra hc
  have : dt D z * cr b D < 0 := mul_neg_of_neg_of_pos h2 (by omega)
  omega

/-- The start of the sorting is in the first part of the block. -/
theorem fan_wrapA (h : Fan D P Q) (hne : D ≠ 0) {A1 A2 : List Pt} (e : P ++ Q = (A2 ++ B) ++ Z ++ A1) (hZ : Z.sum = -D) :
    0 ≤ cr D B.sum := by
  refine cr_sum_nonneg fun b hb => ?_
  rw [List.append_assoc] at e
  have gZ : cr D Z.sum = 0 := by rw [hZ, cr_neg_right, cr_self, neg_zero]
  -- if all of `Z` is in `Q`
  have key : ∀ W1 W2, Q = W1 ++ (Z ++ W2) → b ∈ W1 → 0 ≤ cr D b := by
    rintro W1 W2 hQ hb
    cases Z with
    | nil =>
      simp only [List.sum_nil] at hZ
      exact absurd (neg_eq_zero.1 hZ.symm) hne
    | cons z Z =>
      have z0 : cr (-D) z = 0 := by
        refine cr_sum_zero (l := z :: Z) (fun v hv => ?_) ?_ z (by simp)
        · exact (h.down v (by rw [hQ]; simp only [List.mem_append]; tauto)).nonneg
        · rw [cr_neg_left, gZ, neg_zero]
      have zd := h.down z (by rw [hQ]; simp)
      have hs := h.sortedQ
      rw [hQ, List.pairwise_append] at hs
      have hbz := hs.2.2 b hb z (by simp)
      rcases zd with zd | ⟨_, zd⟩
      · omega
      · rw [cr_neg_left] at z0
        rw [dt_neg_left] at zd
        exact cr_opposite hne (by omega) (by omega) hbz
  rcases List.append_eq_append_iff.1 e with ⟨a', hAB, hQ⟩ | ⟨c', hP, _⟩
  · -- `A2 ++ B = P ++ a'`, `Q = a' ++ (Z ++ A1)`
    have hb' : b ∈ P ++ a' := by rw [← hAB]; simp [hb]
    rcases List.mem_append.1 hb' with hb' | hb'
    · exact h.p_nonneg hb'
    · exact key a' A1 hQ hb'
  · exact h.p_nonneg (by rw [hP]; simp [hb])

/-- The start of the sorting is in the second part of the block. -/
theorem fan_wrapB (h : Fan D P Q) (hne : D ≠ 0) {B1 B2 : List Pt} (e : P ++ Q = B2 ++ Z ++ (A ++ B1)) (hZ : Z.sum = -D) :
    cr D A.sum ≤ 0 := by
  refine cr_sum_nonpos fun a ha => ?_
  have gZ : cr D Z.sum = 0 := by rw [hZ, cr_neg_right, cr_self, neg_zero]
  rcases List.append_eq_append_iff.1 e with ⟨a', hAB, hQ⟩ | ⟨c', hP, hc⟩
  · exact h.q_nonpos (by rw [hQ]; simp [ha])
  · exfalso
    have hz : ∀ v ∈ Z, Up D v := fun v hv => h.up v (by rw [hP]; simp [hv])
    have z0 := cr_sum_zero (fun v hv => (hz v hv).nonneg) gZ
    have : 0 ≤ dt D Z.sum := dt_sum_nonneg fun v hv => by
      rcases hz v hv with h' | ⟨_, h'⟩
      · have := z0 v hv; omega
      · exact h'.le
    rw [hZ, dt_neg_right] at this
    have := dt_self_pos hne
    omega

end

/-- Vectors with sum zero that are sorted by direction: for every way to cut the list into four parts, the second
and the third part make no right turn. -/
theorem cr_blocks {L R Z1 A B Z2 : List Pt} (h : Sorted L R) (e : L ++ R = Z1 ++ A ++ B ++ Z2) (h0 : (L ++ R).sum = 0) :
    0 ≤ cr A.sum B.sum := by
  by_cases hne : A.sum + B.sum = 0
  · rw [eq_neg_of_add_eq_zero_right hne, cr_neg_right, cr_self]; simp
  have hD : ∃ D, D = A.sum + B.sum := ⟨_, rfl⟩
  obtain ⟨D, hD⟩ := hD
  rw [← hD] at hne
  have goal : cr D A.sum ≤ 0 → 0 ≤ cr A.sum B.sum := by
    intro hg
    rw [hD, cr_add_left, cr_self, cr_swap B.sum A.sum] at hg
    omega
  have goalB : 0 ≤ cr D B.sum → 0 ≤ cr A.sum B.sum := by
    intro hg
    rw [hD, cr_add_left, cr_self] at hg
    omega
  have hZ : (Z2 ++ Z1).sum = -D := by
    rw [e] at h0
    simp only [List.sum_append] at h0 ⊢
    rw [hD]
    refine eq_neg_of_add_eq_zero_left ?_
    rw [← h0]; abel
  obtain ⟨L1, L2, P, Q, hl, hr, hf⟩ := rebase h hne
  have hPQ : (P ++ Q).sum = 0 := by
    rw [← hr, List.sum_append, add_comm, ← List.sum_append, ← hl, h0]
  have hs : (A ++ B).sum = D := by rw [List.sum_append, hD]
  rw [hl] at e
  -- where is the cut
  rcases List.append_eq_append_iff.1 e with ⟨a, ha, hL2⟩ | ⟨c, hL1, hZ2⟩
  · -- `Z1 ++ A ++ B = L1 ++ a`
    rcases List.append_eq_append_iff.1 ha with ⟨b, hL1, hB⟩ | ⟨b, hb, ha'⟩
    · -- `L1 = Z1 ++ A ++ b`, `B = b ++ a`
      refine goal (fan_wrapB hf hne (B1 := b) (B2 := a) (Z := Z2 ++ Z1) ?_ hZ)
      rw [← hr, hL2, hL1]; simp
    · -- `Z1 ++ A = L1 ++ b`, `a = b ++ B`
      rcases List.append_eq_append_iff.1 hb with ⟨d, hd, hb'⟩ | ⟨d, hd, hb'⟩
      · -- `L1 = Z1 ++ d`, `A = d ++ b`
        refine goalB (fan_wrapA hf hne (A1 := d) (A2 := b) (Z := Z2 ++ Z1) ?_ hZ)
        rw [← hr, hL2, ha', hd]; simp
      · -- `Z1 = L1 ++ d`, `b = d ++ A`
        refine goal (fan_inner hf (Y := d) (Z := Z2 ++ L1) ?_ hPQ hs)
        rw [← hr, hL2, ha', hb']; simp
  · -- `L1 = Z1 ++ A ++ B ++ c`
    refine goal (fan_inner hf (Y := L2 ++ Z1) (Z := c) ?_ hPQ hs)
    rw [← hr, hL1]; simp

end ICPC.Cyc
