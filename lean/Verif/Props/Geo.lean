import Verif.Model.Geo
import Verif.Spec.Geo
import Verif.Lemmas.Shuffle
import Mathlib.Tactic.LinearCombination
import Mathlib.Tactic.Linarith
import Mathlib.Tactic.NormNum

/-!
# C29, C30: convexity and orientation of polygons
-/

namespace ICPC.Props
open ICPC ICPC.Spec

/-- A point with coordinates of absolute value at most `2^30 - 1`. -/
def SmallPt (p : Pt) : Prop := (-1073741823 ≤ p.1 ∧ p.1 ≤ 1073741823) ∧ -1073741823 ≤ p.2 ∧ p.2 ≤ 1073741823

theorem chk_in {x : Int} (h1 : -9223372036854775808 ≤ x) (h2 : x < 9223372036854775808) : chk x = .ok x :=
  chk_ok (i64_mk h1 h2)

theorem mul_bound {x y B : Int}  (hx : -B ≤ x ∧ x ≤ B) (hy : -B ≤ y ∧ y ≤ B) : -(B * B) ≤ x * y ∧ x * y ≤ B * B := by
  obtain ⟨h1, h2⟩ := hx
  obtain ⟨h3, h4⟩ := hy
  constructor <;> nlinarith [mul_nonneg (by linarith : 0 ≤ B - x) (by linarith : 0 ≤ B - y),
    mul_nonneg (by linarith : 0 ≤ B + x) (by linarith : 0 ≤ B + y), mul_nonneg (by linarith : 0 ≤ B - x) (by linarith : 0 ≤ B + y),
    mul_nonneg (by linarith : 0 ≤ B + x) (by linarith : 0 ≤ B - y)]

/-- The value of `cross(a, b)`. -/
def crossV (a b : Pt) : Int := a.1 * b.2 - a.2 * b.1

theorem crossO_ok {a b : Pt} {B : Int} (hB : 0 ≤ B) (hB2 : B ≤ 2147483646) (ha : (-B ≤ a.1 ∧ a.1 ≤ B) ∧ -B ≤ a.2 ∧ a.2 ≤ B)
    (hb : (-B ≤ b.1 ∧ b.1 ≤ B) ∧ -B ≤ b.2 ∧ b.2 ≤ B) :
    crossO a b = .ok (crossV a b) := by
  have h1 := mul_bound ha.1 hb.2
  have h2 := mul_bound ha.2 hb.1
  have h3 : B * B ≤ 2147483646 * 2147483646 := Int.mul_le_mul hB2 hB2 hB (by norm_num)
  unfold crossO
  rw [chk_in (by omega) (by omega), ok_bind, chk_in (by omega) (by omega), ok_bind, chk_in (by omega) (by omega)]
  rfl

theorem crossP_ok {p a b : Pt} (hp : SmallPt p) (ha : SmallPt a) (hb : SmallPt b) : crossP p a b = .ok (turn p a b) := by
  obtain ⟨⟨p1, p2⟩, p3, p4⟩ := hp
  obtain ⟨⟨a1, a2⟩, a3, a4⟩ := ha
  obtain ⟨⟨b1, b2⟩, b3, b4⟩ := hb
  unfold crossP
  rw [chk_in (by omega) (by omega), ok_bind, chk_in (by omega) (by omega), ok_bind, chk_in (by omega) (by omega), ok_bind,
    chk_in (by omega) (by omega), ok_bind, crossO_ok (B := 2147483646) (by norm_num) le_rfl ⟨⟨by dsimp only; omega, by dsimp only; omega⟩, by dsimp only; omega, by dsimp only; omega⟩
    ⟨⟨by dsimp only; omega, by dsimp only; omega⟩, by dsimp only; omega, by dsimp only; omega⟩]
  rfl

theorem assertAbs_ok {x : Int} (h : -1073741823 ≤ x ∧ x ≤ 1073741823) : assertAbs x = .ok () := by
  unfold assertAbs
  rw [chk_in (by omega) (by omega), ok_bind, decide_eq_true (by omega), judgeAssert_true]

theorem assertAbs_bad {x : Int} (h64 : I64 x) (hm : x ≠ -9223372036854775808) (h : ¬ (-1073741823 ≤ x ∧ x ≤ 1073741823)) :
    assertAbs x = .error .throw := by
  have := h64.1; have := h64.2
  unfold assertAbs
  rw [chk_in (by omega) (by omega), ok_bind, decide_eq_false (by omega), judgeAssert_false]

theorem assertBounds_ok : ∀ {pts : List Pt}, SmallCoordinates pts → assertBounds pts = .ok () := by
  intro pts
  induction pts with
  | nil => intro _; rfl
  | cons p ps ih =>
    intro h
    unfold assertBounds
    have hp := h p (by simp)
    rw [assertAbs_ok hp.1, ok_bind, assertAbs_ok hp.2, ok_bind, ih fun q hq => h q (by simp [hq])]

theorem assertBounds_bad : ∀ {pts : List Pt}, (∀ p ∈ pts, (I64 p.1 ∧ p.1 ≠ -9223372036854775808) ∧ I64 p.2 ∧ p.2 ≠ -9223372036854775808) →
    ¬ SmallCoordinates pts → assertBounds pts = .error .throw := by
  intro pts
  induction pts with
  | nil => intro _ h; exact absurd (by intro p hp; cases hp) h
  | cons p ps ih =>
    intro h64 h
    have hp := h64 p (by simp)
    unfold assertBounds
    by_cases h1 : -1073741823 ≤ p.1 ∧ p.1 ≤ 1073741823
    · rw [assertAbs_ok h1, ok_bind]
      by_cases h2 : -1073741823 ≤ p.2 ∧ p.2 ≤ 1073741823
      · rw [assertAbs_ok h2, ok_bind]
        apply ih fun q hq => h64 q (by simp [hq])
        intro hs
        apply h
        intro q hq
        rcases List.mem_cons.1 hq with rfl | hq
        · exact ⟨h1, h2⟩
        · exact hs q hq
      · rw [assertAbs_bad hp.2.1 hp.2.2 h2]; rfl
    · rw [assertAbs_bad hp.1.1 hp.1.2 h1]; rfl

/-- The `i`-th vertex, cyclically. -/
def cyc (pts : List Pt) (i : Nat) : Pt := pts.getD (i % pts.length) (0, 0)

theorem cyc_lt {pts : List Pt} {i : Nat} (h : i < pts.length) : cyc pts i = pts[i] := by
  unfold cyc
  rw [Nat.mod_eq_of_lt h, List.getD_eq_getElem?_getD, List.getElem?_eq_getElem h]; rfl

theorem cyc_add_length (pts : List Pt) (i : Nat) : cyc pts (i + pts.length) = cyc pts i := by
  unfold cyc; rw [Nat.add_mod_right]

theorem cyc_mod (pts : List Pt) (i : Nat) : cyc pts (i % pts.length) = cyc pts i := by
  unfold cyc; rw [Nat.mod_mod]

theorem ptAt_cyc {pts : List Pt} (i : Nat) (h : 0 < pts.length) : ptAt pts (i % pts.length) = .ok (cyc pts i) := by
  unfold ptAt cyc
  rw [List.getD_eq_getElem?_getD, List.getElem?_eq_getElem (Nat.mod_lt _ h)]; rfl

theorem ptAt_lt {pts : List Pt} {i : Nat} (h : i < pts.length) : ptAt pts i = .ok (cyc pts i) := by
  have := ptAt_cyc (pts := pts) i (by omega)
  rwa [Nat.mod_eq_of_lt h] at this

theorem cyc_mem {pts : List Pt} (i : Nat) (h : 0 < pts.length) : cyc pts i ∈ pts := by
  unfold cyc
  rw [List.getD_eq_getElem?_getD, List.getElem?_eq_getElem (Nat.mod_lt _ h)]
  exact List.getElem_mem _

/-- What one iteration of the loop of `isConvex` demands. -/
def LocalOk (pts : List Pt) (i : Nat) : Prop :=
  cyc pts i ≠ cyc pts (i + 1) ∧ 0 ≤ turn (cyc pts 0) (cyc pts i) (cyc pts (i + 1)) ∧
    0 ≤ turn (cyc pts i) (cyc pts (i + 1)) (cyc pts (i + 2))

theorem isConvexLoop_spec {pts : List Pt} (hs : SmallCoordinates pts) (hn : 0 < pts.length) : ∀ r, r ≤ pts.length → ∀ h,
    ∃ b, isConvexLoop pts pts.length r h = .ok b ∧ (b = true ↔ (∀ i, pts.length - r ≤ i → i < pts.length → LocalOk pts i) ∧
      (h = true ∨ ∃ i, pts.length - r ≤ i ∧ i < pts.length ∧ turn (cyc pts i) (cyc pts (i + 1)) (cyc pts (i + 2)) ≠ 0)) := by
  intro r
  induction r with
  | zero =>
    intro _ h
    refine ⟨h, rfl, ?_⟩
    constructor
    · intro hh; exact ⟨fun i h1 h2 => by omega, Or.inl hh⟩
    · rintro ⟨_, hh | ⟨i, h1, h2, _⟩⟩
      · exact hh
      · omega
  | succ r ih =>
    intro hr h
    obtain ⟨i, hi⟩ : ∃ i, i = pts.length - (r + 1) := ⟨_, rfl⟩
    have hlt : i < pts.length := by omega
    have sm : ∀ j, SmallPt (cyc pts j) := fun j => hs _ (cyc_mem j hn)
    unfold isConvexLoop
    dsimp only
    rw [← hi, ptAt_lt hlt, ok_bind, ptAt_cyc _ hn, ok_bind]
    by_cases heq : cyc pts i = cyc pts (i + 1)
    · rw [if_pos heq]
      refine ⟨false, rfl, by simp, ?_⟩
      rintro ⟨hall, _⟩
      exact absurd heq (hall i le_rfl hlt).1
    · rw [if_neg heq, ptAt_lt hn, ok_bind, crossP_ok (sm _) (sm _) (sm _), ok_bind]
      by_cases h1 : turn (cyc pts 0) (cyc pts i) (cyc pts (i + 1)) < 0
      · rw [if_pos h1]
        refine ⟨false, rfl, by simp, ?_⟩
        rintro ⟨hall, _⟩
        have := (hall i le_rfl hlt).2.1
        omega
      · rw [if_neg h1, ptAt_cyc _ hn, ok_bind, crossP_ok (sm _) (sm _) (sm _), ok_bind]
        by_cases h2 : turn (cyc pts i) (cyc pts (i + 1)) (cyc pts (i + 2)) < 0
        · rw [if_pos h2]
          refine ⟨false, rfl, by simp, ?_⟩
          rintro ⟨hall, _⟩
          have := (hall i le_rfl hlt).2.2
          omega
        · rw [if_neg h2]
          obtain ⟨b, hb, hiff⟩ := ih (by omega) (h || decide (turn (cyc pts i) (cyc pts (i + 1)) (cyc pts (i + 2)) ≠ 0))
          refine ⟨b, hb, hiff.trans ?_⟩
          have hnext : pts.length - r = i + 1 := by omega
          rw [hnext]
          constructor
          · rintro ⟨hall, hex⟩
            refine ⟨fun j hj1 hj2 => ?_, ?_⟩
            · rcases Nat.eq_or_lt_of_le hj1 with rfl | hj
              · exact ⟨heq, by omega, by omega⟩
              · exact hall j hj hj2
            · rcases hex with hex | ⟨j, hj1, hj2, hj3⟩
              · rcases Bool.or_eq_true _ _ ▸ hex with hex | hex
                · exact Or.inl hex
                · exact Or.inr ⟨i, le_rfl, hlt, of_decide_eq_true hex⟩
              · exact Or.inr ⟨j, by omega, hj2, hj3⟩
          · rintro ⟨hall, hex⟩
            refine ⟨fun j hj1 hj2 => hall j (by omega) hj2, ?_⟩
            rcases hex with hex | ⟨j, hj1, hj2, hj3⟩
            · exact Or.inl (by rw [hex]; rfl)
            · rcases Nat.eq_or_lt_of_le hj1 with rfl | hj
              · exact Or.inl (by rw [decide_eq_true hj3, Bool.or_true])
              · exact Or.inr ⟨j, hj, hj2, hj3⟩

theorem isConvex_spec {pts : List Pt} (hs : SmallCoordinates pts) : ∃ b, isConvex pts = .ok b ∧
    (b = true ↔ 3 ≤ pts.length ∧ (∀ i, i < pts.length → LocalOk pts i) ∧
      ∃ i, i < pts.length ∧ turn (cyc pts i) (cyc pts (i + 1)) (cyc pts (i + 2)) ≠ 0) := by
  unfold isConvex
  rw [assertBounds_ok hs, ok_bind]
  by_cases h3 : pts.length < 3
  · rw [if_pos h3]
    exact ⟨false, rfl, by simp, fun h => by omega⟩
  · rw [if_neg h3]
    obtain ⟨b, hb, hiff⟩ := isConvexLoop_spec hs (by omega) pts.length le_rfl false
    refine ⟨b, hb, hiff.trans ?_⟩
    rw [Nat.sub_self]
    constructor
    · rintro ⟨h1, h2 | ⟨i, _, h2⟩⟩
      · cases h2
      · exact ⟨by omega, fun i hi => h1 i (Nat.zero_le _) hi, i, h2⟩
    · rintro ⟨_, h1, i, h2⟩
      exact ⟨fun i _ hi => h1 i hi, Or.inr ⟨i, Nat.zero_le _, h2⟩⟩

theorem noStraightLoop_spec {pts : List Pt} (hs : SmallCoordinates pts) (hn : 0 < pts.length) : ∀ r, r ≤ pts.length →
    ∃ b, noStraightLoop pts pts.length r = .ok b ∧ (b = true ↔ ∀ i, pts.length - r ≤ i → i < pts.length →
      turn (cyc pts i) (cyc pts (i + 1)) (cyc pts (i + 2)) ≠ 0) := by
  intro r
  induction r with
  | zero => intro _; exact ⟨true, rfl, by simp; omega⟩
  | succ r ih =>
    intro hr
    obtain ⟨i, hi⟩ : ∃ i, i = pts.length - (r + 1) := ⟨_, rfl⟩
    have hlt : i < pts.length := by omega
    have sm : ∀ j, SmallPt (cyc pts j) := fun j => hs _ (cyc_mem j hn)
    unfold noStraightLoop
    dsimp only
    rw [← hi, ptAt_lt hlt, ok_bind, ptAt_cyc _ hn, ok_bind, ptAt_cyc _ hn, ok_bind, crossP_ok (sm _) (sm _) (sm _), ok_bind]
    by_cases h : turn (cyc pts i) (cyc pts (i + 1)) (cyc pts (i + 2)) = 0
    · rw [if_pos h]
      exact ⟨false, rfl, by simp, fun hall => absurd h (hall i le_rfl hlt)⟩
    · rw [if_neg h]
      obtain ⟨b, hb, hiff⟩ := ih (by omega)
      refine ⟨b, hb, hiff.trans ?_⟩
      rw [show pts.length - r = i + 1 by omega]
      constructor
      · intro hall j h1 h2
        rcases Nat.eq_or_lt_of_le h1 with rfl | hj
        · exact h
        · exact hall j hj h2
      · intro hall j h1 h2
        exact hall j (by omega) h2

theorem isStrictlyConvex_spec {pts : List Pt} (hs : SmallCoordinates pts) : ∃ b, isStrictlyConvex pts = .ok b ∧
    (b = true ↔ 3 ≤ pts.length ∧ (∀ i, i < pts.length → LocalOk pts i) ∧
      ∀ i, i < pts.length → turn (cyc pts i) (cyc pts (i + 1)) (cyc pts (i + 2)) ≠ 0) := by
  obtain ⟨b, hb, hiff⟩ := isConvex_spec hs
  unfold isStrictlyConvex
  rw [hb, ok_bind]
  cases b with
  | false =>
    refine ⟨false, rfl, by simp, ?_⟩
    rintro ⟨h1, h2, h3⟩
    exact absurd (hiff.2 ⟨h1, h2, 0, by omega, h3 0 (by omega)⟩) (by simp)
  | true =>
    obtain ⟨h1, h2, _⟩ := hiff.1 rfl
    obtain ⟨b, hb, hiff'⟩ := noStraightLoop_spec hs (by omega) pts.length le_rfl
    refine ⟨b, hb, hiff'.trans ?_⟩
    rw [Nat.sub_self]
    exact ⟨fun h => ⟨h1, h2, fun i hi => h i (Nat.zero_le _) hi⟩, fun h i _ hi => h.2.2 i hi⟩

theorem turn_rot (a b c : Pt) : turn a b c = turn b c a := by unfold turn; ring

theorem turn_self (a b : Pt) : turn a b a = 0 := by unfold turn; ring

theorem turn_self' (a b : Pt) : turn a a b = 0 := by unfold turn; ring

/-- Four points and the fan centre. -/
theorem turn_four (o a b c d : Pt) : turn a b d * turn o b c = turn a b c * turn o b d + turn o a b * turn b c d := by
  unfold turn; ring

theorem turn_four' (o a b c d : Pt) : turn a c d * turn o b c = turn b c d * turn o a c + turn o c d * turn a b c := by
  unfold turn; ring

/-- From local turns to all turns, along points `f 0, f 1, ...` seen from the first one in strictly growing
direction. -/
theorem local_to_global (f : Nat → Pt) (n : Nat) (hfan : ∀ i j, 1 ≤ i → i < j → j < n → 0 < turn (f 0) (f i) (f j))
    (hloc : ∀ i, i + 2 < n → 0 ≤ turn (f i) (f (i + 1)) (f (i + 2))) :
    ∀ m i j k, i < j → j < k → k < n → k - i ≤ m → 0 ≤ turn (f i) (f j) (f k) := by
  intro m
  induction m with
  | zero => intro i j k h1 h2 h3 h4; omega
  | succ m ih =>
    intro i j k h1 h2 h3 h4
    rcases Nat.eq_zero_or_pos i with rfl | hi
    · exact (hfan j k (by omega) h2 h3).le
    by_cases hj : j = i + 1
    · subst hj
      by_cases hk : k = i + 2
      · subst hk; exact hloc i h3
      · have key := turn_four (f 0) (f i) (f (i + 1)) (f (k - 1)) (f k)
        have p1 := hfan (i + 1) (k - 1) (by omega) (by omega) (by omega)
        have p2 := hfan (i + 1) k (by omega) (by omega) (by omega)
        have p3 := hfan i (i + 1) (by omega) (by omega) (by omega)
        have q1 := ih i (i + 1) (k - 1) (by omega) (by omega) (by omega) (by omega)
        have q2 := ih (i + 1) (k - 1) k (by omega) (by omega) (by omega) (by omega)
        by_contra hneg
        have := mul_neg_of_neg_of_pos (not_le.1 hneg) p1
        have := mul_nonneg q1 p2.le
        have := mul_nonneg p3.le q2
        linarith
    · have key := turn_four' (f 0) (f i) (f (i + 1)) (f j) (f k)
      have p1 := hfan (i + 1) j (by omega) (by omega) (by omega)
      have p2 := hfan i j (by omega) (by omega) (by omega)
      have p3 := hfan j k (by omega) (by omega) (by omega)
      have q1 := ih (i + 1) j k (by omega) (by omega) (by omega) (by omega)
      have q2 := ih i (i + 1) j (by omega) (by omega) (by omega) (by omega)
      by_contra hneg
      have := mul_neg_of_neg_of_pos (not_le.1 hneg) p1
      have := mul_nonneg q1 p2.le
      have := mul_nonneg p3.le q2
      linarith

theorem local_to_global_strict (f : Nat → Pt) (n : Nat) (hfan : ∀ i j, 1 ≤ i → i < j → j < n → 0 < turn (f 0) (f i) (f j))
    (hloc : ∀ i, i + 2 < n → 0 < turn (f i) (f (i + 1)) (f (i + 2))) :
    ∀ m i j k, i < j → j < k → k < n → k - i ≤ m → 0 < turn (f i) (f j) (f k) := by
  intro m
  induction m with
  | zero => intro i j k h1 h2 h3 h4; omega
  | succ m ih =>
    intro i j k h1 h2 h3 h4
    rcases Nat.eq_zero_or_pos i with rfl | hi
    · exact hfan j k (by omega) h2 h3
    by_cases hj : j = i + 1
    · subst hj
      by_cases hk : k = i + 2
      · subst hk; exact hloc i h3
      · have key := turn_four (f 0) (f i) (f (i + 1)) (f (k - 1)) (f k)
        have p1 := hfan (i + 1) (k - 1) (by omega) (by omega) (by omega)
        have p2 := hfan (i + 1) k (by omega) (by omega) (by omega)
        have p3 := hfan i (i + 1) (by omega) (by omega) (by omega)
        have q1 := ih i (i + 1) (k - 1) (by omega) (by omega) (by omega) (by omega)
        have q2 := ih (i + 1) (k - 1) k (by omega) (by omega) (by omega) (by omega)
        by_contra hneg
        have := mul_nonpos_of_nonpos_of_nonneg (not_lt.1 hneg) p1.le
        have := mul_pos q1 p2
        have := mul_pos p3 q2
        linarith
    · have key := turn_four' (f 0) (f i) (f (i + 1)) (f j) (f k)
      have p1 := hfan (i + 1) j (by omega) (by omega) (by omega)
      have p2 := hfan i j (by omega) (by omega) (by omega)
      have p3 := hfan j k (by omega) (by omega) (by omega)
      have q1 := ih (i + 1) j k (by omega) (by omega) (by omega) (by omega)
      have q2 := ih i (i + 1) j (by omega) (by omega) (by omega) (by omega)
      by_contra hneg
      have := mul_nonpos_of_nonpos_of_nonneg (not_lt.1 hneg) p1.le
      have := mul_pos q1 p2
      have := mul_pos p3 q2
      linarith

/-- Directions from the fan centre `o`, all on one side of the direction of `u`. -/
theorem turn_trans (o u a b c : Pt) : turn o u b * turn o a c = turn o u a * turn o b c + turn o u c * turn o a b := by
  unfold turn; ring

/-- A fan of strictly left turns in which the centre's neighbours see all directions grow. -/
theorem fan_sorted (f : Nat → Pt) (n : Nat) (hside : ∀ j, 2 ≤ j → j < n → 0 < turn (f 0) (f 1) (f j))
    (hstep : ∀ i, 1 ≤ i → i + 1 < n → 0 < turn (f 0) (f i) (f (i + 1))) :
    ∀ j i, 1 ≤ i → i < j → j < n → 0 < turn (f 0) (f i) (f j) := by
  intro j
  induction j with
  | zero => intro i _ h; omega
  | succ j ih =>
    intro i h1 h2 h3
    by_cases hi1 : i = 1
    · subst hi1; exact hside _ (by omega) h3
    by_cases hij : i = j
    · subst hij; exact hstep i h1 h3
    have key := turn_trans (f 0) (f 1) (f i) (f j) (f (j + 1))
    have p1 := hside j (by omega) (by omega)
    have p2 := hside i (by omega) (by omega)
    have p3 := hside (j + 1) (by omega) (by omega)
    have q1 := hstep j (by omega) h3
    have q2 := ih i h1 (by omega) (by omega)
    by_contra hneg
    have := mul_nonpos_of_nonneg_of_nonpos p1.le (not_lt.1 hneg)
    have := mul_pos p2 q1
    have := mul_pos p3 q2
    linarith

/-- No two neighbours are in the same direction from the centre. -/
theorem fan_strict (f : Nat → Pt) (n : Nat) (hside : ∀ j, 2 ≤ j → j < n → 0 < turn (f 0) (f 1) (f j))
    (hstep : ∀ i, 1 ≤ i → i + 1 < n → 0 ≤ turn (f 0) (f i) (f (i + 1)))
    (hloc : ∀ i, i + 2 < n → 0 < turn (f i) (f (i + 1)) (f (i + 2)))
    (hlast : ∀ i, i + 2 = n → 0 < turn (f i) (f (i + 1)) (f 0)) :
    ∀ i, 1 ≤ i → i + 1 < n → 0 < turn (f 0) (f i) (f (i + 1)) := by
  intro i
  induction i with
  | zero => intro h; omega
  | succ i ih =>
    intro _ h2
    by_cases hi : i = 0
    · subst hi; exact hside 2 le_rfl h2
    have hprev := ih (by omega) (by omega)
    have hge := hstep (i + 1) (by omega) h2
    by_contra hneg
    have h0 : turn (f 0) (f (i + 1)) (f (i + 2)) = 0 := le_antisymm (not_lt.1 hneg) hge
    by_cases hl : i + 3 = n
    · have := hlast (i + 1) (by omega)
      rw [show turn (f (i + 1)) (f (i + 1 + 1)) (f 0) = turn (f 0) (f (i + 1)) (f (i + 1 + 1)) from (turn_rot _ _ _).symm] at this
      exact hneg this
    · have l1 := hloc i (by omega)
      have l2 := hloc (i + 1) (by omega)
      have hge2 := hstep (i + 2) (by omega) (by omega)
      have s1 := hside (i + 1) (by omega) (by omega)
      have s2 := hside (i + 2) (by omega) (by omega)
      have s3 := hside (i + 3) (by omega) (by omega)
      have e : i + 1 + 1 = i + 2 := rfl
      have e' : i + 1 + 2 = i + 3 := rfl
      have e'' : i + 2 + 1 = i + 3 := rfl
      rw [e, e'] at l2
      rw [e''] at hge2
      -- the fourth point is not to the right of the common direction
      have hac : 0 ≤ turn (f 0) (f (i + 1)) (f (i + 3)) := by
        have key := turn_trans (f 0) (f 1) (f (i + 1)) (f (i + 2)) (f (i + 3))
        rw [h0, mul_zero, add_zero] at key
        by_contra hn
        have := mul_neg_of_pos_of_neg s2 (not_le.1 hn)
        have := mul_nonneg s1.le hge2
        linarith
      have k1 := turn_four (f 0) (f i) (f (i + 1)) (f (i + 2)) (f (i + 3))
      have k2 := turn_four' (f 0) (f i) (f (i + 1)) (f (i + 2)) (f (i + 3))
      rw [h0, mul_zero] at k1
      have := mul_nonneg l1.le hac
      have := mul_pos hprev l2
      linarith

/-- Being accepted, and all vertices being to the left of the first edge, in terms of `cyc`. -/
theorem strict_of_accepted {pts : List Pt} (h3 : 3 ≤ pts.length) (hl : ∀ i, i < pts.length → LocalOk pts i)
    (hne : ∀ i, i < pts.length → turn (cyc pts i) (cyc pts (i + 1)) (cyc pts (i + 2)) ≠ 0)
    (hside : ∀ j, 2 ≤ j → j < pts.length → 0 < turn (cyc pts 0) (cyc pts 1) (cyc pts j)) :
    StrictlyConvexPolygon pts := by
  have hloc : ∀ i, i < pts.length → 0 < turn (cyc pts i) (cyc pts (i + 1)) (cyc pts (i + 2)) :=
    fun i hi => lt_of_le_of_ne (hl i hi).2.2 (Ne.symm (hne i hi))
  have hstep := fan_strict (cyc pts) pts.length hside (fun i _ h => (hl i (by omega)).2.1) (fun i h => hloc i (by omega))
    (fun i h => by
      have := hloc i (by omega)
      rw [h] at this
      rwa [show cyc pts pts.length = cyc pts 0 by have := cyc_add_length pts 0; rwa [Nat.zero_add] at this] at this)
  have hfan := fan_sorted (cyc pts) pts.length hside hstep
  refine ⟨h3, fun i j k hi hj hk hij hjk => ?_⟩
  have := local_to_global_strict (cyc pts) pts.length (fun i j h1 h2 h3 => hfan j i h1 h2 h3) (fun i h => hloc i (by omega))
    (k - i) i j k hij hjk hk le_rfl
  rwa [cyc_lt hi, cyc_lt hj, cyc_lt hk] at this

/-- Consecutive vertices of a cyclic list as an ordered triple. -/
theorem cyc_triple {pts : List Pt} (h3 : 3 ≤ pts.length) (i : Nat) (hi : i < pts.length) :
    ∃ a b c, ∃ (_ : a < b) (_ : b < c) (hc : c < pts.length),
      turn (cyc pts i) (cyc pts (i + 1)) (cyc pts (i + 2)) = turn (pts[a]'(by omega)) (pts[b]'(by omega)) pts[c] := by
  by_cases h1 : i + 2 < pts.length
  · exact ⟨i, i + 1, i + 2, by omega, by omega, h1, by rw [cyc_lt, cyc_lt, cyc_lt]⟩
  · have e0 : ∀ j, j < pts.length → cyc pts (pts.length + j) = cyc pts j := fun j _ => by rw [Nat.add_comm]; exact cyc_add_length pts j
    by_cases h2 : i + 2 = pts.length
    · refine ⟨0, i, i + 1, by omega, by omega, by omega, ?_⟩
      rw [h2, show cyc pts pts.length = cyc pts 0 from e0 0 (by omega), cyc_lt, cyc_lt, cyc_lt (i := 0), turn_rot, turn_rot]
    · have h4 : i + 1 = pts.length := by omega
      refine ⟨0, 1, i, by omega, by omega, by omega, ?_⟩
      rw [show i + 2 = pts.length + 1 by omega, h4, e0 1 (by omega), show cyc pts pts.length = cyc pts 0 from e0 0 (by omega),
        cyc_lt hi, cyc_lt (i := 0), cyc_lt (i := 1), turn_rot]

theorem fan_triple {pts : List Pt} (h3 : 3 ≤ pts.length) (hc : ∀ i j k (hi : i < pts.length) (hj : j < pts.length) (hk : k < pts.length), i < j → j < k →
    0 ≤ turn pts[i] pts[j] pts[k]) (i : Nat) (hi : i < pts.length) : 0 ≤ turn (cyc pts 0) (cyc pts i) (cyc pts (i + 1)) := by
  rcases Nat.eq_zero_or_pos i with rfl | hpos
  · rw [turn_self']
  by_cases h1 : i + 1 < pts.length
  · rw [cyc_lt (by omega), cyc_lt hi, cyc_lt h1]
    exact hc 0 i (i + 1) (by omega) hi h1 hpos (by omega)
  · rw [show cyc pts (i + 1) = cyc pts 0 by
      rw [show i + 1 = 0 + pts.length by omega]; exact cyc_add_length pts 0, turn_self]

theorem cyc_succ_ne {pts : List Pt} (h : ∀ i (hi : i < pts.length), pts[i] ≠ pts[(i + 1) % pts.length]'(Nat.mod_lt _ (by omega)))
    (i : Nat) (hi : i < pts.length) : cyc pts i ≠ cyc pts (i + 1) := by
  rw [← cyc_mod pts (i + 1), cyc_lt hi, cyc_lt (Nat.mod_lt _ (by omega))]
  exact h i hi

/-- **C29.** `isStrictlyConvex` returns on every polygon with coordinates in `[-(2^30-1), 2^30-1]`.  It accepts
every strictly convex polygon that is listed counter-clockwise, and a polygon that it accepts is strictly convex if
all further vertices are to the left of the first edge.  The full claim is without this condition; it is false then
(`C29_winding_refuted`). -/
theorem C29_isStrictlyConvex_partial (pts : List Pt) (hs : SmallCoordinates pts) :
    ∃ b, isStrictlyConvex pts = .ok b ∧ (StrictlyConvexPolygon pts → b = true) ∧
      (b = true → (∀ (h : 3 ≤ pts.length) j (hj : j < pts.length), 2 ≤ j → 0 < turn pts[0] pts[1] pts[j]) → StrictlyConvexPolygon pts) := by
  obtain ⟨b, hb, hiff⟩ := isStrictlyConvex_spec hs
  refine ⟨b, hb, ?_, ?_⟩
  · rintro ⟨h3, hc⟩
    have hle : ∀ i j k (hi : i < pts.length) (hj : j < pts.length) (hk : k < pts.length), i < j → j < k →
        0 ≤ turn pts[i] pts[j] pts[k] := fun i j k hi hj hk h1 h2 => (hc i j k hi hj hk h1 h2).le
    have hpos : ∀ i, i < pts.length → 0 < turn (cyc pts i) (cyc pts (i + 1)) (cyc pts (i + 2)) := by
      intro i hi
      obtain ⟨a, b, c, h1, h2, h4, e⟩ := cyc_triple h3 i hi
      rw [e]; exact hc a b c (by omega) (by omega) h4 h1 h2
    refine hiff.2 ⟨h3, fun i hi => ⟨?_, fan_triple h3 hle i hi, (hpos i hi).le⟩, fun i hi => (hpos i hi).ne'⟩
    intro heq
    have := hpos i hi
    rw [heq, turn_self'] at this
    omega
  · intro hbt hside
    obtain ⟨h3, hl, hne⟩ := hiff.1 hbt
    refine strict_of_accepted h3 hl hne fun j h1 h2 => ?_
    rw [cyc_lt (by omega), cyc_lt (by omega), cyc_lt h2]
    exact hside h3 j h2 h1

/-- The same as an exact characterisation: a polygon is strictly convex iff it is accepted and lies to the left of its
first edge. -/
theorem C29_isStrictlyConvex_left (pts : List Pt) (hs : SmallCoordinates pts) :
    StrictlyConvexPolygon pts ↔ isStrictlyConvex pts = .ok true ∧
      ∀ (h : 3 ≤ pts.length) j (hj : j < pts.length), 2 ≤ j → 0 < turn pts[0] pts[1] pts[j] := by
  obtain ⟨b, hb, h1, h2⟩ := C29_isStrictlyConvex_partial pts hs
  constructor
  · intro h
    refine ⟨by rw [hb, h1 h], fun h3 j hj hj2 => h.2 0 1 j (by omega) (by omega) hj (by omega) (by omega)⟩
  · rintro ⟨h3, h4⟩
    rw [hb] at h3
    injection h3 with h3
    exact h2 h3 h4

theorem collinear_all {pts : List Pt} (hne : ∀ i, i < pts.length → cyc pts i ≠ cyc pts (i + 1))
    (h0 : ∀ i, i < pts.length → turn (cyc pts i) (cyc pts (i + 1)) (cyc pts (i + 2)) = 0) :
    ∀ i, i < pts.length → turn (cyc pts 0) (cyc pts 1) (cyc pts i) = 0 := by
  have key : ∀ i, i + 1 < pts.length + 1 → turn (cyc pts 0) (cyc pts 1) (cyc pts i) = 0 ∧ turn (cyc pts 0) (cyc pts 1) (cyc pts (i + 1)) = 0 := by
    intro i
    induction i with
    | zero =>
      intro _
      exact ⟨turn_self _ _, by unfold turn; ring⟩
    | succ i ih =>
      intro h
      obtain ⟨e1, e2⟩ := ih (by omega)
      refine ⟨e2, ?_⟩
      have e3 := h0 i (by omega)
      have hn := hne i (by omega)
      -- the point lies on the line through the two before, which is the line of the first edge
      generalize cyc pts 0 = o at *
      generalize cyc pts 1 = u at *
      generalize cyc pts i = a at *
      generalize cyc pts (i + 1) = b at *
      rw [show i + 1 + 1 = i + 2 from rfl]
      generalize cyc pts (i + 2) = c at *
      have i1 : turn o u c * (b.1 - a.1) = 0 := by
        unfold turn at *
        linear_combination (u.1 - o.1) * e3 + (c.1 - a.1) * e2 - (c.1 - b.1) * e1
      have i2 : turn o u c * (b.2 - a.2) = 0 := by
        unfold turn at *
        linear_combination (u.2 - o.2) * e3 + (c.2 - a.2) * e2 - (c.2 - b.2) * e1
      rcases mul_eq_zero.1 i1 with h | h
      · exact h
      rcases mul_eq_zero.1 i2 with h' | h'
      · exact h'
      exact absurd (Prod.ext (by omega) (by omega)) hn
  intro i hi
  exact (key i (by omega)).1

theorem collinear_triple {o u a b c : Pt} (hn : o ≠ u) (ha : turn o u a = 0) (hb : turn o u b = 0) (hc : turn o u c = 0) : turn a b c = 0 := by
  have i1 : turn a b c * (u.1 - o.1) = 0 := by
    unfold turn at *
    linear_combination (b.1 - a.1) * hc - (c.1 - a.1) * hb + (c.1 - b.1) * ha
  have i2 : turn a b c * (u.2 - o.2) = 0 := by
    unfold turn at *
    linear_combination (b.2 - a.2) * hc - (c.2 - a.2) * hb + (c.2 - b.2) * ha
  rcases mul_eq_zero.1 i1 with h | h
  · exact h
  rcases mul_eq_zero.1 i2 with h' | h'
  · exact h'
  exact absurd (Prod.ext (by omega) (by omega)) hn

/-- **C29.** `isConvex` returns on every polygon with coordinates in `[-(2^30-1), 2^30-1]`.  It accepts every convex
polygon that is listed counter-clockwise, and a polygon that it accepts is convex if the directions from the first
vertex to the others grow strictly.  The full claim is without this condition; it is false then
(`C29_degenerate_refuted`). -/
theorem C29_isConvex_partial (pts : List Pt) (hs : SmallCoordinates pts) :
    ∃ b, isConvex pts = .ok b ∧ (ConvexPolygon pts → b = true) ∧
      (b = true → (∀ i j (hi : i < pts.length) (hj : j < pts.length), 1 ≤ i → i < j → 0 < turn (pts[0]'(by omega)) pts[i] pts[j]) →
        ConvexPolygon pts) := by
  obtain ⟨b, hb, hiff⟩ := isConvex_spec hs
  refine ⟨b, hb, ?_, ?_⟩
  · rintro ⟨h3, hc, hne, i, j, k, hi, hj, hk, hijk⟩
    have hne' := cyc_succ_ne hne
    refine hiff.2 ⟨h3, fun i hi => ⟨hne' i hi, fan_triple h3 hc i hi, ?_⟩, ?_⟩
    · obtain ⟨a, b, c, h1, h2, h4, e⟩ := cyc_triple h3 i hi
      rw [e]; exact hc a b c (by omega) (by omega) h4 h1 h2
    · by_contra hno
      have h0 : ∀ i, i < pts.length → turn (cyc pts i) (cyc pts (i + 1)) (cyc pts (i + 2)) = 0 := by
        intro i hi
        by_contra h
        exact hno ⟨i, hi, h⟩
      have hall := collinear_all hne' h0
      apply hijk
      rw [← cyc_lt hi, ← cyc_lt hj, ← cyc_lt hk]
      exact collinear_triple (hne' 0 (by omega)) (hall i hi) (hall j hj) (hall k hk)
  · intro hbt hfan
    obtain ⟨h3, hl, i, hi, hne⟩ := hiff.1 hbt
    have hfan' : ∀ i j, 1 ≤ i → i < j → j < pts.length → 0 < turn (cyc pts 0) (cyc pts i) (cyc pts j) := by
      intro i j h1 h2 h4
      rw [cyc_lt (by omega), cyc_lt (by omega), cyc_lt h4]
      exact hfan i j (by omega) h4 h1 h2
    refine ⟨h3, fun i j k hi hj hk hij hjk => ?_, fun i hi => ?_, ?_⟩
    · have := local_to_global (cyc pts) pts.length hfan' (fun i h => (hl i (by omega)).2.2) (k - i) i j k hij hjk hk le_rfl
      rwa [cyc_lt hi, cyc_lt hj, cyc_lt hk] at this
    · have := (hl i hi).1
      rwa [← cyc_mod pts (i + 1), cyc_lt hi, cyc_lt (Nat.mod_lt _ (by omega))] at this
    · obtain ⟨a, b, c, h1, h2, h4, e⟩ := cyc_triple h3 i hi
      rw [e] at hne
      exact ⟨a, b, c, by omega, by omega, h4, hne⟩

/-- Larger coordinates are rejected by throwing, by all three functions. -/
theorem C29_large_throws (pts : List Pt)
    (h64 : ∀ p ∈ pts, (I64 p.1 ∧ p.1 ≠ -9223372036854775808) ∧ I64 p.2 ∧ p.2 ≠ -9223372036854775808) (hs : ¬ SmallCoordinates pts) :
    isConvex pts = .error .throw ∧ isStrictlyConvex pts = .error .throw ∧ isCCW pts = .error .throw := by
  have h := assertBounds_bad h64 hs
  refine ⟨?_, ?_, ?_⟩
  · unfold isConvex; rw [h]; rfl
  · unfold isStrictlyConvex isConvex; rw [h]; rfl
  · unfold isCCW; rw [h]; rfl

/-- A polygon that winds twice around its first vertex is accepted as strictly convex, though it intersects itself:
its first, second and fifth vertex make a right turn. -/
theorem C29_winding_refuted :
    isStrictlyConvex [(0, 0), (10, -1), (10, 10), (-10, 10), (-10, -10), (10, -10), (10, 5)] = .ok true ∧
    ¬ StrictlyConvexPolygon [(0, 0), (10, -1), (10, 10), (-10, 10), (-10, -10), (10, -10), (10, 5)] ∧
    ¬ ConvexPolygon [(0, 0), (10, -1), (10, 10), (-10, 10), (-10, -10), (10, -10), (10, 5)] := by
  refine ⟨by decide +kernel, fun h => ?_, fun h => ?_⟩
  · exact absurd (h.2 0 1 4 (by decide) (by decide) (by decide) (by decide) (by decide)) (by decide +kernel)
  · exact absurd (h.2.1 0 1 4 (by decide) (by decide) (by decide) (by decide) (by decide)) (by decide +kernel)

/-- A walk that goes back and forth along its first edge is accepted as convex. -/
theorem C29_degenerate_refuted :
    isConvex [(0, 0), (2, 0), (1, 0), (3, 0), (3, 1)] = .ok true ∧ ¬ ConvexPolygon [(0, 0), (2, 0), (1, 0), (3, 0), (3, 1)] := by
  refine ⟨by decide +kernel, fun h => ?_⟩
  exact absurd (h.2.1 1 2 4 (by decide) (by decide) (by decide) (by decide) (by decide)) (by decide +kernel)

example : isStrictlyConvex [(0, 0), (4, 0), (5, 3), (2, 5)] = .ok true := by decide +kernel
example : isStrictlyConvex [(0, 0), (4, 0), (5, 0), (2, 5)] = .ok false := by decide +kernel
example : isConvex [(0, 0), (4, 0), (5, 0), (2, 5)] = .ok true := by decide +kernel
-- a pentagram turns left at every vertex
example : isConvex [(0, 0), (6, 5), (-2, 5), (4, 0), (2, 8)] = .ok false ∧ isStrictlyConvex [(0, 0), (6, 5), (-2, 5), (4, 0), (2, 8)] = .ok false := by
  decide +kernel
example : isConvex [(0, 0), (0, 0), (4, 0), (2, 5)] = .ok false := by decide +kernel
example : isConvex [(0, 0), (2, 5), (4, 0)] = .ok false := by decide +kernel
example : isConvex [(1073741824, 0), (2, 5), (4, 0)] = .error .throw := by decide +kernel

/-! ### C30 -/

/-- The sum of the cross products of neighbours. -/
def chainSum : List Pt → Int
  | a :: b :: rest => crossV a b + chainSum (b :: rest)
  | _ => 0

theorem chainSum_append (l : List Pt) (a b : Pt) : chainSum (l ++ [a, b]) = chainSum (l ++ [a]) + crossV a b := by
  induction l with
  | nil => simp [chainSum]
  | cons x l ih =>
    cases l with
    | nil => simp [chainSum]
    | cons y l =>
      simp only [List.cons_append] at ih ⊢
      unfold chainSum
      rw [ih]; ring

theorem crossV_swap (a b : Pt) : crossV b a = - crossV a b := by unfold crossV; ring

theorem chainSum_reverse (l : List Pt) : chainSum l.reverse = - chainSum l := by
  induction l with
  | nil => rfl
  | cons x l ih =>
    cases l with
    | nil => rfl
    | cons y l =>
      rw [List.reverse_cons, List.reverse_cons, List.append_assoc, List.singleton_append, chainSum_append, ← List.reverse_cons, ih, crossV_swap]
      simp only [chainSum]; ring

theorem turn_cross (o a b : Pt) : turn o a b = crossV o a + crossV a b - crossV o b := by unfold turn crossV; ring

theorem fanArea_chain (o : Pt) : ∀ (a : Pt) (rest : List Pt), fanArea o (a :: rest) = crossV o a + chainSum (a :: rest ++ [o]) := by
  intro a rest
  induction rest generalizing a with
  | nil => simp [fanArea, chainSum, crossV]; ring
  | cons b rest ih =>
    unfold fanArea
    rw [ih, turn_cross]
    simp only [List.cons_append, chainSum]
    ring

theorem doubleArea_chain (o : Pt) (rest : List Pt) : doubleArea (o :: rest) = chainSum (o :: rest ++ [o]) := by
  cases rest with
  | nil => simp [doubleArea, fanArea, chainSum, crossV]; ring
  | cons a rest =>
    show fanArea o (a :: rest) = _
    rw [fanArea_chain]
    simp only [List.cons_append, chainSum]

/-- The area does not depend on the vertex the list starts with. -/
theorem doubleArea_rotate_one (l : List Pt) : doubleArea (l.rotate 1) = doubleArea l := by
  cases l with
  | nil => rfl
  | cons o rest =>
    cases rest with
    | nil => rw [List.rotate_cons_succ, List.rotate_zero]; rfl
    | cons a rest =>
      rw [List.rotate_cons_succ, List.rotate_zero, doubleArea_chain, List.cons_append, doubleArea_chain]
      rw [show a :: (rest ++ [o]) ++ [a] = a :: rest ++ [o, a] by simp, chainSum_append]
      simp only [List.cons_append, chainSum]
      ring

theorem doubleArea_rotate (l : List Pt) (k : Nat) : doubleArea (l.rotate k) = doubleArea l := by
  induction k with
  | zero => rw [List.rotate_zero]
  | succ k ih => rw [← List.rotate_rotate, doubleArea_rotate_one, ih]

theorem doubleArea_reverse (l : List Pt) : doubleArea l.reverse = - doubleArea l := by
  cases l with
  | nil => rfl
  | cons o rest =>
    rw [List.reverse_cons]
    have : rest.reverse ++ [o] = (o :: rest.reverse).rotate 1 := by rw [List.rotate_cons_succ, List.rotate_zero]
    rw [this, doubleArea_rotate_one, doubleArea_chain, doubleArea_chain, ← chainSum_reverse]
    congr 1
    simp

theorem crossV_bound {B : Int} {a b : Pt} (ha : (-B ≤ a.1 ∧ a.1 ≤ B) ∧ -B ≤ a.2 ∧ a.2 ≤ B)
    (hb : (-B ≤ b.1 ∧ b.1 ≤ B) ∧ -B ≤ b.2 ∧ b.2 ≤ B) : -(2 * (B * B)) ≤ crossV a b ∧ crossV a b ≤ 2 * (B * B) := by
  have h1 := mul_bound ha.1 hb.2
  have h2 := mul_bound ha.2 hb.1
  unfold crossV
  omega

/-- The loop adds up the chain or overflows; it does not overflow for small sums. -/
theorem areaLoop_spec {B : Int} (hB : 0 ≤ B) (hB2 : B ≤ 2147483646) : ∀ (ps : List Pt) (area : Int) (p : Pt),
    (∀ q ∈ p :: ps, (-B ≤ q.1 ∧ q.1 ≤ B) ∧ -B ≤ q.2 ∧ q.2 ≤ B) →
    (areaLoop area p ps = .error .ub ∨ areaLoop area p ps = .ok (area + chainSum (p :: ps))) ∧
    (∀ C : Int, -C ≤ area → area ≤ C → C + 2 * (B * B) * ps.length < 9223372036854775808 → areaLoop area p ps = .ok (area + chainSum (p :: ps))) := by
  intro ps
  induction ps with
  | nil =>
    intro area p _
    simp [areaLoop, chainSum]
  | cons q ps ih =>
    intro area p h
    have hp := h p (by simp)
    have hq := h q (by simp)
    have hc := crossV_bound hp hq
    have hBB : 0 ≤ B * B := mul_nonneg hB hB
    have ih' := fun area => ih area q fun x hx => h x (by simp at hx ⊢; tauto)
    unfold areaLoop
    rw [crossO_ok hB hB2 hp hq, ok_bind]
    constructor
    · by_cases h64 : I64 (area + crossV p q)
      · rw [chk_ok h64, ok_bind]
        rcases (ih' (area + crossV p q)).1 with e | e
        · exact Or.inl e
        · right; rw [e]; simp only [chainSum]; congr 1; ring
      · left; unfold chk; rw [if_neg h64]; rfl
    · intro C h1 h2 h3
      rw [List.length_cons] at h3
      push_cast at h3
      have hlen : 0 ≤ 2 * (B * B) * (ps.length : Int) := by positivity
      have e3 : 2 * (B * B) * ((ps.length : Int) + 1) = 2 * (B * B) * ps.length + 2 * (B * B) := by ring
      rw [e3] at h3
      rw [chk_in (by omega) (by omega), ok_bind, (ih' (area + crossV p q)).2 (C + 2 * (B * B)) (by omega) (by omega) (by omega)]
      simp only [chainSum]; congr 1; ring

theorem isCCW_spec {B : Int} (hB : 0 ≤ B) (hB2 : B ≤ 1073741823) {pts : List Pt}
    (h : ∀ q ∈ pts, (-B ≤ q.1 ∧ q.1 ≤ B) ∧ -B ≤ q.2 ∧ q.2 ≤ B) :
    (isCCW pts = .error .ub ∨ isCCW pts = .ok (decide (0 < doubleArea pts))) ∧
    (2 * (B * B) * pts.length < 9223372036854775808 → isCCW pts = .ok (decide (0 < doubleArea pts))) := by
  have hs : SmallCoordinates pts := by
    intro q hq
    obtain ⟨⟨h1, h2⟩, h3, h4⟩ := h q hq
    exact ⟨⟨by omega, by omega⟩, by omega, by omega⟩
  unfold isCCW
  rw [assertBounds_ok hs, ok_bind]
  match pts, h with
  | [], _ => exact ⟨Or.inr rfl, fun _ => rfl⟩
  | [p], _ => exact ⟨Or.inr (by simp [doubleArea, fanArea]; rfl), fun _ => by simp [doubleArea, fanArea]; rfl⟩
  | p :: q :: ps, h =>
    have hlast := ptAt_lt (pts := p :: q :: ps) (i := ps.length + 1) (by simp)
    have hl : cyc (p :: q :: ps) (ps.length + 1) = (q :: ps).getLast (by simp) := by
      rw [cyc_lt (by simp), List.getLast_eq_getElem]; simp
    have hlm := h _ (cyc_mem (pts := p :: q :: ps) (ps.length + 1) (by simp))
    have hp := h p (by simp)
    have hbnd := crossV_bound hlm hp
    rw [hl] at hlast hlm hbnd
    dsimp only
    rw [hlast, ok_bind, crossO_ok hB (by omega) hlm hp, ok_bind]
    have harea : crossV ((q :: ps).getLast (by simp)) p + chainSum (p :: q :: ps) = doubleArea (p :: q :: ps) := by
      rw [doubleArea_chain]
      have hsplit : p :: q :: ps = (p :: (q :: ps).dropLast) ++ [(q :: ps).getLast (by simp)] := by
        rw [List.cons_append, List.dropLast_append_getLast]
      have e2 : p :: q :: ps ++ [p] = (p :: (q :: ps).dropLast) ++ [(q :: ps).getLast (by simp), p] := by
        conv_lhs => rw [hsplit]
        simp
      rw [e2, chainSum_append, ← hsplit]; ring
    obtain ⟨s1, s2⟩ := areaLoop_spec hB (by omega) (q :: ps) (crossV ((q :: ps).getLast (by simp)) p) p h
    constructor
    · rcases s1 with e | e
      · left; rw [e]; rfl
      · right; rw [e, harea]; rfl
    · intro hlt
      rw [s2 (2 * (B * B)) hbnd.1 hbnd.2 (by
        simp only [List.length_cons] at hlt ⊢
        push_cast at hlt ⊢
        linarith), harea]
      rfl

/-- **C30.** If `isCCW` returns, its value tells whether the doubled signed area is positive. -/
theorem C30_isCCW_partial (pts : List Pt) (hs : SmallCoordinates pts) :
    isCCW pts = .error .ub ∨ isCCW pts = .ok (decide (0 < doubleArea pts)) :=
  (isCCW_spec (B := 1073741823) (by norm_num) le_rfl hs).1

/-- **C30.** It returns if the coordinates are small compared to the number of vertices, in particular for up to four
vertices with any admitted coordinates.  The full claim needs no such condition (`C30_overflow_refuted`). -/
theorem C30_isCCW_bounded_partial (pts : List Pt) (B : Int) (h0 : 0 ≤ B) (hB : B ≤ 1073741823)
    (h : ∀ q ∈ pts, (-B ≤ q.1 ∧ q.1 ≤ B) ∧ -B ≤ q.2 ∧ q.2 ≤ B) (hn : 2 * (B * B) * pts.length < 2 ^ 63) :
    isCCW pts = .ok (decide (0 < doubleArea pts)) :=
  (isCCW_spec h0 hB h).2 (by norm_num at hn ⊢; exact hn)

/-- **C30.** The answer does not depend on the starting vertex and is the opposite for the reversed polygon, unless
the area is zero. -/
theorem C30_invariance (pts : List Pt) (B : Int) (h0 : 0 ≤ B) (hB : B ≤ 1073741823)
    (h : ∀ q ∈ pts, (-B ≤ q.1 ∧ q.1 ≤ B) ∧ -B ≤ q.2 ∧ q.2 ≤ B) (hn : 2 * (B * B) * pts.length < 2 ^ 63) :
    (∀ k, isCCW (pts.rotate k) = isCCW pts) ∧
    (doubleArea pts ≠ 0 → ∃ b, isCCW pts = .ok b ∧ isCCW pts.reverse = .ok (!b)) ∧
    (doubleArea pts = 0 → isCCW pts = .ok false ∧ isCCW pts.reverse = .ok false) := by
  have hrev := C30_isCCW_bounded_partial pts.reverse B h0 hB (fun q hq => h q (List.mem_reverse.1 hq)) (by rwa [List.length_reverse])
  rw [doubleArea_reverse] at hrev
  have hself := C30_isCCW_bounded_partial pts B h0 hB h hn
  refine ⟨fun k => ?_, fun hne => ⟨_, hself, ?_⟩, fun h0 => ?_⟩
  · rw [C30_isCCW_bounded_partial (pts.rotate k) B h0 hB (fun q hq => h q (List.mem_rotate.1 hq)) (by rwa [List.length_rotate]),
      doubleArea_rotate, hself]
  · rw [hrev]
    rcases lt_or_gt_of_ne hne with hl | hl
    · rw [decide_eq_true (by omega), decide_eq_false (by omega)]; rfl
    · rw [decide_eq_false (by omega), decide_eq_true (by omega)]; rfl
  · rw [hself, hrev, h0]; exact ⟨rfl, rfl⟩

theorem fanArea_pos (o : Pt) : ∀ l : List Pt, 2 ≤ l.length →
    (∀ i (h : i + 1 < l.length), 0 < turn o (l[i]'(by omega)) l[i + 1]) → 0 < fanArea o l := by
  intro l
  induction l with
  | nil => intro h; simp at h
  | cons a l ih =>
    intro hlen h
    cases l with
    | nil => simp at hlen
    | cons b l =>
      unfold fanArea
      have h1 := h 0 (by simp)
      simp only [List.getElem_cons_zero, List.getElem_cons_succ] at h1
      cases l with
      | nil => simpa [fanArea] using h1
      | cons c l =>
        have := ih (by simp) fun i hi => by
          have := h (i + 1) (by simp at hi ⊢; omega)
          simpa using this
        omega

/-- **C30.** Every strictly convex polygon listed counter-clockwise has positive area, so `isCCW` agrees with
`StrictlyConvexPolygon` unless it overflows. -/
theorem C30_convex_positive (pts : List Pt) (h : StrictlyConvexPolygon pts) : 0 < doubleArea pts := by
  obtain ⟨h3, h⟩ := h
  cases pts with
  | nil => simp at h3
  | cons o rest =>
    unfold doubleArea
    apply fanArea_pos
    · simp at h3; omega
    · intro i hi
      have := h 0 (i + 1) (i + 2) (by simp) (by simp; omega) (by simp; omega) (by omega) (by omega)
      simpa using this

/-- The comment "can't overflow" is wrong: a polygon in the shape of a spiral with one and a half rounds. -/
theorem C30_overflow_refuted :
    isCCW [(1073741823, -1073741823), (1073741823, 1073741823), (-1073741823, 1073741823), (-1073741823, -1073741821),
      (1073741821, -1073741821), (1073741821, 1073741821), (1073741820, 1073741821), (1073741820, -1073741820),
      (-1073741822, -1073741820), (-1073741822, 1073741822), (1073741822, 1073741822), (1073741822, -1073741823)] = .error .ub := by
  decide +kernel

example : isCCW [(0, 0), (4, 0), (5, 3), (2, 5)] = .ok true ∧ doubleArea [(0, 0), (4, 0), (5, 3), (2, 5)] = 31 := by decide +kernel
example : isCCW [(0, 0), (1, 0), (2, 0)] = .ok false ∧ isCCW [(11, 10), (10, 10), (10, 11)] = .ok false := by decide +kernel
example : isCCW [(0, 0), (2, 5), (5, 3), (4, 0)] = .ok false := by decide +kernel

end ICPC.Props
