import Verif.Lemmas.Simple
import Verif.Props.Geo

/-!
# The comparison and the intersection test of the sweep line in terms of affine functions
-/

namespace ICPC.Sweep
open ICPC ICPC.Spec

/-- `Segment::operator<` without its first line, as a function. -/
def ltD (s o : Seg) : Bool :=
  if turn s.l s.r o.l ≠ 0 then decide (turn s.l s.r o.l > 0)
  else if turn s.l s.r o.r > 0 then true else decide (s.l.2 < o.l.2)

/-- `Segment::operator<` as a function. -/
def ltP (s o : Seg) : Bool := if s.l.1 > o.l.1 then !ltD o s else ltD s o

/-- The edges number `i` and `j` of an `n`-gon are the same but one, or equal for `n = 1`. -/
def Adj (n i j : Nat) : Prop := distN i j = 1 ∨ distN i j = n - 1

instance (n i j : Nat) : Decidable (Adj n i j) := by unfold Adj; infer_instance

theorem adj_comm {n i j : Nat} : Adj n i j ↔ Adj n j i := by
  have : distN i j = distN j i := by unfold distN; split <;> split <;> omega
  unfold Adj
  rw [this]

theorem segLtDirect_ok {s o : Seg} (h1 : Small s.l) (h2 : Small s.r) (h3 : Small o.l) (h4 : Small o.r) :
    segLtDirect s o = .ok (ltD s o) := by
  unfold segLtDirect ltD
  rw [Props.crossP_ok h1 h2 h3, ok_bind]
  split
  · rfl
  · rw [Props.crossP_ok h1 h2 h4, ok_bind]
    split <;> rfl

theorem segLt_ok {s o : Seg} (hs : Proper s) (ho : Proper o) : segLt s o = .ok (ltP s o) := by
  unfold segLt ltP
  split
  · rw [segLtDirect_ok ho.hl ho.hr hs.hl hs.hr]
    rfl
  · rw [segLtDirect_ok hs.hl hs.hr ho.hl ho.hr]

theorem turn_bound {p a b : Pt} (hp : Small p) (ha : Small a) (hb : Small b) :
    -9223372036854775807 ≤ turn p a b ∧ turn p a b ≤ 9223372036854775807 := by
  obtain ⟨⟨_, _⟩, _, _⟩ := hp
  obtain ⟨⟨_, _⟩, _, _⟩ := ha
  obtain ⟨⟨_, _⟩, _, _⟩ := hb
  have h1 := Props.mul_bound (x := a.1 - p.1) (y := b.2 - p.2) (B := 2147483646) ⟨by omega, by omega⟩ ⟨by omega, by omega⟩
  have h2 := Props.mul_bound (x := a.2 - p.2) (y := b.1 - p.1) (B := 2147483646) ⟨by omega, by omega⟩ ⟨by omega, by omega⟩
  unfold turn
  constructor <;> omega

theorem chk_sign {a b : Int} (h : -9223372036854775807 ≤ b ∧ b ≤ 9223372036854775807) :
    chk (signI a * b) = .ok (signI a * b) := by
  unfold signI
  apply Props.chk_in <;> (split <;> split <;> omega)

theorem segIntersect_ok {n : Nat} {s o : Seg} (hs : Proper s) (ho : Proper o) {q : ℝ} (hsq : In s q) (hoq : In o q) :
    ∃ b, segIntersect n s o = .ok b ∧ (b = true ↔ Meet s o ∧ ¬ Adj n s.id o.id) := by
  unfold segIntersect
  by_cases h : distN s.id o.id = 1 ∨ distN s.id o.id = n - 1
  · rw [if_pos h]
    refine ⟨false, rfl, ?_⟩
    have : Adj n s.id o.id := h
    simp [this]
  · rw [if_neg h]
    have hn : ¬ Adj n s.id o.id := h
    have key := meet_test hs ho hsq hoq
    rw [Props.crossP_ok hs.hl hs.hr ho.hl, ok_bind, Props.crossP_ok hs.hl hs.hr ho.hr, ok_bind,
      chk_sign (turn_bound hs.hl hs.hr ho.hr), ok_bind]
    split
    · rename_i h1
      refine ⟨false, rfl, ?_⟩
      rw [sign_mul_le] at h1
      simp only [Bool.false_eq_true, false_iff, not_and]
      intro hm
      exact absurd (key.2 hm).1 h1
    · rename_i h1
      rw [not_not, sign_mul_le] at h1
      rw [Props.crossP_ok ho.hl ho.hr hs.hl, ok_bind, Props.crossP_ok ho.hl ho.hr hs.hr, ok_bind,
        chk_sign (turn_bound ho.hl ho.hr hs.hr), ok_bind]
      refine ⟨_, rfl, ?_⟩
      rw [decide_eq_true_iff, sign_mul_le, ← key]
      exact ⟨fun h2 => ⟨⟨h1, h2⟩, hn⟩, fun h2 => h2.1.2⟩

/-! ### The comparison -/

theorem ltP_left {s o : Seg} (hs : Proper s) (ho : Proper o) (h : X s.l ≤ X o.l) : ltP s o = ltD s o := by
  unfold ltP
  rw [if_neg]
  have := hs.hl; have := ho.hl
  unfold Small at *
  unfold X at h
  omega

/-- On different left ends, one of two segments is smaller. -/
theorem ltP_not {s o : Seg} (hs : Proper s) (ho : Proper o) (h : X s.l < X o.l) : ltP o s = !ltP s o := by
  rw [ltP_left hs ho h.le]
  rcases (X_lt hs.hl ho.hl).1 h with h1 | ⟨h1, h2⟩
  · unfold ltP
    rw [if_pos h1]
  · have e1 : ltD s o = true := by
      have hr := (X_lt hs.hl hs.hr).1 hs.lt
      have hor := (X_lt ho.hl ho.hr).1 ho.lt
      unfold ltD turn
      rw [show o.l.1 - s.l.1 = 0 by omega, mul_zero, sub_zero]
      rcases hr with hr | ⟨hr, hr2⟩
      · have : 0 < (s.r.1 - s.l.1) * (o.l.2 - s.l.2) := mul_pos (by omega) (by omega)
        rw [if_pos this.ne', decide_eq_true this]
      · rw [show s.r.1 - s.l.1 = 0 by omega, zero_mul, if_neg (by simp), decide_eq_true h2]
        split <;> rfl
    have e2 : ltD o s = false := by
      have hr := (X_lt hs.hl hs.hr).1 hs.lt
      have hor := (X_lt ho.hl ho.hr).1 ho.lt
      unfold ltD turn
      rw [show s.l.1 - o.l.1 = 0 by omega, mul_zero, sub_zero]
      rcases hor with hr' | ⟨hr', hr2⟩
      · have : 0 < (o.r.1 - o.l.1) * (o.l.2 - s.l.2) := mul_pos (by omega) (by omega)
        have h3 : (o.r.1 - o.l.1) * (s.l.2 - o.l.2) < 0 := by
          have : (o.r.1 - o.l.1) * (s.l.2 - o.l.2) = -((o.r.1 - o.l.1) * (o.l.2 - s.l.2)) := by ring
          omega
        rw [if_pos h3.ne, decide_eq_false (by omega)]
      · have : 0 ≤ (o.r.2 - o.l.2) * (s.r.1 - o.l.1) := mul_nonneg (by omega) (by omega)
        rw [show o.r.1 - o.l.1 = 0 by omega, zero_mul, if_neg (by simp), zero_mul, zero_sub, if_neg (by omega),
          decide_eq_false (by omega)]
    rw [e1]
    unfold ltP
    rw [if_neg (by omega), e2]
    rfl

theorem ltP_below {s o : Seg} (hs : Proper s) (ho : Proper o) (h : X s.l ≤ X o.l) (hq : line s (X o.l) < o.l.2) :
    ltP s o = true ∧ ltP o s = false := by
  have e : ltP s o = true := by
    rw [ltP_left hs ho h]
    have := (turn_pos hs o.l).2 hq
    unfold ltD
    rw [if_pos this.ne', decide_eq_true this]
  refine ⟨e, ?_⟩
  rcases h.lt_or_eq with h1 | h1
  · rw [ltP_not hs ho h1, e]
    rfl
  · have h2 := X_inj hs.hl ho.hl h1
    rw [← h2, line_l] at hq
    exact absurd hq (lt_irrefl _)

theorem ltP_above {s o : Seg} (hs : Proper s) (ho : Proper o) (h : X s.l ≤ X o.l) (hq : o.l.2 < line s (X o.l)) :
    ltP s o = false ∧ ltP o s = true := by
  have e : ltP s o = false := by
    rw [ltP_left hs ho h]
    have := (turn_neg hs o.l).2 hq
    unfold ltD
    rw [if_pos this.ne, decide_eq_false (by omega)]
  refine ⟨e, ?_⟩
  rcases h.lt_or_eq with h1 | h1
  · rw [ltP_not hs ho h1, e]
    rfl
  · have h2 := X_inj hs.hl ho.hl h1
    rw [← h2, line_l] at hq
    exact absurd hq (lt_irrefl _)

/-- Segments with the same left end are compared by their slope. -/
theorem ltP_same {s o : Seg} (hs : Proper s) (ho : Proper o) (h : X s.l = X o.l) :
    ltP s o = true ↔ 0 < diff s o (X o.r) := by
  have h2 := X_inj hs.hl ho.hl h
  rw [ltP_left hs ho h.le]
  unfold ltD
  have h0 : turn s.l s.r o.l = 0 := by
    rw [← h2]
    unfold turn
    ring
  have := turn_pos hs o.r
  rw [← line_r ho] at this
  rw [h0, if_neg (by simp)]
  unfold diff
  split
  · rename_i h3
    exact ⟨fun _ => by linarith [this.1 h3], fun _ => rfl⟩
  · rename_i h3
    rw [h2]
    simp only [lt_irrefl, decide_false, Bool.false_eq_true, false_iff]
    intro h4
    exact h3 (this.2 (by linarith))

/-! ### The order of segments -/

/-- `a` is below `b` wherever both are, and touches it only if they are neighbours in the polygon. -/
def Bel (n : Nat) (a b : Seg) : Prop :=
  ∀ x, In a x → In b x → line a x ≤ line b x ∧ (line a x = line b x → Adj n a.id b.id)

/-- Neighbours in the polygon have only a common end in common. -/
def OnlyEnd (n : Nat) (s o : Seg) : Prop :=
  Adj n s.id o.id → ∀ x, In s x → In o x → line s x = line o x →
    (x = X s.l ∨ x = X s.r) ∧ (x = X o.l ∨ x = X o.r) ∧ ∀ y, In s y → In o y → line s y = line o y → y = x

theorem OnlyEnd.symm {n : Nat} {s o : Seg} (h : OnlyEnd n s o) : OnlyEnd n o s := by
  intro ha x h1 h2 h3
  obtain ⟨a, b, c⟩ := h (adj_comm.1 ha) x h2 h1 h3.symm
  exact ⟨b, a, fun y h4 h5 h6 => c y h5 h4 h6.symm⟩

theorem bel_of_strict {n : Nat} {s o : Seg} {q : ℝ} (hsq : In s q) (hoq : In o q) (hlt : line s q < line o q)
    (hm : ¬ (Meet s o ∧ ¬ Adj n s.id o.id)) (he : OnlyEnd n s o) : Bel n s o := by
  intro x hsx hox
  refine ⟨?_, ?_⟩
  · by_contra hc
    obtain ⟨z, h1, h2, h3⟩ := diff_zero (s := s) (o := o) (x := x) (y := q) (by unfold diff; linarith)
      (by unfold diff; linarith)
    have hz : line s z = line o z := by unfold diff at h3; linarith
    have zs : In s z := ⟨(le_min hsx.1 hsq.1).trans h1.le, h2.le.trans (max_le hsx.2 hsq.2)⟩
    have zo : In o z := ⟨(le_min hox.1 hoq.1).trans h1.le, h2.le.trans (max_le hox.2 hoq.2)⟩
    have hadj : Adj n s.id o.id := by
      by_contra hna
      exact hm ⟨⟨z, zs, zo, hz⟩, hna⟩
    obtain ⟨h4, -, -⟩ := he hadj z zs zo hz
    rcases h4 with h4 | h4
    · have := le_min hsx.1 hsq.1
      linarith
    · have := max_le hsx.2 hsq.2
      linarith
  · intro heq
    by_contra hna
    exact hm ⟨⟨x, hsx, hox, heq⟩, hna⟩

/-- A segment that starts at its left end above, or starting with, `s`. -/
theorem bel_insert_below {n : Nat} {s o : Seg} (hs : Proper s) (ho : Proper o) (hq : In s (X o.l)) (hlt : ltP s o = true)
    (hm : ¬ (Meet s o ∧ ¬ Adj n s.id o.id)) (he : OnlyEnd n s o) : Bel n s o := by
  have hX : X s.l ≤ X o.l := by exact_mod_cast hq.1
  have hoq : In o (X o.l) := ⟨le_rfl, ho.lt'.le⟩
  rcases lt_trichotomy (line s (X o.l)) o.l.2 with h | h | h
  · exact bel_of_strict hq hoq (by rw [line_l]; exact h) hm he
  · have heq : line s (X o.l) = line o (X o.l) := by rw [line_l]; exact h
    have hadj : Adj n s.id o.id := by
      by_contra hna
      exact hm ⟨⟨_, hq, hoq, heq⟩, hna⟩
    obtain ⟨h1, -, -⟩ := he hadj _ hq hoq heq
    intro x hsx hox
    refine ⟨?_, fun _ => hadj⟩
    rcases h1 with h1 | h1
    · have h2 := (ltP_same hs ho (by exact_mod_cast h1.symm)).1 hlt
      have h3 := diff_comb s o (X o.l) x (X o.r)
      have h4 : diff s o (X o.l) = 0 := by unfold diff; linarith
      rw [h4, mul_zero, zero_add] at h3
      have h5 := mul_nonneg (by linarith [hox.1] : (0 : ℝ) ≤ x - X o.l) h2.le
      have h6 := ho.lt'
      have h7 : 0 ≤ diff s o x := by
        by_contra h8
        nlinarith
      unfold diff at h7
      linarith
    · have : x = X o.l := le_antisymm (by rw [h1]; exact hsx.2) hox.1
      rw [this, heq]
  · rw [(ltP_above hs ho hX h).1] at hlt
    exact absurd hlt (by simp)

theorem bel_insert_above {n : Nat} {s o : Seg} (hs : Proper s) (ho : Proper o) (hq : In s (X o.l)) (hlt : ltP o s = true)
    (hm : ¬ (Meet o s ∧ ¬ Adj n o.id s.id)) (he : OnlyEnd n o s) : Bel n o s := by
  have hX : X s.l ≤ X o.l := by exact_mod_cast hq.1
  have hoq : In o (X o.l) := ⟨le_rfl, ho.lt'.le⟩
  rcases lt_trichotomy (line s (X o.l)) o.l.2 with h | h | h
  · rw [(ltP_below hs ho hX h).2] at hlt
    exact absurd hlt (by simp)
  · have heq : line o (X o.l) = line s (X o.l) := by rw [line_l]; exact h.symm
    have hadj : Adj n o.id s.id := by
      by_contra hna
      exact hm ⟨⟨_, hoq, hq, heq⟩, hna⟩
    obtain ⟨-, h1, -⟩ := he hadj _ hoq hq heq
    intro x hox hsx
    refine ⟨?_, fun _ => hadj⟩
    rcases h1 with h1 | h1
    · have h0 : X s.l = X o.l := by exact_mod_cast h1.symm
      have h2 := (ltP_same ho hs h0.symm).1 hlt
      have h3 := diff_comb o s (X o.l) x (X s.r)
      have h4 : diff o s (X o.l) = 0 := by unfold diff; linarith
      rw [h4, mul_zero, zero_add] at h3
      have h5 := mul_nonneg (by linarith [hox.1] : (0 : ℝ) ≤ x - X o.l) h2.le
      have h6 := hs.lt'
      rw [h0] at h6
      have h7 : 0 ≤ diff o s x := by
        by_contra h8
        nlinarith
      unfold diff at h7
      linarith
    · have : x = X o.l := le_antisymm (by rw [h1]; exact hsx.2) hox.1
      rw [this, heq]
  · exact bel_of_strict hoq hq (by rw [line_l]; exact h) hm he

/-- A segment that `std::set` regards as equal to one present crosses it. -/
theorem meet_of_equiv {n : Nat} {s o : Seg} (hs : Proper s) (ho : Proper o) (hq : In s (X o.l)) (h1 : ltP o s = false)
    (h2 : ltP s o = false) (he : OnlyEnd n s o) : Meet s o ∧ ¬ Adj n s.id o.id := by
  have hX : X s.l ≤ X o.l := by exact_mod_cast hq.1
  have hoq : In o (X o.l) := ⟨le_rfl, ho.lt'.le⟩
  rcases hX.lt_or_eq with hlt | heq
  · rw [ltP_not hs ho hlt, h2] at h1
    exact absurd h1 (by simp)
  · have d1 : diff s o (X o.r) ≤ 0 := by
      by_contra hc
      rw [(ltP_same hs ho heq).2 (not_le.1 hc)] at h2
      exact absurd h2 (by simp)
    have d2 : 0 ≤ diff s o (X s.r) := by
      by_contra hc
      rw [(ltP_same ho hs heq.symm).2 (by unfold diff at *; linarith)] at h1
      exact absurd h1 (by simp)
    have hpt := X_inj hs.hl ho.hl heq
    have d0 : diff s o (X o.l) = 0 := by
      unfold diff
      rw [line_l, ← hpt, line_l]
      ring
    have lo := ho.lt'
    have ls := hs.lt'
    have heq' : (X s.l : ℝ) = X o.l := by exact_mod_cast heq
    have hzero : diff s o (X o.r) = 0 := by
      have h3 := diff_comb s o (X o.l) (X o.r) (X s.r)
      rw [d0, mul_zero, zero_add] at h3
      nlinarith
    have hzero2 : diff s o (X s.r) = 0 := by
      have h3 := diff_comb s o (X o.l) (X o.r) (X s.r)
      rw [d0, mul_zero, zero_add, hzero, mul_zero] at h3
      rcases mul_eq_zero.1 h3.symm with h4 | h4
      · linarith
      · exact h4
    have e0 : line s (X o.l) = line o (X o.l) := by unfold diff at d0; linarith
    refine ⟨⟨_, hq, hoq, e0⟩, fun hadj => ?_⟩
    obtain ⟨-, -, h5⟩ := he hadj _ hq hoq e0
    rcases le_total (X o.r : ℝ) (X s.r) with h6 | h6
    · have := h5 (X o.r) ⟨by linarith, h6⟩ ⟨lo.le, le_rfl⟩ (by unfold diff at hzero; linarith)
      linarith
    · have := h5 (X s.r) ⟨ls.le, le_rfl⟩ ⟨by linarith, h6⟩ (by unfold diff at hzero2; linarith)
      linarith

end ICPC.Sweep
