import Mathlib.Tactic.LinearCombination
import Verif.Model.Polygon
import Verif.Spec.Polygon
import Verif.Spec.Simple
import Verif.Spec.Convex
import Verif.Lemmas.Shuffle
import Verif.Props.Geo
import Verif.Props.RandSeq

namespace ICPC.Archive

open Spec Rand Props

/-- `(b - a) * (c - a)` -/
def scalar (a b c : Pt) : Int := (b.1 - a.1) * (c.1 - a.1) + (b.2 - a.2) * (c.2 - a.2)

/-- points without degeneracies, in a form that does not depend on their order -/
structure Nice (pts : List Pt) : Prop where
  nodup : pts.Nodup
  turn : ∀ a ∈ pts, ∀ b ∈ pts, ∀ c ∈ pts, a ≠ b → a ≠ c → b ≠ c → Spec.turn a b c ≠ 0
  angle : ∀ a ∈ pts, ∀ b ∈ pts, ∀ c ∈ pts, a ≠ b → a ≠ c → b ≠ c → scalar a b c ≠ 0
  small : ∀ a ∈ pts, SmallPt a

theorem Nice.sub {pts pts' : List Pt} (h : Nice pts) (hn : pts'.Nodup) (hs : ∀ a ∈ pts', a ∈ pts) : Nice pts' :=
  ⟨hn, fun a ha b hb c hc => h.turn a (hs a ha) b (hs b hb) c (hs c hc), fun a ha b hb c hc => h.angle a (hs a ha) b (hs b hb) c (hs c hc),
    fun a ha => h.small a (hs a ha)⟩

theorem dotP_ok {p a b : Pt} (hp : SmallPt p) (ha : SmallPt a) (hb : SmallPt b) : dotP p a b = .ok (scalar p a b) := by
  obtain ⟨⟨p1, p2⟩, p3, p4⟩ := hp
  obtain ⟨⟨a1, a2⟩, a3, a4⟩ := ha
  obtain ⟨⟨b1, b2⟩, b3, b4⟩ := hb
  have hm : ∀ x y : Int, -2147483646 ≤ x → x ≤ 2147483646 → -2147483646 ≤ y → y ≤ 2147483646 →
      -4611686009837453316 ≤ x * y ∧ x * y ≤ 4611686009837453316 := by
    intro x y h1 h2 h3 h4
    constructor <;> nlinarith
  have k1 := hm (a.1 - p.1) (b.1 - p.1) (by omega) (by omega) (by omega) (by omega)
  have k2 := hm (a.2 - p.2) (b.2 - p.2) (by omega) (by omega) (by omega) (by omega)
  unfold dotP dotO scalar
  simp only [chk_in (show -9223372036854775808 ≤ a.1 - p.1 by omega) (by omega), chk_in (show -9223372036854775808 ≤ a.2 - p.2 by omega) (by omega),
    chk_in (show -9223372036854775808 ≤ b.1 - p.1 by omega) (by omega), chk_in (show -9223372036854775808 ≤ b.2 - p.2 by omega) (by omega), ok_bind,
    chk_in (show -9223372036854775808 ≤ (a.1 - p.1) * (b.1 - p.1) by omega) (by omega),
    chk_in (show -9223372036854775808 ≤ (a.2 - p.2) * (b.2 - p.2) by omega) (by omega),
    chk_in (show -9223372036854775808 ≤ (a.1 - p.1) * (b.1 - p.1) + (a.2 - p.2) * (b.2 - p.2) by omega) (by omega)]

/-! ### Points on segments -/

/-- the line through `a` and `b`, as a function of the plane -/
noncomputable def lineAt (a b : Pt) (q : ℝ × ℝ) : ℝ := ((b.1 : ℝ) - a.1) * (q.2 - a.2) - ((b.2 : ℝ) - a.2) * (q.1 - a.1)

/-- a point as a point of the plane -/
def real (a : Pt) : ℝ × ℝ := ((a.1 : ℝ), (a.2 : ℝ))

theorem lineAt_real (a b c : Pt) : lineAt a b (real c) = (turn a b c : ℝ) := by
  unfold lineAt real turn
  push_cast
  ring

theorem real_inj {a b : Pt} (h : real a = real b) : a = b := by
  unfold real at h
  rw [Prod.mk.injEq] at h
  exact Prod.ext (by exact_mod_cast h.1) (by exact_mod_cast h.2)

theorem onSegment_line {u v : Pt} {q : ℝ × ℝ} (h : OnSegment u v q) (a b : Pt) : ∃ t : ℝ, 0 ≤ t ∧ t ≤ 1 ∧
    lineAt a b q = (1 - t) * lineAt a b (real u) + t * lineAt a b (real v) ∧ (t = 0 → q = real u) ∧ (t = 1 → q = real v) := by
  obtain ⟨t, h0, h1, hx, hy⟩ := h
  refine ⟨t, h0, h1, ?_, ?_, ?_⟩
  · unfold lineAt real
    rw [hx, hy]
    ring
  · rintro rfl
    exact Prod.ext (by rw [hx]; unfold real; ring) (by rw [hy]; unfold real; ring)
  · rintro rfl
    exact Prod.ext (by rw [hx]; unfold real; ring) (by rw [hy]; unfold real; ring)

/-- a point on the line is an end of the segment if the segment is on one side, and touches the line only in `a` -/
theorem touch {u v a b : Pt} {q : ℝ × ℝ} (h : OnSegment u v q) (s : ℝ) (hq : lineAt a b q = 0) (hu : 0 < s * lineAt a b (real u) ∨ u = a)
    (hv : 0 < s * lineAt a b (real v) ∨ v = a) : q = real a := by
  obtain ⟨t, h0, h1, e, e0, e1⟩ := onSegment_line h a b
  have la : lineAt a b (real a) = 0 := by unfold lineAt real; ring
  rw [hq] at e
  rcases hu with hu | rfl <;> rcases hv with hv | rfl
  · exfalso
    have : 0 = (1 - t) * (s * lineAt a b (real u)) + t * (s * lineAt a b (real v)) := by linear_combination s * e
    rcases h0.eq_or_lt with rfl | h0
    · linarith
    · nlinarith [mul_pos h0 hv, mul_nonneg (sub_nonneg.2 h1) hu.le]
  · refine e1 ?_
    rw [la] at e
    have : (1 - t) * (s * lineAt v b (real u)) = 0 := by linear_combination -s * e
    rcases mul_eq_zero.1 this with h | h
    · linarith
    · linarith
  · refine e0 ?_
    rw [la] at e
    have : t * (s * lineAt u b (real v)) = 0 := by linear_combination -s * e
    rcases mul_eq_zero.1 this with h | h
    · exact h
    · linarith
  · obtain ⟨t, -, -, hx, hy⟩ := h
    exact Prod.ext (by rw [hx]; unfold real; ring) (by rw [hy]; unfold real; ring)

theorem side_le {u v a b : Pt} {q : ℝ × ℝ} (h : OnSegment u v q) (s : ℝ) (hu : s * lineAt a b (real u) ≤ 0) (hv : s * lineAt a b (real v) ≤ 0) :
    s * lineAt a b q ≤ 0 := by
  obtain ⟨t, h0, h1, e, -, -⟩ := onSegment_line h a b
  rw [e]
  nlinarith [mul_nonneg h0 (neg_nonneg.2 hv), mul_nonneg (sub_nonneg.2 h1) (neg_nonneg.2 hu)]

/-! ### Paths -/

/-- the point number `i` -/
def nth (pts : List Pt) (i : Nat) : Pt := pts.getD i (0, 0)

/-- two edges of the path only share the point between neighbours -/
def SimplePath (pts : List Pt) : Prop :=
  ∀ i j, i < j → j + 1 < pts.length → ∀ q, OnSegment (nth pts i) (nth pts (i + 1)) q → OnSegment (nth pts j) (nth pts (j + 1)) q →
    j = i + 1 ∧ q = real (nth pts j)

theorem nth_mem {pts : List Pt} {i : Nat} (h : i < pts.length) : nth pts i ∈ pts := by
  unfold nth
  rw [List.getD_eq_getElem?_getD, List.getElem?_eq_getElem h]
  exact List.getElem_mem h

theorem nth_inj {pts : List Pt} (hn : pts.Nodup) {i j : Nat} (h : i < pts.length) (h' : j < pts.length) (e : nth pts i = nth pts j) : i = j := by
  unfold nth at e
  rw [List.getD_eq_getElem?_getD, List.getElem?_eq_getElem h, List.getD_eq_getElem?_getD, List.getElem?_eq_getElem h'] at e
  exact (List.Nodup.getElem_inj_iff hn).1 e

theorem nth_left {l1 l2 : List Pt} (a : Pt) {i : Nat} (h : i ≤ l1.length) : nth (l1 ++ a :: l2) i = nth (l1 ++ [a]) i := by
  unfold nth
  rw [List.getD_eq_getElem?_getD, List.getD_eq_getElem?_getD]
  rcases h.lt_or_eq with h | rfl
  · rw [List.getElem?_append_left h, List.getElem?_append_left h]
  · rw [List.getElem?_append_right le_rfl, List.getElem?_append_right le_rfl]
    simp

theorem nth_right {l1 l2 : List Pt} (a : Pt) {i : Nat} (h : l1.length ≤ i) : nth (l1 ++ a :: l2) i = nth (a :: l2) (i - l1.length) := by
  unfold nth
  rw [List.getD_eq_getElem?_getD, List.getD_eq_getElem?_getD, List.getElem?_append_right h]

theorem nth_last (l1 : List Pt) (a : Pt) : nth (l1 ++ [a]) l1.length = a := by
  unfold nth
  rw [List.getD_eq_getElem?_getD, List.getElem?_append_right le_rfl]
  simp

theorem onSegment_right (a b : Pt) : OnSegment a b (real b) := ⟨1, by norm_num, le_rfl, by unfold real; ring, by unfold real; ring⟩
theorem onSegment_left (a b : Pt) : OnSegment a b (real a) := ⟨0, le_rfl, by norm_num, by unfold real; ring, by unfold real; ring⟩

/-- two paths that only share their common end -/
theorem simplePath_append {l1 l2 : List Pt} {a : Pt} (hn : (l1 ++ a :: l2).Nodup) (h1 : SimplePath (l1 ++ [a])) (h2 : SimplePath (a :: l2))
    (hd : ∀ u ∈ l1 ++ [a], ∀ v ∈ l1 ++ [a], ∀ u' ∈ a :: l2, ∀ v' ∈ a :: l2, ∀ q, OnSegment u v q → OnSegment u' v' q → q = real a) :
    SimplePath (l1 ++ a :: l2) := by
  intro i j hij hj q hi hq
  have hlen : (l1 ++ a :: l2).length = l1.length + l2.length + 1 := by simp; omega
  rw [hlen] at hj
  have n1 : (l1 ++ [a]).Nodup := hn.sublist (by simp)
  have n2 : (a :: l2).Nodup := (List.nodup_append.1 hn).2.1
  have e1 : (l1 ++ [a]).length = l1.length + 1 := by simp
  have e2 : (a :: l2).length = l2.length + 1 := by simp
  rcases Nat.lt_or_ge j l1.length with hjl | hjl
  · rw [nth_left (i := i) a (by omega), nth_left (i := i + 1) a (by omega)] at hi
    rw [nth_left (i := j) a (by omega), nth_left (i := j + 1) a (by omega)] at hq
    rw [nth_left a (by omega)]
    exact h1 i j hij (by omega) q hi hq
  · rcases Nat.lt_or_ge i l1.length with hil | hil
    · rw [nth_left (i := i) a (by omega), nth_left (i := i + 1) a (by omega)] at hi
      rw [nth_right (i := j) a (by omega), nth_right (i := j + 1) a (by omega)] at hq
      have hqa : q = real a := 
        hd _ (nth_mem (i := i) (by omega)) _ (nth_mem (i := i + 1) (by omega)) _ (nth_mem (i := j - l1.length) (by omega)) _
          (nth_mem (i := j + 1 - l1.length) (by omega)) q hi hq
      subst hqa
      -- `a` is only on the last edge of the first path
      have la : nth (l1 ++ [a]) l1.length = a := nth_last l1 a
      have ha : nth (a :: l2) 0 = a := by simp [nth]
      have hi' : i + 1 = l1.length := by
        by_contra hne
        obtain ⟨e, e'⟩ := h1 i (l1.length - 1) (by omega) (by omega) (real a) hi (by
          rw [show l1.length - 1 + 1 = l1.length by omega, la]
          exact onSegment_right _ _)
        have := nth_inj n1 (i := l1.length) (j := l1.length - 1) (by omega) (by omega) (by rw [la]; exact real_inj e')
        omega
      have hj' : j = l1.length := by
        by_contra hne
        obtain ⟨e, e'⟩ := h2 0 (j - l1.length) (by omega) (by omega) (real a) (by rw [ha]; exact onSegment_left _ _)
          (by rw [show j - l1.length + 1 = j + 1 - l1.length by omega]; exact hq)
        have := nth_inj n2 (i := 0) (j := j - l1.length) (by omega) (by omega) (by rw [ha]; exact real_inj e')
        omega
      subst hj'
      refine ⟨by omega, ?_⟩
      rw [nth_right a le_rfl, Nat.sub_self, ha]
    · rw [nth_right (i := i) a (by omega), nth_right (i := i + 1) a (by omega)] at hi
      rw [nth_right (i := j) a (by omega), nth_right (i := j + 1) a (by omega)] at hq
      rw [nth_right a (by omega)]
      obtain ⟨e, e'⟩ := h2 (i - l1.length) (j - l1.length) (by omega) (by omega) q (by rw [show i - l1.length + 1 = i + 1 - l1.length by omega]; exact hi)
        (by rw [show j - l1.length + 1 = j + 1 - l1.length by omega]; exact hq)
      exact ⟨by omega, e'⟩

/-! ### The steps of `findLine` -/

theorem pickA_ok {first last : Pt} {mid : List Pt} (hn : Nice (first :: mid ++ [last])) (hm : mid ≠ []) (hlen : mid.length < 2 ^ 63) {loop : Nat}
    (hl : 0 < loop) : SatOk (pickA mid first last loop) fun a => a ∈ mid := by
  obtain ⟨k, rfl⟩ : ∃ k, loop = k + 1 := ⟨loop - 1, by omega⟩
  rw [pickA]
  refine (C15_select mid (List.length_pos_of_ne_nil hm) hlen).bind fun a ha => ?_
  have nd := hn.nodup
  have h1 : a ≠ first := by
    rintro rfl
    simp [ha] at nd
  have h2 : a ≠ last := by
    rintro rfl
    exact (List.nodup_append.1 nd).2.2 a (by simp [ha]) a (by simp) rfl
  have h3 : first ≠ last := by
    rintro rfl
    simp at nd
  have ht := hn.turn a (by simp [ha]) first (by simp) last (by simp) h1 h2 h3
  rw [crossP_ok (hn.small a (by simp [ha])) (hn.small first (by simp)) (hn.small last (by simp)), Rand.lift_ok, Rand.bind_done_ok, if_neg ht]
  exact satOk_done ha

theorem cutEnds_ok {a first last : Pt} (ha : SmallPt a) (hf : SmallPt first) (hl : SmallPt last) : ∀ mid : List Pt, (∀ p ∈ mid, SmallPt p) →
    ∃ bs, cutEnds a first last mid = .ok bs ∧ bs.length ≤ mid.length ∧
      ∀ b ∈ bs, b ∈ mid ∧ turn a b first ≠ 0 ∧ (turn a b first).sign * (turn a b last).sign ≤ 0
  | [], _ => ⟨[], rfl, le_rfl, by simp⟩
  | p :: ps, hs => by
    obtain ⟨bs, e, hlen, hb⟩ := cutEnds_ok ha hf hl ps fun p hp => hs p (List.mem_cons_of_mem _ hp)
    have hp := hs p List.mem_cons_self
    rw [cutEnds, crossP_ok ha hp hf, ok_bind, crossP_ok ha hp hl, ok_bind, e, ok_bind]
    by_cases hc : turn a p first ≠ 0 ∧ (turn a p first).sign * (turn a p last).sign ≤ 0
    · rw [if_pos hc]
      refine ⟨_, rfl, by simpa using hlen, fun b hb' => ?_⟩
      rcases List.mem_cons.1 hb' with rfl | hb'
      · exact ⟨List.mem_cons_self, hc⟩
      · exact ⟨List.mem_cons_of_mem _ (hb b hb').1, (hb b hb').2⟩
    · rw [if_neg hc]
      exact ⟨_, rfl, by simp; omega, fun b hb' => ⟨List.mem_cons_of_mem _ (hb b hb').1, (hb b hb').2⟩⟩

/-- the answer of `sideOf` -/
def sideIs (a b first p : Pt) : Bool :=
  if turn a b p ≠ 0 then decide ((turn a b p).sign = (turn a b first).sign) else decide ((scalar a b p).sign = (scalar a b first).sign)

theorem sideOf_ok {a b first p : Pt} (ha : SmallPt a) (hb : SmallPt b) (hf : SmallPt first) (hp : SmallPt p) :
    sideOf a b first p = .ok (sideIs a b first p) := by
  unfold sideOf sideIs
  rw [crossP_ok ha hb hp, ok_bind, crossP_ok ha hb hf, dotP_ok ha hb hp, dotP_ok ha hb hf]
  by_cases h : turn a b p ≠ 0
  · rw [if_pos h, if_pos h]; rfl
  · rw [if_neg h, if_neg h]; rfl

theorem toFront_perm (a : Pt) : ∀ (l : List Pt) (c : Pt), ((toFront a c l).1 :: (toFront a c l).2).Perm (c :: l)
  | [], c => by simp [toFront]
  | p :: ps, c => by
    rw [toFront]
    split_ifs with h
    · exact (List.Perm.swap _ _ _).trans (((toFront_perm a ps p).cons c))
    · exact (List.Perm.swap _ _ _).trans (((toFront_perm a ps c).cons p).trans (List.Perm.swap _ _ _))

theorem toFront_same (a : Pt) : ∀ (l : List Pt) (c : Pt), a ∉ l → (toFront a c l).1 = c
  | [], _, _ => rfl
  | p :: ps, c, h => by
    rw [toFront, if_neg (by rintro rfl; simp at h)]
    exact toFront_same a ps c fun h' => h (List.mem_cons_of_mem _ h')

theorem toFront_mem (a : Pt) : ∀ (l : List Pt) (c : Pt), l.Nodup → a ∈ l → (toFront a c l).1 = a
  | p :: ps, c, hn, h => by
    rw [toFront]
    by_cases hp : p = a
    · subst hp
      rw [if_pos rfl]
      exact toFront_same p ps p (List.nodup_cons.1 hn).1
    · rw [if_neg hp]
      exact toFront_mem a ps c (List.nodup_cons.1 hn).2 ((List.mem_cons.1 h).resolve_left (Ne.symm hp))

theorem cutFront_ok {a : Pt} {l : List Pt} (hn : l.Nodup) (h : a ∈ l) : ∃ t, cutFront a l = a :: t ∧ (a :: t).Perm l := by
  cases l with
  | nil => simp at h
  | cons c ps =>
    rw [cutFront]
    have e : (toFront a c ps).1 = a := by
      rcases List.mem_cons.1 h with rfl | h
      · exact toFront_same a ps a (List.nodup_cons.1 hn).1
      · exact toFront_mem a ps c (List.nodup_cons.1 hn).2 h
    have := toFront_perm a ps c
    rw [e] at this ⊢
    exact ⟨_, rfl, this⟩

/-- a recursive call in terms of the first point, the points between, and the last one -/
theorem findLine_step (part : (Pt → Bool) → List Pt → List Pt) (loop f : Nat) (first last : Pt) (mid : List Pt) (hm : mid ≠ []) :
    findLine part loop (f + 1) (first :: mid ++ [last]) = (do
      let a ← pickA mid first last loop
      let bs ← lift (cutEnds a first last mid)
      let b ← select (last :: bs)
      lift (if mid.all fun p => (sideOf a b first p).isOk then .ok () else .error .ub)
      let q := fun p => match sideOf a b first p with
        | .ok s => s
        | .error _ => false
      let m := part q mid
      let right := cutFront a (m.drop (m.countP q)) ++ [last]
      let r1 ← findLine part loop f (first :: m.take (m.countP q) ++ right.take 1)
      let r2 ← findLine part loop f (r1.drop (r1.length - 1) ++ right.drop 1)
      pure (r1.dropLast ++ r2)) := by
  match mid, hm with
  | [x], _ => rfl
  | x :: y :: rest, _ =>
    have e : first :: (x :: y :: rest) ++ [last] = first :: x :: y :: (rest ++ [last]) := rfl
    rw [e, findLine]
    have e1 : (x :: y :: (rest ++ [last])).dropLast = x :: y :: rest := by
      rw [show x :: y :: (rest ++ [last]) = (x :: y :: rest) ++ [last] from rfl, List.dropLast_concat]
    have e2 : (y :: (rest ++ [last])).getLast (List.cons_ne_nil _ _) = last := by
      simp
    rw [e1, e2]
    rfl

/-- what `findLine` promises for its range -/
def LineOf (l r : List Pt) : Prop := r.Perm l ∧ r.head? = l.head? ∧ r.getLast? = l.getLast? ∧ SimplePath r

theorem findLine_ok {part : (Pt → Bool) → List Pt → List Pt} (hpart : PartitionContract part) {loop : Nat} (hloop : 0 < loop) :
    ∀ (f : Nat) (l : List Pt), Nice l → l.length < f → l.length < 2 ^ 63 → SatOk (findLine part loop f l) (LineOf l) := by
  intro f
  induction f with
  | zero => intro l _ h; omega
  | succ f ih =>
    intro l hn hlen hl63
    by_cases hl3 : l.length < 3
    · have e : findLine part loop (f + 1) l = .done (.ok l) := by
        match l, hl3 with
        | [], _ => rfl
        | [_], _ => rfl
        | [_, _], _ => rfl
      rw [e]
      exact satOk_done ⟨List.Perm.refl _, rfl, rfl, fun i j hij hj => by omega⟩
    · obtain ⟨first, mid, last, rfl, hm⟩ : ∃ first mid last, l = first :: mid ++ [last] ∧ mid ≠ [] := by
        match l, hl3 with
        | first :: x :: y :: rest, _ =>
          refine ⟨first, (x :: y :: rest).dropLast, (x :: y :: rest).getLast (by simp), ?_, by simp⟩
          rw [List.cons_append, List.dropLast_append_getLast]
        | [], h => simp at h
        | [_], h => simp at h
        | [_, _], h => simp at h
      clear hl3
      have elen : (first :: mid ++ [last]).length = mid.length + 2 := by simp
      rw [elen] at hlen hl63
      rw [findLine_step part loop f first last mid hm]
      refine (pickA_ok hn hm (by omega) hloop).bind fun a ha => ?_
      have sa := hn.small a (by simp [ha])
      have sf := hn.small first (by simp)
      have sl := hn.small last (by simp)
      have sm : ∀ p ∈ mid, SmallPt p := fun p hp => hn.small p (by simp [hp])
      have nd := hn.nodup
      have nm : mid.Nodup := nd.sublist (by
        refine List.Sublist.trans ?_ (List.sublist_append_left _ _)
        exact List.sublist_cons_self _ _)
      have nf : first ∉ mid := by
        intro h
        simp [h] at nd
      have nl : last ∉ mid := fun h => (List.nodup_append.1 nd).2.2 last (by simp [h]) last (by simp) rfl
      have nfl : first ≠ last := by
        rintro rfl
        simp at nd
      have haf : a ≠ first := by rintro rfl; exact nf ha
      have hal : a ≠ last := by rintro rfl; exact nl ha
      obtain ⟨bs, ebs, hbs, hb⟩ := cutEnds_ok sa sf sl mid sm
      rw [ebs, Rand.lift_ok, Rand.bind_done_ok]
      refine (C15_select (last :: bs) (by simp) (by simp; omega)).bind fun b hbm => ?_
      -- the second point of the cut
      obtain ⟨hba, hbf, hbm', hbt, hbl⟩ : b ≠ a ∧ b ≠ first ∧ (b ∈ mid ∨ b = last) ∧ turn a b first ≠ 0 ∧ (turn a b first).sign * (turn a b last).sign ≤ 0 := by
        rcases List.mem_cons.1 hbm with rfl | h
        · refine ⟨hal.symm, nfl.symm, Or.inr rfl, hn.turn a (by simp [ha]) b (by simp) first (by simp) hal haf nfl.symm, ?_⟩
          have : turn a b b = 0 := by unfold turn; ring
          rw [this]; simp
        · obtain ⟨h1, h2, h3⟩ := hb b h
          refine ⟨?_, by rintro rfl; exact nf h1, Or.inl h1, h2, h3⟩
          rintro rfl
          apply h2
          unfold turn; ring
      have mb : b ∈ first :: mid ++ [last] := by rcases hbm' with h | h <;> simp [h]
      have sb := hn.small b mb
      have eall : (mid.all fun p => (sideOf a b first p).isOk) = true := by
        rw [List.all_eq_true]
        intro p hp
        rw [sideOf_ok sa sb sf (sm p hp)]
        rfl
      rw [eall, if_pos rfl, Rand.lift_ok, Rand.bind_done_ok]
      generalize hq : (fun p => match sideOf a b first p with
        | .ok s => s
        | .error _ => false) = q
      have eq : ∀ p ∈ mid, q p = sideIs a b first p := by
        intro p hp
        rw [← hq]
        dsimp only
        rw [sideOf_ok sa sb sf (sm p hp)]
      dsimp only
      obtain ⟨hperm, yes, no, em, hyes, hno⟩ := hpart q mid
      rw [em] at hperm ⊢
      have ec : (yes ++ no).countP q = yes.length := by
        rw [List.countP_append, List.countP_eq_length.2 hyes, List.countP_eq_zero.2 (fun x hx => by rw [hno x hx]; simp), Nat.add_zero]
      rw [ec, List.take_left, List.drop_left]
      have my : ∀ p ∈ yes, p ∈ mid := fun p hp => hperm.subset (List.mem_append_left _ hp)
      have mn : ∀ p ∈ no, p ∈ mid := fun p hp => hperm.subset (List.mem_append_right _ hp)
      have nyn : (yes ++ no).Nodup := hperm.nodup_iff.2 nm
      -- on the line are only the two points
      have hline : ∀ p ∈ first :: mid ++ [last], turn a b p = 0 → p = a ∨ p = b := by
        intro p hp h
        by_contra hc
        rw [not_or] at hc
        exact hn.turn a (by simp [ha]) b mb p hp hba.symm (Ne.symm hc.1) (Ne.symm hc.2) h
      have haq : sideIs a b first a = false := by
        unfold sideIs
        have t0 : turn a b a = 0 := by unfold turn; ring
        have s0 : scalar a b a = 0 := by unfold scalar; ring
        rw [if_neg (by simp [t0]), s0, decide_eq_false_iff_not]
        have := hn.angle a (by simp [ha]) b mb first (by simp) hba.symm haf hbf
        intro h
        rw [Int.sign_zero] at h
        exact this (Int.sign_eq_zero_iff_zero.1 h.symm)
      have hano : a ∈ no := by
        rcases List.mem_append.1 (hperm.mem_iff.2 ha) with h | h
        · have := hyes a h
          rw [eq a ha, haq] at this
          simp at this
        · exact h
      -- the sides
      obtain ⟨σ, hσ, hσ1⟩ : ∃ σ : Int, (turn a b first).sign = σ ∧ (σ = 1 ∨ σ = -1) := by
        refine ⟨_, rfl, ?_⟩
        rcases lt_or_gt_of_ne hbt with h | h
        · exact Or.inr (Int.sign_eq_neg_one_of_neg h)
        · exact Or.inl (Int.sign_eq_one_of_pos h)
      have hpos : ∀ x : Int, x.sign = σ → 0 < σ * x := by
        intro x hx
        rcases hσ1 with rfl | rfl
        · have := Int.sign_eq_one_iff_pos.1 hx; omega
        · have := Int.sign_eq_neg_one_iff_neg.1 hx; omega
      have hneg : ∀ x : Int, x ≠ 0 → x.sign ≠ σ → σ * x < 0 := by
        intro x hx0 hx
        rcases lt_or_gt_of_ne hx0 with h | h
        · rw [Int.sign_eq_neg_one_of_neg h] at hx
          rcases hσ1 with rfl | rfl
          · omega
          · exact absurd rfl hx
        · rw [Int.sign_eq_one_of_pos h] at hx
          rcases hσ1 with rfl | rfl
          · exact absurd rfl hx
          · omega
      have side1 : ∀ p ∈ first :: yes, 0 < σ * turn a b p ∨ p = b := by
        intro p hp
        rcases List.mem_cons.1 hp with rfl | hp
        · exact Or.inl (hpos _ hσ)
        · have h := hyes p hp
          rw [eq p (my p hp)] at h
          by_cases h0 : turn a b p = 0
          · rcases hline p (by simp [my p hp]) h0 with rfl | h'
            · rw [haq] at h; simp at h
            · exact Or.inr h'
          · unfold sideIs at h
            rw [if_pos h0, decide_eq_true_iff] at h
            exact Or.inl (hpos _ (h.trans hσ))
      have side2 : ∀ p ∈ no ++ [last], σ * turn a b p < 0 ∨ p = a ∨ p = b := by
        intro p hp
        rcases List.mem_append.1 hp with hp | hp
        · have h := hno p hp
          rw [eq p (mn p hp)] at h
          by_cases h0 : turn a b p = 0
          · exact Or.inr (hline p (by simp [mn p hp]) h0)
          · unfold sideIs at h
            rw [if_pos h0, decide_eq_false_iff_not] at h
            exact Or.inl (hneg _ h0 fun h' => h (h'.trans hσ.symm))
        · rw [List.mem_singleton] at hp
          subst hp
          by_cases h0 : turn a b p = 0
          · exact Or.inr (hline p (by simp) h0)
          · refine Or.inl (hneg _ h0 fun h' => ?_)
            rw [hσ, h'] at hbl
            rcases hσ1 with rfl | rfl <;> norm_num at hbl
      -- the recursive calls
      obtain ⟨t, et, pt⟩ := cutFront_ok (List.nodup_append.1 nyn).2.1 hano
      rw [et]
      have etake : List.take 1 (a :: t ++ [last]) = [a] := rfl
      have edrop : List.drop 1 (a :: t ++ [last]) = t ++ [last] := rfl
      rw [etake, edrop]
      have hlen2 : yes.length + no.length = mid.length := by rw [← hperm.length_eq, List.length_append]
      have hlen3 : no.length = t.length + 1 := by rw [← pt.length_eq]; rfl
      have mt : ∀ p ∈ a :: t, p ∈ no := fun p hp => pt.subset hp
      have nall : ((first :: yes) ++ (a :: (t ++ [last]))).Nodup := by
        have : ((first :: yes) ++ (a :: (t ++ [last]))).Perm (first :: mid ++ [last]) := by
          have h1 : (yes ++ (a :: t)).Perm mid := (List.Perm.append_left yes pt).trans hperm
          have := (h1.cons first).append_right [last]
          simpa using this
        exact this.nodup_iff.2 nd
      have permall : ((first :: yes) ++ (a :: (t ++ [last]))).Perm (first :: mid ++ [last]) := by
        have h1 : (yes ++ (a :: t)).Perm mid := (List.Perm.append_left yes pt).trans hperm
        have := (h1.cons first).append_right [last]
        simpa using this
      have nice1 : Nice (first :: yes ++ [a]) := hn.sub (nall.sublist (by simp)) (by
        intro p hp
        apply permall.subset
        rcases List.mem_append.1 hp with h | h
        · exact List.mem_append_left _ h
        · rw [List.mem_singleton] at h; simp [h])
      have nice2 : Nice (a :: (t ++ [last])) := hn.sub (List.nodup_append.1 nall).2.1 (fun p hp => permall.subset (List.mem_append_right _ hp))
      refine (ih _ nice1 (by simp; omega) (by simp; omega)).bind fun r1 ⟨p1, h1, g1, s1⟩ => ?_
      obtain ⟨l1, rfl⟩ : ∃ l1, r1 = l1 ++ [a] := by
        rw [List.getLast?_append, List.getLast?_singleton, Option.some_or] at g1
        exact ⟨_, (List.dropLast_append_getLast? a g1).symm⟩
      have ed : List.drop ((l1 ++ [a]).length - 1) (l1 ++ [a]) = [a] := by simp
      rw [ed]
      have eap : [a] ++ (t ++ [last]) = a :: (t ++ [last]) := rfl
      rw [eap]
      refine (ih _ nice2 (by simp; omega) (by simp; omega)).bind fun r2 ⟨p2, h2, g2, s2⟩ => ?_
      obtain ⟨l2, rfl⟩ : ∃ l2, r2 = a :: l2 := by
        cases r2 with
        | nil => simp at h2
        | cons x xs => simp at h2; exact ⟨xs, by rw [h2]⟩
      rw [List.dropLast_concat]
      have pl1 : l1.Perm (first :: yes) := (List.perm_append_right_iff [a]).1 p1
      have pall : (l1 ++ a :: l2).Perm (first :: mid ++ [last]) := (pl1.append p2).trans permall
      refine satOk_done ⟨pall, ?_, ?_, ?_⟩
      · cases l1 with
        | nil => simpa using pl1.length_eq
        | cons x xs => simpa using h1
      · rw [List.getLast?_append, g2, ← List.cons_append, List.getLast?_append, List.getLast?_append]
        rfl
      · refine simplePath_append (pall.nodup_iff.2 nd) s1 s2 ?_
        intro u hu v hv u' hu' v' hv' z hz hz'
        have hu := p1.subset hu
        have hv := p1.subset hv
        have hu' := p2.subset hu'
        have hv' := p2.subset hv'
        have m1 : ∀ p ∈ first :: yes ++ [a], 0 < σ * turn a b p ∨ p = b ∨ p = a := by
          intro p hp
          rcases List.mem_append.1 hp with h | h
          · rcases side1 p h with h | h
            · exact Or.inl h
            · exact Or.inr (Or.inl h)
          · rw [List.mem_singleton] at h; exact Or.inr (Or.inr h)
        have m2 : ∀ p ∈ a :: (t ++ [last]), σ * turn a b p < 0 ∨ p = a ∨ p = b := by
          intro p hp
          apply side2
          rw [← List.cons_append] at hp
          rcases List.mem_append.1 hp with h | h
          · exact List.mem_append_left _ (mt p h)
          · exact List.mem_append_right _ h
        have ta : turn a b a = 0 := by unfold turn; ring
        have tb : turn a b b = 0 := by unfold turn; ring
        have w1 : ∀ p ∈ first :: yes ++ [a], (-(σ : ℝ)) * lineAt a b (real p) ≤ 0 := by
          intro p hp
          rw [lineAt_real]
          have : 0 ≤ σ * turn a b p := by
            rcases m1 p hp with h | rfl | rfl
            · exact h.le
            · rw [tb]; simp
            · rw [ta]; simp
          have : (0 : ℝ) ≤ (σ : ℝ) * (turn a b p : ℝ) := by exact_mod_cast this
          linarith
        have w2 : ∀ p ∈ a :: (t ++ [last]), (σ : ℝ) * lineAt a b (real p) ≤ 0 := by
          intro p hp
          rw [lineAt_real]
          have : σ * turn a b p ≤ 0 := by
            rcases m2 p hp with h | rfl | rfl
            · exact h.le
            · rw [ta]; simp
            · rw [tb]; simp
          exact_mod_cast this
        have z1 := side_le hz _ (w1 u hu) (w1 v hv)
        have z2 := side_le hz' _ (w2 u' hu') (w2 v' hv')
        have hσ0 : (σ : ℝ) ≠ 0 := by
          rcases hσ1 with rfl | rfl <;> norm_num
        have z0 : lineAt a b z = 0 := by
          have : (σ : ℝ) * lineAt a b z = 0 := by linarith
          exact (mul_eq_zero.1 this).resolve_left hσ0
        by_cases hb1 : b ∈ first :: yes
        · have hb2 : b ∉ a :: (t ++ [last]) := fun h => (List.nodup_append.1 nall).2.2 b hb1 b h rfl
          have k2 : ∀ p ∈ a :: (t ++ [last]), 0 < (-(σ : ℝ)) * lineAt a b (real p) ∨ p = a := by
            intro p hp
            rcases m2 p hp with h | h | rfl
            · left
              rw [lineAt_real]
              have : (σ : ℝ) * (turn a b p : ℝ) < 0 := by exact_mod_cast h
              linarith
            · exact Or.inr h
            · exact absurd hp hb2
          exact touch hz' _ z0 (k2 u' hu') (k2 v' hv')
        · have k1 : ∀ p ∈ first :: yes ++ [a], 0 < (σ : ℝ) * lineAt a b (real p) ∨ p = a := by
            intro p hp
            rcases m1 p hp with h | rfl | h
            · left
              rw [lineAt_real]
              exact_mod_cast h
            · rcases List.mem_append.1 hp with h | h
              · exact absurd h hb1
              · exact Or.inr (List.mem_singleton.1 h)
            · exact Or.inr h
          exact touch hz _ z0 (k1 u hu) (k1 v hv)

end ICPC.Archive
