import Verif.Lemmas.ConvexTour
import Verif.Lemmas.ConvexEdges
import Verif.Props.Geo
import Verif.Props.Simple

/-!
# C90: `isConvex` together with `isSimple`

`isConvex` and `isStrictlyConvex` accept polygons that wind several times (C29).  A simple polygon that they accept is convex, and convex polygons
are simple, so the two checks of src/validate.h together decide convexity.
-/

namespace ICPC.Props

open ICPC ICPC.Spec

/-- Vertex number `i` as a point of the real plane, with the first vertex as the origin. -/
private noncomputable def pt (pts : List Pt) (i : Nat) : ℝ × ℝ :=
  (((cyc pts i).1 : ℝ) - (cyc pts 0).1, ((cyc pts i).2 : ℝ) - (cyc pts 0).2)

private theorem pt_zero (pts : List Pt) : pt pts 0 = 0 := by simp [pt]

private theorem pt_period (pts : List Pt) (i : Nat) : pt pts (i + pts.length) = pt pts i := by
  unfold pt; rw [cyc_add_length]

private theorem pt_inj {pts : List Pt} {i j : Nat} : pt pts i = pt pts j ↔ cyc pts i = cyc pts j := by
  unfold pt
  rw [Prod.mk.injEq]
  constructor
  · rintro ⟨h1, h2⟩
    exact Prod.ext (by exact_mod_cast sub_left_injective h1) (by exact_mod_cast sub_left_injective h2)
  · intro h
    rw [h]
    exact ⟨rfl, rfl⟩

private theorem tri_turn (pts : List Pt) (i j k : Nat) : tri (pt pts i) (pt pts j) (pt pts k) = (turn (cyc pts i) (cyc pts j) (cyc pts k) : ℝ) := by
  unfold pt tri cr turn
  simp only [Prod.fst_sub, Prod.snd_sub]
  push_cast
  ring

private theorem cr_turn (pts : List Pt) (i j : Nat) : cr (pt pts i) (pt pts j) = (turn (cyc pts 0) (cyc pts i) (cyc pts j) : ℝ) := by
  unfold pt cr turn
  push_cast
  ring

/-- The point of edge number `i` with parameter `s`, in the original coordinates. -/
private noncomputable def edgePt (pts : List Pt) (i : Nat) (s : ℝ) : ℝ × ℝ :=
  ((vertex pts i).1 + s * ((vertex pts (i + 1)).1 - (vertex pts i).1), (vertex pts i).2 + s * ((vertex pts (i + 1)).2 - (vertex pts i).2))

private theorem onEdge_iff' (pts : List Pt) (i : Nat) (p : ℝ × ℝ) : OnEdge pts i p ↔ ∃ s, 0 ≤ s ∧ s ≤ 1 ∧ p = edgePt pts i s := by
  unfold OnEdge OnSegment edgePt
  simp only [Prod.ext_iff]

private theorem edgePt_along (pts : List Pt) (i : Nat) (s : ℝ) :
    edgePt pts i s = ((along (pt pts i) (pt pts (i + 1)) s).1 + (cyc pts 0).1, (along (pt pts i) (pt pts (i + 1)) s).2 + (cyc pts 0).2) := by
  unfold edgePt along pt
  apply Prod.ext
  · show _ = _ + _; simp only; show ((cyc pts i).1 : ℝ) + s * ((cyc pts (i + 1)).1 - (cyc pts i).1) = _; ring
  · show _ = _ + _; simp only; show ((cyc pts i).2 : ℝ) + s * ((cyc pts (i + 1)).2 - (cyc pts i).2) = _; ring

private theorem edgePt_eq {pts : List Pt} {i j : Nat} {s t : ℝ} :
    edgePt pts i s = edgePt pts j t ↔ along (pt pts i) (pt pts (i + 1)) s = along (pt pts j) (pt pts (j + 1)) t := by
  rw [edgePt_along, edgePt_along, Prod.mk.injEq, Prod.ext_iff]
  constructor
  · rintro ⟨h1, h2⟩; exact ⟨by linarith, by linarith⟩
  · rintro ⟨h1, h2⟩; exact ⟨by rw [h1], by rw [h2]⟩

private theorem isVertex_iff {pts : List Pt} {i j : Nat} {s : ℝ} :
    IsVertex pts j (edgePt pts i s) ↔ along (pt pts i) (pt pts (i + 1)) s = pt pts j := by
  have e : pt pts j = along (pt pts j) (pt pts (j + 1)) 0 := (along_start _ _).symm
  rw [e, ← edgePt_eq]
  unfold IsVertex
  rw [show (((vertex pts j).1 : ℝ), ((vertex pts j).2 : ℝ)) = edgePt pts j 0 by unfold edgePt; simp]

/-- An accepted simple polygon is a tour. -/
private theorem tour_of_accepted {pts : List Pt} (hS : SimplePolygon pts) (hl : ∀ i, i < pts.length → LocalOk pts i)
    (ha : ∃ i, i < pts.length ∧ turn (cyc pts i) (cyc pts (i + 1)) (cyc pts (i + 2)) ≠ 0) : Tour (pt pts) pts.length := by
  obtain ⟨h3, hne, hs⟩ := hS
  have hfin : pt pts pts.length = 0 := by
    have := pt_period pts 0
    rwa [zero_add, pt_zero] at this
  have hprop : ∀ i, i < pts.length → pt pts i ≠ pt pts (i + 1) := fun i hi h => (hl i hi).1 (pt_inj.1 h)
  have hsimple : ∀ i j, i < j → j < pts.length → ∀ s t, 0 ≤ s → s ≤ 1 → 0 ≤ t → t ≤ 1 →
      along (pt pts i) (pt pts (i + 1)) s = along (pt pts j) (pt pts (j + 1)) t →
      (j = i + 1 ∧ along (pt pts i) (pt pts (i + 1)) s = pt pts j) ∨ (i = 0 ∧ j = pts.length - 1 ∧ along (pt pts i) (pt pts (i + 1)) s = 0) := by
    intro i j hij hj s t s0 s1 t0 t1 heq
    rcases hs i j hij hj (edgePt pts i s) ((onEdge_iff' _ _ _).2 ⟨s, s0, s1, rfl⟩)
      ((onEdge_iff' _ _ _).2 ⟨t, t0, t1, edgePt_eq.2 heq⟩) with ⟨h1, h2⟩ | ⟨h1, h2, h4⟩
    · exact .inl ⟨h1, isVertex_iff.1 h2⟩
    · refine .inr ⟨h1, h2, ?_⟩
      rw [← pt_zero pts]
      exact isVertex_iff.1 h4
  refine ⟨h3, pt_zero pts, hfin, hprop, ?_, ?_, ?_, hsimple, ?_⟩
  · intro i _ hi
    rw [cr_turn]
    exact_mod_cast (hl i (by omega)).2.1
  · intro i hi
    rw [tri_turn]
    exact_mod_cast (hl i (by omega)).2.2
  · have h := (hl (pts.length - 1) (by omega)).2.2
    rw [show pts.length - 1 + 1 = 0 + pts.length by omega, show pts.length - 1 + 2 = 1 + pts.length by omega, cyc_add_length, cyc_add_length,
      turn_rot] at h
    rw [cr_turn]
    exact_mod_cast h
  · by_contra hno
    push Not at hno
    obtain ⟨i, hi, hturn⟩ := ha
    -- otherwise all vertices are multiples of the second one
    have hnz : ∀ j, 1 ≤ j → j < pts.length → pt pts j ≠ 0 := by
      intro j h1 hj h0
      rcases Nat.lt_or_ge (j + 1) pts.length with h' | h'
      · rcases hsimple 0 j (by omega) hj 0 0 le_rfl zero_le_one le_rfl zero_le_one (by rw [along_start, along_start, pt_zero, h0])
          with ⟨e, -⟩ | ⟨-, e, -⟩
        · subst e
          exact hprop 0 (by omega) (by rw [pt_zero, h0])
        · omega
      · have := hprop j hj
        rw [show j + 1 = pts.length by omega, hfin] at this
        exact this h0
    have hmul : ∀ j, j < pts.length → ∃ l, pt pts j = along 0 (pt pts 1) l := by
      intro j
      induction j with
      | zero => intro _; exact ⟨0, by rw [along_zero_zero, pt_zero]⟩
      | succ j ih =>
        intro hj
        rcases Nat.eq_zero_or_pos j with rfl | hpos
        · exact ⟨1, (along_one _ _).symm⟩
        · obtain ⟨l, hl'⟩ := ih (by omega)
          obtain ⟨m, hm⟩ := multiple_of_cr (hnz j hpos (by omega)) (hno j hpos hj)
          exact ⟨m * l, by rw [hm, hl', along_along]⟩
    have hmul' : ∀ j, ∃ l, pt pts j = along 0 (pt pts 1) l := by
      intro j
      have e : pt pts j = pt pts (j % pts.length) := by unfold pt; rw [cyc_mod]
      rw [e]
      exact hmul _ (Nat.mod_lt _ (by omega))
    apply hturn
    have h0 : tri (pt pts i) (pt pts (i + 1)) (pt pts (i + 2)) = 0 := by
      obtain ⟨a, ha⟩ := hmul' i
      obtain ⟨b, hb⟩ := hmul' (i + 1)
      obtain ⟨c, hc⟩ := hmul' (i + 2)
      rw [ha, hb, hc]
      simp only [tri, cr, along, Prod.fst_sub, Prod.snd_sub, Prod.fst_zero, Prod.snd_zero]
      ring
    rw [tri_turn] at h0
    exact_mod_cast h0

private theorem cyc_add_mul (pts : List Pt) (i q : Nat) : cyc pts (i + q * pts.length) = cyc pts i := by
  unfold cyc; rw [Nat.add_mul_mod_self_right]

/-- Three vertices in cyclic order. -/
private theorem turn_cyclic {pts : List Pt}
    (hc : ∀ i j k (hi : i < pts.length) (hj : j < pts.length) (hk : k < pts.length), i < j → j < k → 0 ≤ turn pts[i] pts[j] pts[k])
    {i j k : Nat} (hi : i < pts.length) (hij : i < j) (hjk : j < k) (hk : k < i + pts.length) :
    0 ≤ turn (cyc pts i) (cyc pts j) (cyc pts k) := by
  rcases Nat.lt_or_ge k pts.length with h1 | h1
  · rw [cyc_lt hi, cyc_lt (by omega), cyc_lt h1]
    exact hc i j k hi (by omega) h1 hij hjk
  · obtain ⟨k', rfl⟩ := Nat.exists_eq_add_of_le' h1
    rw [cyc_add_length]
    rcases Nat.lt_or_ge j pts.length with h2 | h2
    · rw [← turn_rot, cyc_lt hi, cyc_lt h2, cyc_lt (by omega)]
      exact hc k' i j (by omega) hi h2 (by omega) hij
    · obtain ⟨j', rfl⟩ := Nat.exists_eq_add_of_le' h2
      rw [cyc_add_length, turn_rot, cyc_lt hi, cyc_lt (by omega), cyc_lt (by omega)]
      exact hc j' k' i (by omega) (by omega) hi (by omega) (by omega)

/-- The vertices of a convex polygon, as a periodic sequence. -/
private theorem ring_of_convex {pts : List Pt} (h : ConvexPolygon pts) : ConvexRing (pt pts) pts.length := by
  obtain ⟨h3, hc, hne, a, b, c, ha, hb, hcl, habc⟩ := h
  have hn : 0 < pts.length := by omega
  have hred : ∀ i d, cyc pts (i + d) = cyc pts (i % pts.length + d) := by
    intro i d
    conv_lhs => rw [← Nat.mod_add_div i pts.length]
    rw [Nat.mul_comm, Nat.add_right_comm, cyc_add_mul]
  have hprop : ∀ i, cyc pts i ≠ cyc pts (i + 1) := by
    intro i
    rw [hred i 1, ← cyc_mod pts i]
    exact cyc_succ_ne hne _ (Nat.mod_lt _ hn)
  have hturns : ∀ i j k, i < j → j < k → k < i + pts.length → 0 ≤ turn (cyc pts i) (cyc pts j) (cyc pts k) := by
    intro i j k h1 h2 h4
    have e1 := hred i (j - i)
    have e2 := hred i (k - i)
    rw [show i + (j - i) = j by omega] at e1
    rw [show i + (k - i) = k by omega] at e2
    rw [e1, e2, ← cyc_mod pts i]
    exact turn_cyclic hc (Nat.mod_lt _ hn) (by omega) (by omega) (by omega)
  refine ⟨h3, pt_period pts, fun i e => hprop i (pt_inj.1 e), ?_, ?_⟩
  · intro i j k h1 h2 h4
    rw [tri_turn]
    exact_mod_cast hturns i j k h1 h2 h4
  · intro i
    by_contra hno
    push Not at hno
    have hall : ∀ m, m < pts.length → turn (cyc pts i) (cyc pts (i + 1)) (cyc pts m) = 0 := by
      intro m hm
      obtain ⟨w, hw1, hw2, hw⟩ : ∃ w, i ≤ w ∧ w < i + pts.length ∧ cyc pts w = cyc pts m := by
        have hi := Nat.mod_add_div i pts.length
        have hi' := Nat.mod_lt i hn
        rcases Nat.lt_or_ge m (i % pts.length) with h1 | h1
        · refine ⟨m + (i / pts.length + 1) * pts.length, ?_, ?_, cyc_add_mul _ _ _⟩ <;>
            · rw [Nat.add_mul, Nat.one_mul, Nat.mul_comm (i / pts.length)]; omega
        · refine ⟨m + (i / pts.length) * pts.length, ?_, ?_, cyc_add_mul _ _ _⟩ <;>
            · rw [Nat.mul_comm (i / pts.length)]; omega
      rw [← hw]
      rcases Nat.lt_or_ge (i + 1) w with h1 | h1
      · have e1 := hno w h1 hw2
        rw [tri_turn] at e1
        exact le_antisymm (by exact_mod_cast e1) (hturns i (i + 1) w (by omega) h1 hw2)
      · rcases Nat.eq_or_lt_of_le hw1 with rfl | h2
        · exact turn_self _ _
        · rw [show w = i + 1 by omega, turn_rot, turn_self']
    apply habc
    have := collinear_triple (hprop i) (hall a ha) (hall b hb) (hall c hcl)
    rwa [cyc_lt ha, cyc_lt hb, cyc_lt hcl] at this

/-- Convex polygons are simple. -/
theorem simple_of_convex {pts : List Pt} (h : ConvexPolygon pts) : SimplePolygon pts := by
  have hr := ring_of_convex h
  have h3 := h.1
  refine ⟨h3, fun i hi => cyc_succ_ne h.2.2.1 i hi, fun i j hij hj p h1 h2 => ?_⟩
  obtain ⟨s, s0, s1, rfl⟩ := (onEdge_iff' _ _ _).1 h1
  obtain ⟨t, t0, t1, he⟩ := (onEdge_iff' _ _ _).1 h2
  have he' := edgePt_eq.1 he
  by_cases hadj : j = i + 1
  · subst hadj
    exact .inl ⟨rfl, isVertex_iff.2 (hr.adjacent s1 t0 he')⟩
  · by_cases hlast : i = 0 ∧ j = pts.length - 1
    · obtain ⟨rfl, rfl⟩ := hlast
      refine .inr ⟨rfl, rfl, ?_⟩
      rw [he, isVertex_iff]
      have e0 : pts.length - 1 + 1 = 0 + pts.length := by omega
      have e1 : pts.length - 1 + 2 = 1 + pts.length := by omega
      have e2 : pt pts (pts.length - 1 + 1) = pt pts 0 := by rw [e0, pt_period]
      have e3 : pt pts (pts.length - 1 + 1 + 1) = pt pts 1 := by rw [Nat.add_assoc, e1, pt_period]
      have := hr.adjacent (i := pts.length - 1) t1 s0 (by rw [e3, e2]; rw [e2] at he'; exact he'.symm)
      rw [this, e2]
    · exact absurd he' (hr.apart (by omega) (by omega) s0 s1 t0 t1)

/-- Accepted simple polygons are convex. -/
theorem convex_of_accepted {pts : List Pt} (hS : SimplePolygon pts) (hl : ∀ i, i < pts.length → LocalOk pts i)
    (ha : ∃ i, i < pts.length ∧ turn (cyc pts i) (cyc pts (i + 1)) (cyc pts (i + 2)) ≠ 0) : ConvexPolygon pts := by
  have ht := tour_of_accepted hS hl ha
  have h3 := hS.1
  refine ⟨h3, ?_, ?_, ?_⟩
  · intro i j k hi hj hk hij hjk
    have := ht.convex hij hjk hk
    rw [tri_turn, cyc_lt hi, cyc_lt hj, cyc_lt hk] at this
    exact_mod_cast this
  · intro i hi
    have := (hl i hi).1
    rwa [← cyc_mod pts (i + 1), cyc_lt hi, cyc_lt (Nat.mod_lt _ (by omega))] at this
  · obtain ⟨i, hi, hne⟩ := ha
    obtain ⟨a, b, c, hab, hbc, hc, e⟩ := cyc_triple h3 i hi
    exact ⟨a, b, c, by omega, by omega, hc, by rwa [← e]⟩

/-- A convex polygon without straight angles is strictly convex. -/
private theorem strict_of_convex {pts : List Pt} (h : ConvexPolygon pts) (hl : ∀ i, i < pts.length → LocalOk pts i)
    (hne : ∀ i, i < pts.length → turn (cyc pts i) (cyc pts (i + 1)) (cyc pts (i + 2)) ≠ 0) : StrictlyConvexPolygon pts := by
  have hr := ring_of_convex h
  have h3 := h.1
  have hpos : ∀ i, i < pts.length → 0 < turn (cyc pts i) (cyc pts (i + 1)) (cyc pts (i + 2)) :=
    fun i hi => lt_of_le_of_ne (hl i hi).2.2 (Ne.symm (hne i hi))
  refine strict_of_accepted h3 hl hne fun j hj2 hj => ?_
  have h2 := hpos 0 (by omega)
  rw [zero_add, zero_add] at h2
  have h2' : 0 < tri (pt pts 0) (pt pts 1) (pt pts 2) := by rw [tri_turn]; exact_mod_cast h2
  have hl' := hpos (pts.length - 1) (by omega)
  rw [show pts.length - 1 + 1 = 0 + pts.length by omega, show pts.length - 1 + 2 = 1 + pts.length by omega, cyc_add_length, cyc_add_length,
    turn_rot] at hl'
  have hl2 : 0 < tri (pt pts 0) (pt pts 1) (pt pts (pts.length - 1)) := by rw [tri_turn]; exact_mod_cast hl'
  have hge : 0 ≤ tri (pt pts 0) (pt pts 1) (pt pts j) := hr.turns 0 1 j (by omega) (by omega) (by omega)
  rw [tri_turn] at hge
  refine lt_of_le_of_ne (by exact_mod_cast hge) fun h0 => ?_
  have h0' : tri (pt pts 0) (pt pts 1) (pt pts j) = 0 := by rw [tri_turn, ← h0, Int.cast_zero]
  have hj3 : 2 < j := by
    rcases Nat.eq_or_lt_of_le hj2 with rfl | h
    · rw [h0'] at h2'; exact absurd h2' (lt_irrefl _)
    · exact h
  have hjl : j < pts.length - 1 := by
    rcases Nat.lt_or_ge j (pts.length - 1) with h | h
    · exact h
    · rw [show j = pts.length - 1 by omega] at h0'
      rw [h0'] at hl2; exact absurd hl2 (lt_irrefl _)
  obtain ⟨r, hrr⟩ := on_line' (hr.proper 0) h0'
  have hneg := hr.behind (i := 0) (m := j) (w := 2) (by omega) (by omega) (by omega) hj3 h2' hrr
  have hlast := hr.turns 0 j (pts.length - 1) (by omega) hjl (by omega)
  rw [← tri_rot] at hlast
  have e : tri (pt pts j) (pt pts (pts.length - 1)) (pt pts 0) = r * tri (pt pts 0) (pt pts 1) (pt pts (pts.length - 1)) := by
    rw [hrr]
    have := tri_line3 (pt pts 0) (pt pts 1) (pt pts (pts.length - 1)) r 0
    rw [along_start, sub_zero] at this
    exact this
  rw [e] at hlast
  nlinarith

/-- **C90.** A polygon is convex and listed counter-clockwise iff it is simple and `isConvex` accepts it. -/
theorem C90_isConvex_simple (pts : List Pt) (hs : SmallCoordinates pts) :
    ConvexPolygon pts ↔ isConvex pts = .ok true ∧ SimplePolygon pts := by
  obtain ⟨b, hb, h1, -⟩ := C29_isConvex_partial pts hs
  obtain ⟨b', hb', hiff⟩ := isConvex_spec hs
  constructor
  · intro h
    exact ⟨by rw [hb, h1 h], simple_of_convex h⟩
  · rintro ⟨h, hS⟩
    rw [hb'] at h
    obtain ⟨-, hl, ha⟩ := hiff.1 (Except.ok.inj h)
    exact convex_of_accepted hS hl ha

/-- Left turns everywhere leave no room for a spike. -/
private theorem noSpikes_of_turns {pts : List Pt} (hl : ∀ i, i < pts.length → LocalOk pts i)
    (hne : ∀ i, i < pts.length → turn (cyc pts i) (cyc pts (i + 1)) (cyc pts (i + 2)) ≠ 0) : NoSpikes pts := by
  refine ⟨fun i hi => (hl i hi).1, fun i hi p h1 h2 => ?_⟩
  obtain ⟨s, s0, s1, rfl⟩ := (onEdge_iff' _ _ _).1 h1
  obtain ⟨t, t0, t1, he⟩ := (onEdge_iff' _ _ _).1 h2
  have he' := edgePt_eq.1 he
  have hz : t * tri (pt pts i) (pt pts (i + 1)) (pt pts (i + 2)) = 0 := by
    have e1 : tri (pt pts i) (pt pts (i + 1)) (along (pt pts i) (pt pts (i + 1)) s) = 0 := by
      simp only [tri, cr, along, Prod.fst_sub, Prod.snd_sub]; ring
    rw [he'] at e1
    rw [← e1]
    simp only [tri, cr, along, Prod.fst_sub, Prod.snd_sub]; ring
  have ht : t = 0 := by
    refine (mul_eq_zero.1 hz).resolve_right ?_
    rw [tri_turn]
    exact_mod_cast hne i hi
  rw [isVertex_iff, he', ht, along_start]

/-- **C90.** `isStrictlyConvex` and `isSimple` together decide strict convexity, whatever the shapes of the trees
that `isSimple` builds. -/
theorem C90_isStrictlyConvex (shape : Nat → Nat → Nat → Nat) (pts : List Pt) (hs : SmallCoordinates pts) :
    StrictlyConvexPolygon pts ↔ isStrictlyConvex pts = .ok true ∧ isSimple shape pts = .ok true := by
  obtain ⟨b, hb, hiff⟩ := isStrictlyConvex_spec hs
  obtain ⟨b', hb', h1, -⟩ := C29_isStrictlyConvex_partial pts hs
  constructor
  · intro h
    have ht : isStrictlyConvex pts = .ok true := by rw [hb', h1 h]
    refine ⟨ht, C67_accepts_simple shape pts hs ?_⟩
    rw [hb] at ht
    obtain ⟨h3, hl, hne⟩ := hiff.1 (Except.ok.inj ht)
    refine simple_of_convex ⟨h3, fun i j k hi hj hk hij hjk => (h.2 i j k hi hj hk hij hjk).le, ?_, 0, 1, 2, by omega, by omega, by omega, ?_⟩
    · intro i hi
      have := (hl i hi).1
      rwa [← cyc_mod pts (i + 1), cyc_lt hi, cyc_lt (Nat.mod_lt _ (by omega))] at this
    · exact (h.2 0 1 2 (by omega) (by omega) (by omega) (by omega) (by omega)).ne'
  · rintro ⟨h, hS⟩
    rw [hb] at h
    obtain ⟨h3, hl, hne⟩ := hiff.1 (Except.ok.inj h)
    obtain ⟨c, hc, hc'⟩ := C67_decides_partial shape pts hs (noSpikes_of_turns hl hne)
    rw [hc] at hS
    exact strict_of_convex (convex_of_accepted (hc'.1 (Except.ok.inj hS)) hl ⟨0, by omega, hne 0 (by omega)⟩) hl hne

/-- **C90.** Both `isConvex` and `isSimple` accept every convex polygon that is listed counter-clockwise, and a
polygon that both accept is convex if no edge folds back onto the edge before it. -/
theorem C90_isConvex_partial (shape : Nat → Nat → Nat → Nat) (pts : List Pt) (hs : SmallCoordinates pts) :
    (ConvexPolygon pts → isConvex pts = .ok true ∧ isSimple shape pts = .ok true) ∧
    (NoSpikes pts → isConvex pts = .ok true → isSimple shape pts = .ok true → ConvexPolygon pts) := by
  constructor
  · intro h
    obtain ⟨h1, h2⟩ := (C90_isConvex_simple pts hs).1 h
    exact ⟨h1, C67_accepts_simple shape pts hs h2⟩
  · intro hns h1 h2
    obtain ⟨c, hc, hc'⟩ := C67_decides_partial shape pts hs hns
    rw [hc] at h2
    exact (C90_isConvex_simple pts hs).2 ⟨h1, hc'.1 (Except.ok.inj h2)⟩

/-- **C90, refuted for `isConvex`.**  The edges from `(1, 1)` to `(2, 2)` and from `(2, 2)` to `(0, 0)` of this polygon
overlap, so that it is not convex, but both `isConvex` and `isSimple` accept it, whatever the shape of the search
tree. -/
theorem C90_spike_refuted :
    isConvex [(1, 1), (2, 2), (0, 0), (3, 2), (1, 3)] = .ok true ∧
    (∀ shape, isSimple shape [(1, 1), (2, 2), (0, 0), (3, 2), (1, 3)] = .ok true) ∧
    ¬ ConvexPolygon [(1, 1), (2, 2), (0, 0), (3, 2), (1, 3)] := by
  refine ⟨by decide +kernel, fun shape => ?_, fun h => ?_⟩
  · have h0 : isSimple (fun _ _ _ => 0) [(1, 1), (2, 2), (0, 0), (3, 2), (1, 3)] = .ok true := by decide +kernel
    have hs : SmallCoordinates [(1, 1), (2, 2), (0, 0), (3, 2), (1, 3)] := by intro p hp; fin_cases hp <;> decide
    rw [isSimple_eq hs (by decide)] at h0 ⊢
    rw [sweep_indep shape _ 0 0 [] (by decide +kernel), h0]
  · exact absurd (h.2.1 0 1 3 (by decide) (by decide) (by decide) (by decide) (by decide)) (by decide +kernel)

/-- The polygon of `C29_winding_refuted`, which `isStrictlyConvex` accepts, is caught by `isSimple`. -/
example (shape : Nat → Nat → Nat → Nat) :
    isSimple shape [(0, 0), (10, -1), (10, 10), (-10, 10), (-10, -10), (10, -10), (10, 5)] ≠ .ok true := fun h =>
  C29_winding_refuted.2.1 ((C90_isStrictlyConvex shape _ (by intro p hp; fin_cases hp <;> decide)).2 ⟨C29_winding_refuted.1, h⟩)

/-- A pentagon with a vertex inside of an edge. -/
private theorem pentagon_convex : ConvexPolygon [(0, 0), (2, 0), (4, 0), (5, 3), (1, 4)] := by
  have h : ∀ i, ∀ hi : i < [(0, 0), (2, 0), (4, 0), (5, 3), ((1 : Int), (4 : Int))].length, ∀ j,
      ∀ hj : j < [(0, 0), (2, 0), (4, 0), (5, 3), ((1 : Int), (4 : Int))].length, ∀ k,
      ∀ hk : k < [(0, 0), (2, 0), (4, 0), (5, 3), ((1 : Int), (4 : Int))].length, i < j → j < k →
      0 ≤ turn [(0, 0), (2, 0), (4, 0), (5, 3), (1, 4)][i] [(0, 0), (2, 0), (4, 0), (5, 3), (1, 4)][j]
        [(0, 0), (2, 0), (4, 0), (5, 3), (1, 4)][k] := by decide +kernel
  exact ⟨by decide, fun i j k hi hj hk => h i hi j hj k hk, by decide +kernel, 0, 1, 3, by decide, by decide, by decide, by decide +kernel⟩

example : SimplePolygon [(0, 0), (2, 0), (4, 0), (5, 3), (1, 4)] := simple_of_convex pentagon_convex

/-- Convex polygons pass both checks. -/
example : isConvex [(0, 0), (2, 0), (4, 0), (5, 3), (1, 4)] = .ok true ∧ isSimple (fun _ _ hi => hi) [(0, 0), (2, 0), (4, 0), (5, 3), (1, 4)] = .ok true :=
  (C90_isConvex_partial _ _ (by intro p hp; fin_cases hp <;> decide)).1
    pentagon_convex

example : StrictlyConvexPolygon [(0, 0), (4, 0), (5, 3), (2, 5)] :=
  (C90_isStrictlyConvex (fun _ _ hi => hi) _ (by intro p hp; fin_cases hp <;> decide)).2 ⟨by decide +kernel, by decide +kernel⟩

end ICPC.Props
