import Mathlib.Tactic.IntervalCases
import Verif.Lemmas.Polygon
import Verif.Props.ConvexDisk
import Verif.Props.Convex

/-!
# C104: `Random::polygon` (archive/polygon.cpp)
-/

namespace ICPC.Props

open Spec Rand Archive

theorem nice_of {pts : List Pt} (hs : SmallCoordinates pts) (hg : GeneralPosition pts) (ha : NoRightAngle pts) : Nice pts := by
  have hn : pts.Nodup := by
    rw [List.nodup_iff_pairwise_ne, List.pairwise_iff_getElem]
    exact fun i j hi hj hij => hg.1 i j hi hj hij
  refine ⟨hn, ?_, ha, hs⟩
  intro a ha b hb c hc hab hac hbc
  obtain ⟨i, hi, rfl⟩ := List.getElem_of_mem ha
  obtain ⟨j, hj, rfl⟩ := List.getElem_of_mem hb
  obtain ⟨k, hk, rfl⟩ := List.getElem_of_mem hc
  have hij : i ≠ j := by rintro rfl; exact hab rfl
  have hik : i ≠ k := by rintro rfl; exact hac rfl
  have hjk : j ≠ k := by rintro rfl; exact hbc rfl
  have c1 : ∀ a b c : Pt, turn a b c = -turn a c b := by intro a b c; unfold turn; ring
  have c2 : ∀ a b c : Pt, turn a b c = -turn b a c := by intro a b c; unfold turn; ring
  have key := hg.2
  intro h
  have e1 := c1 pts[i] pts[j] pts[k]
  have e2 := c2 pts[i] pts[j] pts[k]
  have e3 := c1 pts[j] pts[i] pts[k]
  have e4 := c2 pts[i] pts[k] pts[j]
  have e5 := c1 pts[k] pts[i] pts[j]
  rcases Nat.lt_or_gt_of_ne hij with h1 | h1 <;> rcases Nat.lt_or_gt_of_ne hik with h2 | h2 <;> rcases Nat.lt_or_gt_of_ne hjk with h3 | h3
  · exact key i j k hi hj hk h1 h3 h
  · exact key i k j hi hk hj h2 h3 (by omega)
  · omega
  · exact key k i j hk hi hj h2 h1 (by omega)
  · exact key j i k hj hi hk h1 h2 (by omega)
  · omega
  · exact key j k i hj hk hi h3 h2 (by omega)
  · exact key k j i hk hj hi h3 h1 (by omega)

/-- the position along the direction -/
def along (dir p : Pt) : Int := p.1 * dir.1 + p.2 * dir.2

/-- three points with the same position are on a line -/
theorem along_turn {dir a b c : Pt} (hd : dir ≠ (0, 0)) (h1 : along dir a = along dir b) (h2 : along dir a = along dir c) : turn a b c = 0 := by
  unfold along at h1 h2
  have hd' : dir.1 ≠ 0 ∨ dir.2 ≠ 0 := by
    by_contra h
    rw [not_or, not_not, not_not] at h
    exact hd (Prod.ext h.1 h.2)
  unfold turn
  rcases hd' with h | h
  · have : dir.1 * ((b.1 - a.1) * (c.2 - a.2) - (b.2 - a.2) * (c.1 - a.1)) = 0 := by
      linear_combination (a.2 - c.2) * h1 - (a.2 - b.2) * h2
    exact (mul_eq_zero.1 this).resolve_left h
  · have : dir.2 * ((b.1 - a.1) * (c.2 - a.2) - (b.2 - a.2) * (c.1 - a.1)) = 0 := by
      linear_combination (b.1 - a.1) * h2 * (-1) + (c.1 - a.1) * h1
    exact (mul_eq_zero.1 this).resolve_left h

/-- two edges of a triangle meet only in their common corner -/
theorem corner {a b c : Pt} {q : ℝ × ℝ} (h : turn a b c ≠ 0) (h1 : OnSegment a b q) (h2 : OnSegment a c q) : q = real a := by
  obtain ⟨t, -, -, x1, y1⟩ := h1
  obtain ⟨s, -, -, x2, y2⟩ := h2
  have hr : ((b.1 : ℝ) - a.1) * (c.2 - a.2) - (b.2 - a.2) * (c.1 - a.1) ≠ 0 := by
    intro h'
    apply h
    unfold turn
    exact_mod_cast h'
  have e1 : t * ((b.1 : ℝ) - a.1) = s * (c.1 - a.1) := by linarith
  have e2 : t * ((b.2 : ℝ) - a.2) = s * (c.2 - a.2) := by linarith
  have : t * (((b.1 : ℝ) - a.1) * (c.2 - a.2) - (b.2 - a.2) * (c.1 - a.1)) = 0 := by
    linear_combination (c.2 - a.2 : ℝ) * e1 - (c.1 - a.1 : ℝ) * e2
  have t0 := (mul_eq_zero.1 this).resolve_right hr
  subst t0
  exact Prod.ext (by rw [x1]; unfold real; ring) (by rw [y1]; unfold real; ring)

theorem onSegment_symm {a b : Pt} {q : ℝ × ℝ} (h : OnSegment a b q) : OnSegment b a q := by
  obtain ⟨t, h0, h1, x, y⟩ := h
  exact ⟨1 - t, by linarith, by linarith, by rw [x]; ring, by rw [y]; ring⟩

/-- the segment between the first two points in a direction meets no segment between two others -/
theorem first_edge {dir p0 p1 u v : Pt} {q : ℝ × ℝ} (hd : dir ≠ (0, 0)) (h01 : along dir p0 ≤ along dir p1) (hu : along dir p1 ≤ along dir u)
    (hv : along dir p1 ≤ along dir v) (tu : turn p1 p0 u ≠ 0) (tv : turn p1 p0 v ≠ 0) (tuv : turn p1 u v ≠ 0) (h1 : OnSegment p1 p0 q)
    (h2 : OnSegment u v q) : False := by
  obtain ⟨t, t0, t1, x1, y1⟩ := h1
  obtain ⟨s, s0, s1, x2, y2⟩ := h2
  have hne : along dir p1 < along dir u ∨ along dir p1 < along dir v := by
    by_contra h
    rw [not_or, not_lt, not_lt] at h
    exact tuv (along_turn hd (le_antisymm hu h.1) (le_antisymm hv h.2))
  have hstrict : along dir p0 < along dir p1 ∨ (along dir p1 < along dir u ∧ along dir p1 < along dir v) := by
    rcases h01.lt_or_eq with h | h
    · exact Or.inl h
    · right
      constructor
      · refine lt_of_le_of_ne hu fun h' => tu (along_turn hd h.symm h')
      · refine lt_of_le_of_ne hv fun h' => tv (along_turn hd h.symm h')
  -- the position of the common point, twice
  have e : (1 - t) * (along dir p1 : ℝ) + t * along dir p0 = (1 - s) * along dir u + s * along dir v := by
    have ex : (p1.1 : ℝ) + t * (p0.1 - p1.1) = u.1 + s * (v.1 - u.1) := by rw [← x1, ← x2]
    have ey : (p1.2 : ℝ) + t * (p0.2 - p1.2) = u.2 + s * (v.2 - u.2) := by rw [← y1, ← y2]
    unfold along
    push_cast
    linear_combination (dir.1 : ℝ) * ex + (dir.2 : ℝ) * ey
  have r01 : (along dir p0 : ℝ) ≤ along dir p1 := by exact_mod_cast h01
  have ru : (along dir p1 : ℝ) ≤ along dir u := by exact_mod_cast hu
  have rv : (along dir p1 : ℝ) ≤ along dir v := by exact_mod_cast hv
  have k0 : 0 ≤ t * ((along dir p1 : ℝ) - along dir p0) := mul_nonneg t0 (by linarith)
  have k1 : 0 ≤ (1 - s) * ((along dir u : ℝ) - along dir p1) := mul_nonneg (by linarith) (by linarith)
  have k2 : 0 ≤ s * ((along dir v : ℝ) - along dir p1) := mul_nonneg s0 (by linarith)
  have e0 : t * ((along dir p1 : ℝ) - along dir p0) = 0 := by nlinarith
  have e1 : (1 - s) * ((along dir u : ℝ) - along dir p1) = 0 := by nlinarith
  have e2 : s * ((along dir v : ℝ) - along dir p1) = 0 := by nlinarith
  rcases hstrict with h | ⟨h, h'⟩
  · have : (along dir p0 : ℝ) < along dir p1 := by exact_mod_cast h
    have ht : t = 0 := (mul_eq_zero.1 e0).resolve_right (by intro h; linarith)
    subst ht
    -- the common point is `p1`, and an end of the other segment
    rcases hne with h | h
    · have : (along dir p1 : ℝ) < along dir u := by exact_mod_cast h
      have hs : s = 1 := by have := (mul_eq_zero.1 e1).resolve_right (by intro h; linarith); linarith
      subst hs
      have : p1 = v := Prod.ext (by have : (p1.1 : ℝ) = v.1 := by linarith
                                    exact_mod_cast this) (by have : (p1.2 : ℝ) = v.2 := by linarith
                                                             exact_mod_cast this)
      subst this
      apply tuv
      unfold turn; ring
    · have : (along dir p1 : ℝ) < along dir v := by exact_mod_cast h
      have hs : s = 0 := (mul_eq_zero.1 e2).resolve_right (by intro h; linarith)
      subst hs
      have : p1 = u := Prod.ext (by have : (p1.1 : ℝ) = u.1 := by linarith
                                    exact_mod_cast this) (by have : (p1.2 : ℝ) = u.2 := by linarith
                                                             exact_mod_cast this)
      subst this
      apply tuv
      unfold turn; ring
  · have a1 : (along dir p1 : ℝ) < along dir u := by exact_mod_cast h
    have a2 : (along dir p1 : ℝ) < along dir v := by exact_mod_cast h'
    have s1' := (mul_eq_zero.1 e1).resolve_right (by intro h; linarith)
    have s0' := (mul_eq_zero.1 e2).resolve_right (by intro h; linarith)
    linarith

/-- a simple path from the first to the second point in a direction closes to a simple polygon -/
theorem close_path {dir p0 p1 : Pt} {r : List Pt} (hn : Nice r) (hlen : 3 ≤ r.length) (hd : dir ≠ (0, 0)) (hs : SimplePath r) (e0 : nth r 0 = p0)
    (e1 : nth r (r.length - 1) = p1) (h01 : along dir p0 ≤ along dir p1)
    (hlow : ∀ p ∈ r, p ≠ p0 → along dir p1 ≤ along dir p) : SimplePolygon r := by
  have hv : ∀ i, i < r.length → vertex r i = nth r i := by
    intro i hi
    unfold vertex nth
    rw [Nat.mod_eq_of_lt hi]
  have hvn : vertex r r.length = nth r 0 := by
    unfold vertex nth
    rw [Nat.mod_self]
  have ne : ∀ i j, i < r.length → j < r.length → i ≠ j → nth r i ≠ nth r j := fun i j hi hj hij h => hij (nth_inj hn.nodup hi hj h)
  have tn : ∀ i j k, i < r.length → j < r.length → k < r.length → i ≠ j → i ≠ k → j ≠ k → turn (nth r i) (nth r j) (nth r k) ≠ 0 :=
    fun i j k hi hj hk h1 h2 h3 => hn.turn _ (nth_mem hi) _ (nth_mem hj) _ (nth_mem hk) (ne i j hi hj h1) (ne i k hi hk h2) (ne j k hj hk h3)
  refine ⟨hlen, ?_, ?_⟩
  · intro i hi
    rw [hv i hi]
    by_cases h : i + 1 < r.length
    · rw [hv _ h]
      exact ne _ _ hi h (by omega)
    · rw [show i + 1 = r.length by omega, hvn]
      exact ne _ _ hi (by omega) (by omega)
  · intro i j hij hj q h1 h2
    unfold OnEdge at h1 h2
    rw [hv i (by omega), hv (i + 1) (by omega)] at h1
    rw [hv j hj] at h2
    unfold IsVertex
    by_cases hj' : j + 1 < r.length
    · rw [hv _ hj'] at h2
      obtain ⟨h, h'⟩ := hs i j hij hj' q h1 h2
      left
      rw [hv j hj]
      exact ⟨h, h'⟩
    · have ej : j = r.length - 1 := by omega
      rw [show j + 1 = r.length by omega, hvn] at h2
      subst ej
      by_cases hi0 : i = 0
      · subst hi0
        right
        refine ⟨rfl, rfl, ?_⟩
        rw [hv 0 (by omega)]
        exact corner (tn 0 1 (r.length - 1) (by omega) (by omega) (by omega) (by omega) (by omega) (by omega)) h1 (onSegment_symm h2)
      · by_cases hi1 : i + 1 = r.length - 1
        · left
          refine ⟨hi1.symm, ?_⟩
          rw [hv _ hj]
          rw [hi1] at h1
          exact corner (tn (r.length - 1) 0 i (by omega) (by omega) (by omega) (by omega) (by omega) (by omega)) h2 (onSegment_symm h1)
        · exfalso
          have tu := tn (r.length - 1) 0 i (by omega) (by omega) (by omega) (by omega) (by omega) (by omega)
          have tv := tn (r.length - 1) 0 (i + 1) (by omega) (by omega) (by omega) (by omega) (by omega) (by omega)
          have tuv := tn (r.length - 1) i (i + 1) (by omega) (by omega) (by omega) (by omega) (by omega) (by omega)
          have lu := hlow _ (nth_mem (i := i) (by omega)) (by rw [← e0]; exact ne _ _ (by omega) (by omega) hi0)
          have lv := hlow _ (nth_mem (i := i + 1) (by omega)) (by rw [← e0]; exact ne _ _ (by omega) (by omega) (by omega))
          rw [e1, e0] at tu tv h2
          rw [e1] at tuv
          exact first_edge hd h01 lu lv tu tv tuv h2 h1

theorem dirLess_weak (dir : Pt) (l : List Pt) : StrictWeakOn (dirLess dir) l := by
  refine ⟨fun a _ => ?_, fun a _ b _ c _ => ?_, fun a _ b _ c _ => ?_⟩ <;> simp only [dirLess, decide_eq_false_iff_not, decide_eq_true_eq] <;> omega

theorem dotO_small {p dir : Pt} (hp : SmallPt p) (hd : SmallPt dir) : (dotO p dir).isOk = true := by
  obtain ⟨⟨p1, p2⟩, p3, p4⟩ := hp
  obtain ⟨⟨d1, d2⟩, d3, d4⟩ := hd
  have hm : ∀ x y : Int, -1073741823 ≤ x → x ≤ 1073741823 → -1073741823 ≤ y → y ≤ 1073741823 →
      -1152921502459363329 ≤ x * y ∧ x * y ≤ 1152921502459363329 := by
    intro x y h1 h2 h3 h4
    constructor <;> nlinarith
  have k1 := hm p.1 dir.1 p1 p2 d1 d2
  have k2 := hm p.2 dir.2 p3 p4 d3 d4
  unfold dotO
  rw [chk_in (by omega) (by omega), ok_bind, chk_in (by omega) (by omega), ok_bind, chk_in (by omega) (by omega)]
  rfl

theorem swapSecond_perm {l : List Pt} (h : 2 ≤ l.length) : ∃ l', swapSecond l = .ok l' ∧ l'.Perm l ∧ l'.head? = l.head? ∧ l'.getLast? = l[1]? := by
  unfold swapSecond
  rw [swapAt_ok (by omega) (by omega)]
  refine ⟨_, rfl, swapAt_values (swapAt_ok (by omega) (by omega)), ?_, ?_⟩
  · match l, h with
    | a :: b :: rest, _ => simp [List.head?_eq_getElem?]
  · rw [List.getLast?_eq_getElem?]
    simp only [List.length_set]
    rw [List.getElem?_set_self (by simp; omega), List.getElem?_eq_getElem (by omega)]

/-- **C104.** For at least three points in general position without right angles, and a direction that is not zero, the result
is a simple polygon with these points, whatever `std::partition` and `std::sort` do with equivalent elements. The search for the
points of a cut succeeds at once and the recursion ends. What is missing: right angles, three points on a line and equal points, which
can be sampled (see the refutations). -/
theorem C104_simple_partial {part : (Pt → Bool) → List Pt → List Pt} (hpart : PartitionContract part)
    {sort : (Pt → Pt → Bool) → List Pt → List Pt} (hsort : SortContract sort) (points : List Pt) (dir : Pt) (h3 : 3 ≤ points.length)
    (h63 : points.length < 2 ^ 63) (hs : SmallCoordinates points) (hsd : SmallCoordinates [dir]) (hg : GeneralPosition points)
    (ha : NoRightAngle points) (hd : dir ≠ (0, 0)) (fuel : Nat) (hf : points.length < fuel) :
    SatOk (polygonOf part sort fuel points dir) fun r => r.Perm points ∧ SimplePolygon r := by
  have hn := nice_of hs hg ha
  unfold polygonOf
  have eall : (points.all fun p => (dotO p dir).isOk) = true := by
    rw [List.all_eq_true]
    exact fun p hp => dotO_small (hs p hp) (hsd dir (by simp))
  rw [eall, if_pos rfl, Rand.lift_ok, Rand.bind_done_ok]
  obtain ⟨hperm, hsorted⟩ := hsort (dirLess dir) points (dirLess_weak dir points)
  generalize sort (dirLess dir) points = s at hperm hsorted
  have hslen := hperm.length_eq
  obtain ⟨s', es, ps, hh, hlast⟩ := swapSecond_perm (l := s) (by omega)
  rw [es, Rand.lift_ok, Rand.bind_done_ok]
  have pp : s'.Perm points := ps.trans hperm
  have hn' : Nice s' := hn.sub (pp.nodup_iff.2 hn.nodup) (fun p hp => pp.subset hp)
  have hlen' := pp.length_eq
  refine (findLine_ok hpart (by omega) fuel s' hn' (by omega) (by omega)).mono ?_
  rintro r ⟨pr, hr0, hr1, hrs⟩
  have prr := pr.trans pp
  have hrl := prr.length_eq
  refine ⟨prr, ?_⟩
  match s, hslen, hsorted, hh, hlast, ps with
  | p0 :: p1 :: rest, _, hsorted, hh, hlast, ps =>
    rw [hh, List.head?_cons] at hr0
    rw [hlast] at hr1
    simp only [List.getElem?_cons_succ, List.getElem?_cons_zero] at hr1
    have e0 : nth r 0 = p0 := by
      rw [List.head?_eq_getElem?] at hr0
      unfold nth
      rw [List.getD_eq_getElem?_getD, hr0]; rfl
    have e1 : nth r (r.length - 1) = p1 := by
      rw [List.getLast?_eq_getElem?] at hr1
      unfold nth
      rw [List.getD_eq_getElem?_getD, hr1]; rfl
    rw [List.pairwise_cons, List.pairwise_cons] at hsorted
    have ord : ∀ {a b : Pt}, dirLess dir b a = false → along dir a ≤ along dir b := by
      intro a b h
      unfold dirLess at h
      rw [decide_eq_false_iff_not] at h
      unfold along
      omega
    refine close_path (dir := dir) (p0 := p0) (p1 := p1) (hn.sub (prr.nodup_iff.2 hn.nodup) (fun p hp => prr.subset hp)) (by omega) hd hrs e0 e1
      (ord (hsorted.1 p1 (by simp))) ?_
    intro p hp hp0
    have := (pr.trans ps).subset hp
    rcases List.mem_cons.1 this with h | h
    · exact absurd h hp0
    · rcases List.mem_cons.1 h with rfl | h
      · exact le_rfl
      · exact ord (hsorted.2.1 p h)
  | [], h, _, _, _, _ => simp at h; omega
  | [_], h, _, _, _, _ => simp at h; omega

/-! ### The result is always a rearrangement -/

theorem values_select (l : List α) : Values (select l) fun a => a ∈ l := by
  unfold select
  refine values_lift_bind fun _ _ => values_bind (values_integer _ _) fun i _ => ?_
  cases h : l[i.toNat]? with
  | none => exact fun a h => by cases h
  | some a => exact values_pure (List.mem_of_getElem? h)

theorem values_pickA (mid : List Pt) (first last : Pt) : ∀ f, Values (pickA mid first last f) fun a => a ∈ mid
  | 0 => values_lift fun a h => by cases h
  | f + 1 => by
    rw [pickA]
    refine values_bind (values_select mid) fun a ha => values_lift_bind fun c _ => ?_
    split_ifs
    · exact values_pickA mid first last f
    · exact values_pure ha

theorem cutFront_perm (a : Pt) (l : List Pt) : (cutFront a l).Perm l := by
  cases l with
  | nil => exact List.Perm.refl _
  | cons c ps => exact toFront_perm a ps c

theorem values_findLine {part : (Pt → Bool) → List Pt → List Pt} (hpart : PartitionContract part) (loop : Nat) :
    ∀ f l, Values (findLine part loop f l) fun r => r.Perm l ∧ r.head? = l.head? ∧ r.getLast? = l.getLast? := by
  intro f
  induction f with
  | zero => exact fun l => values_lift fun a h => by cases h
  | succ f ih =>
    intro l
    by_cases hl3 : l.length < 3
    · have e : findLine part loop (f + 1) l = .done (.ok l) := by
        match l, hl3 with
        | [], _ => rfl
        | [_], _ => rfl
        | [_, _], _ => rfl
      rw [e]
      exact values_pure ⟨List.Perm.refl _, rfl, rfl⟩
    · obtain ⟨first, mid, last, rfl, hm⟩ : ∃ first mid last, l = first :: mid ++ [last] ∧ mid ≠ [] := by
        match l, hl3 with
        | first :: x :: y :: rest, _ =>
          refine ⟨first, (x :: y :: rest).dropLast, (x :: y :: rest).getLast (by simp), ?_, by simp⟩
          rw [List.cons_append, List.dropLast_append_getLast]
        | [], h => simp at h
        | [_], h => simp at h
        | [_, _], h => simp at h
      rw [findLine_step part loop f first last mid hm]
      refine values_bind (values_pickA mid first last loop) fun a _ => values_lift_bind fun bs _ => values_bind (values_select _) fun b _ =>
        values_lift_bind fun _ _ => ?_
      generalize (fun p => match sideOf a b first p with
        | .ok s => s
        | .error _ => false) = q
      dsimp only
      obtain ⟨hperm, -⟩ := hpart q mid
      generalize part q mid = m at hperm
      generalize m.countP q = c
      obtain ⟨x, t, et⟩ : ∃ x t, cutFront a (m.drop c) ++ [last] = x :: t := by
        cases h : cutFront a (m.drop c) with
        | nil => exact ⟨_, _, rfl⟩
        | cons x t => exact ⟨x, t ++ [last], rfl⟩
      have elast : (x :: t).getLast? = some last := by
        rw [← et, List.getLast?_append]; rfl
      have pall : ((first :: m.take c) ++ (x :: t)).Perm (first :: mid ++ [last]) := by
        rw [← et, ← List.append_assoc]
        refine List.Perm.append_right _ ?_
        rw [List.cons_append]
        refine List.Perm.cons _ ?_
        refine ((cutFront_perm a (m.drop c)).append_left _).trans ?_
        rw [List.take_append_drop]
        exact hperm
      rw [et]
      have etake : List.take 1 (x :: t) = [x] := rfl
      have edrop : List.drop 1 (x :: t) = t := rfl
      rw [etake, edrop]
      refine values_bind (ih _) fun r1 ⟨p1, h1, g1⟩ => ?_
      obtain ⟨l1, rfl⟩ : ∃ l1, r1 = l1 ++ [x] := by
        rw [List.getLast?_append, List.getLast?_singleton, Option.some_or] at g1
        exact ⟨_, (List.dropLast_append_getLast? x g1).symm⟩
      have ed : List.drop ((l1 ++ [x]).length - 1) (l1 ++ [x]) = [x] := by simp
      rw [ed]
      have eap : [x] ++ t = x :: t := rfl
      rw [eap]
      refine values_bind (ih _) fun r2 ⟨p2, h2, g2⟩ => ?_
      rw [List.dropLast_concat]
      have pl1 : l1.Perm (first :: m.take c) := (List.perm_append_right_iff [x]).1 p1
      refine values_pure ⟨(pl1.append p2).trans pall, ?_, ?_⟩
      · cases l1 with
        | nil => simpa using pl1.length_eq
        | cons y ys => simpa using h1
      · rw [List.getLast?_append, g2, elast, List.getLast?_append]
        rfl

/-- **C104.** Whenever the function returns, the result is a rearrangement of the sampled points: no point is lost or repeated. -/
theorem C104_permutation {part : (Pt → Bool) → List Pt → List Pt} (hpart : PartitionContract part)
    {sort : (Pt → Pt → Bool) → List Pt → List Pt} (hsort : SortContract sort) (points : List Pt) (dir : Pt) (fuel : Nat) :
    Values (polygonOf part sort fuel points dir) fun r => r.Perm points := by
  unfold polygonOf
  refine values_lift_bind fun _ _ => values_lift_bind fun s hs => ?_
  have h1 := (hsort (dirLess dir) points (dirLess_weak dir points)).1
  have h2 : s.Perm points := (swapAt_values hs).trans h1
  exact Sat.mono (values_findLine hpart fuel fuel s) fun o h a e => (h a e).1.trans h2

/-- The points of the square `[-dim + 1, dim)²`. -/
def InSquare (dim : Int) (p : Pt) : Prop := (-dim + 1 ≤ p.1 ∧ p.1 < dim) ∧ -dim + 1 ≤ p.2 ∧ p.2 < dim

theorem point_sat {dim : Int} (h0 : 0 < dim) (h1 : dim ≤ 1073741823) : SatOk (point dim) (InSquare dim) := by
  unfold point
  rw [chk_in (by omega) (by omega), Rand.lift_ok, Rand.bind_done_ok, chk_in (by omega) (by omega), Rand.lift_ok, Rand.bind_done_ok]
  have i1 : I64 (-dim + 1) := by unfold I64; constructor <;> norm_num <;> omega
  have i2 : I64 dim := by unfold I64; constructor <;> norm_num <;> omega
  exact sat_integer_bind i1 i2 (by omega) fun x x0 x1 => sat_integer_bind i1 i2 (by omega) fun y y0 y1 => satOk_done ⟨⟨x0, x1⟩, y0, y1⟩

theorem samplePoints_sat {dim : Int} (h0 : 0 < dim) (h1 : dim ≤ 1073741823) : ∀ n, SatOk (samplePoints dim n) fun l => l.length = n ∧ ∀ p ∈ l, InSquare dim p
  | 0 => satOk_done ⟨rfl, by simp⟩
  | n + 1 => by
    rw [samplePoints]
    refine (point_sat h0 h1).bind fun p hp => (samplePoints_sat h0 h1 n).bind fun ps hps => satOk_done ⟨by simp [hps.1], ?_⟩
    intro x hx
    rcases List.mem_cons.1 hx with rfl | hx
    · exact hp
    · exact hps.2 x hx

/-- **C104.** Whenever `polygon(n, dim)` returns, the result has `n` points, all with coordinates in `[-dim + 1, dim)`. -/
theorem C104_points {part : (Pt → Bool) → List Pt → List Pt} (hpart : PartitionContract part)
    {sort : (Pt → Pt → Bool) → List Pt → List Pt} (hsort : SortContract sort) (fits : Int → Int → Bool) (fuel : Nat) (n dim : Int) :
    Values (polygon fits part sort fuel n dim) fun r => 3 ≤ n ∧ fits n dim = true ∧ r.length = n.toNat ∧
      ∀ p ∈ r, (-dim < p.1 ∧ p.1 < dim) ∧ -dim < p.2 ∧ p.2 < dim := by
  unfold polygon
  have ja : ∀ {b : Bool} {u : Unit}, judgeAssert b = .ok u → b = true := by
    intro b u h
    cases b
    · cases h
    · rfl
  refine values_lift_bind fun _ h1 => values_lift_bind fun _ h2 => values_lift_bind fun _ h3 => values_lift_bind fun _ h4 => ?_
  have h1 := of_decide_eq_true (ja h1)
  have h2 := of_decide_eq_true (ja h2)
  have h3 := ja h3
  have h4 := of_decide_eq_true (ja h4)
  refine (samplePoints_sat h2 (by omega) n.toNat).bind fun pts hp => (point_sat (dim := 0x3FFFFFFF) (by norm_num) (by norm_num)).bind fun dir _ => ?_
  refine Sat.mono (C104_permutation hpart hsort pts dir fuel) fun o h a e => ?_
  have hperm := h a e
  refine ⟨h4, h3, by rw [hperm.length_eq, hp.1], fun p hpm => ?_⟩
  obtain ⟨⟨a1, a2⟩, a3, a4⟩ := hp.2 p (hperm.subset hpm)
  exact ⟨⟨by omega, a2⟩, by omega, a4⟩

/-- **C104.** The four assertions. -/
theorem C104_throws (fits : Int → Int → Bool) (part : (Pt → Bool) → List Pt → List Pt) (sort : (Pt → Pt → Bool) → List Pt → List Pt) (fuel : Nat)
    (n dim : Int) (h : dim > 1073741823 ∨ dim ≤ 0 ∨ fits n dim = false ∨ n < 3) : polygon fits part sort fuel n dim = .done (.error .throw) := by
  unfold polygon
  by_cases h1 : dim ≤ 0x3FFFFFFF
  · by_cases h2 : dim > 0
    · cases h3 : fits n dim
      · rw [decide_eq_true h1, decide_eq_true h2]; rfl
      · have h4 : ¬ n ≥ 3 := by
          rcases h with h | h | h | h
          · omega
          · omega
          · rw [h3] at h; simp at h
          · omega
        rw [decide_eq_true h1, decide_eq_true h2, decide_eq_false h4]; rfl
    · rw [decide_eq_true h1, decide_eq_false h2]; rfl
  · rw [decide_eq_false h1]; rfl

/-- **C104.** All sequences of points of the square are equally likely, so every case below can occur. -/
theorem C104_points_uniform {dim : Int} (h0 : 0 < dim) (h1 : dim ≤ 1073741823) : ∀ (n : Nat) (t : List Pt), t.length = n →
    (∀ p ∈ t, (-dim < p.1 ∧ p.1 < dim) ∧ -dim < p.2 ∧ p.2 < dim) → prob (samplePoints dim n) t = 1 / (((2 * dim - 1 : Int) : ℚ) ^ 2) ^ n := by
  have i1 : I64 (-dim + 1) := by unfold I64; constructor <;> norm_num <;> omega
  have i2 : I64 dim := by unfold I64; constructor <;> norm_num <;> omega
  have ep : point dim = (integer (-dim + 1) dim >>= fun x => integer (-dim + 1) dim >>= fun y => pure (x, y)) := by
    unfold point
    rw [chk_in (by omega) (by omega), Rand.lift_ok, Rand.bind_done_ok, chk_in (by omega) (by omega), Rand.lift_ok, Rand.bind_done_ok]
  intro n
  induction n with
  | zero =>
    intro t ht _
    rw [List.length_eq_zero_iff.1 ht]
    show prob (.done (.ok [])) [] = _
    rw [prob_done]; simp
  | succ n ih =>
    intro t ht hr
    cases t with
    | nil => simp at ht
    | cons a t =>
      rw [samplePoints, ep, Rand.bind_assoc]
      obtain ⟨⟨a1, a2⟩, a3, a4⟩ := hr a List.mem_cons_self
      have ew : dim - (-dim + 1) = 2 * dim - 1 := by omega
      have ih' := ih t (by simpa using ht) fun y hy => hr y (by simp [hy])
      rw [pow_succ, pow_two, ← div_div, ← div_div, ← ew]
      refine prob_integer_unique i1 i2 (by omega) a2 ?_ ?_
      · rw [Rand.bind_assoc]
        refine prob_integer_unique i1 i2 (by omega) a4 ?_ ?_
        · rw [Rand.pure_def, Rand.bind_done_ok, prob_bind_cons, if_pos rfl, ih', ew, pow_two]
        · intro w _ _ hne
          rw [Rand.pure_def, Rand.bind_done_ok, prob_bind_cons, if_neg (fun h => hne (congrArg Prod.snd h))]
      · intro w _ _ hne
        rw [Rand.bind_assoc]
        refine prob_integer_zero fun w' _ _ => ?_
        rw [Rand.pure_def, Rand.bind_done_ok, prob_bind_cons, if_neg (fun h => hne (congrArg Prod.fst h))]

/-! ### What goes wrong -/

/-- **C104, refuted.** If all the sampled points are on a line, or equal, the function never returns: no bound on its loops is enough. -/
theorem C104_line_refuted {part : (Pt → Bool) → List Pt → List Pt} {sort : (Pt → Pt → Bool) → List Pt → List Pt} (hsort : SortContract sort)
    (points : List Pt) (dir : Pt) (h3 : 3 ≤ points.length) (h63 : points.length < 2 ^ 63) (hs : SmallCoordinates points) (hsd : SmallCoordinates [dir])
    (hl : ∀ a ∈ points, ∀ b ∈ points, ∀ c ∈ points, turn a b c = 0) (fuel : Nat) :
    Sat (polygonOf part sort fuel points dir) fun o => o = .error .fuel := by
  unfold polygonOf
  have eall : (points.all fun p => (dotO p dir).isOk) = true := by
    rw [List.all_eq_true]
    exact fun p hp => dotO_small (hs p hp) (hsd dir (by simp))
  rw [eall, if_pos rfl, Rand.lift_ok, Rand.bind_done_ok]
  obtain ⟨hperm, -⟩ := hsort (dirLess dir) points (dirLess_weak dir points)
  obtain ⟨s', es, ps, -, -⟩ := swapSecond_perm (l := sort (dirLess dir) points) (by rw [hperm.length_eq]; omega)
  rw [es, Rand.lift_ok, Rand.bind_done_ok]
  have pp : s'.Perm points := ps.trans hperm
  cases hf : fuel with
  | zero => exact rfl
  | succ f =>
    obtain ⟨first, mid, last, e, hm⟩ : ∃ first mid last, s' = first :: mid ++ [last] ∧ mid ≠ [] := by
      have hl3 : ¬ s'.length < 3 := by rw [pp.length_eq]; omega
      match s', hl3 with
      | first :: x :: y :: rest, _ =>
        refine ⟨first, (x :: y :: rest).dropLast, (x :: y :: rest).getLast (by simp), ?_, by simp⟩
        rw [List.cons_append, List.dropLast_append_getLast]
      | [], h => simp at h
      | [_], h => simp at h
      | [_, _], h => simp at h
    subst e
    have hml : mid.length < 2 ^ 63 := by
      have := pp.length_eq
      simp at this
      omega
    rw [findLine_step part _ f first last mid hm]
    have key : ∀ k, Sat (pickA mid first last k) fun o => o = .error .fuel := by
      intro k
      induction k with
      | zero => exact rfl
      | succ k ih =>
        rw [pickA]
        refine (C15_select mid (List.length_pos_of_ne_nil hm) hml).bind fun a ha => ?_
        have ma := pp.subset (List.mem_append_left _ (List.mem_cons_of_mem first ha))
        have mf : first ∈ points := pp.subset (by simp)
        have ml : last ∈ points := pp.subset (by simp)
        rw [crossP_ok (hs a ma) (hs first mf) (hs last ml), Rand.lift_ok, Rand.bind_done_ok, hl a ma first mf last ml, if_pos rfl]
        exact ih
    refine Sat.bind (key _) (fun a h => by cases h) fun e h => ?_
    cases h
    rfl

/-- **C104, refuted.** Three points that form a triangle, with a right angle at the third one: the recursion calls itself with the same range
for ever. -/
theorem C104_angle_refuted {part : (Pt → Bool) → List Pt → List Pt} (hpart : PartitionContract part)
    {sort : (Pt → Pt → Bool) → List Pt → List Pt} (hsort : SortContract sort) (fuel : Nat) :
    Sat (polygonOf part sort fuel [(0, 0), (1, 3), (2, 1)] (1, 0)) fun o => o = .error .fuel := by
  unfold polygonOf
  have eall : ([(0, 0), (1, 3), (2, 1)].all fun p : Pt => (dotO p (1, 0)).isOk) = true := by decide +kernel
  rw [eall, if_pos rfl, Rand.lift_ok, Rand.bind_done_ok]
  have es : sort (dirLess (1, 0)) [(0, 0), (1, 3), (2, 1)] = [(0, 0), (1, 3), (2, 1)] := by
    obtain ⟨h1, h2⟩ := hsort (dirLess (1, 0)) [(0, 0), (1, 3), (2, 1)] (dirLess_weak _ _)
    refine h1.eq_of_pairwise (le := fun a b => dirLess (1, 0) b a = false) ?_ h2 (by decide)
    intro a b ha hb hab hba
    have ha := h1.subset ha
    revert hab hba
    simp only [List.mem_cons, List.not_mem_nil, or_false] at ha hb
    rcases ha with rfl | rfl | rfl <;> rcases hb with rfl | rfl | rfl <;> decide
  have esw : swapSecond [(0, 0), (1, 3), (2, 1)] = .ok [(0, 0), (2, 1), (1, 3)] := by decide
  rw [es, esw, Rand.lift_ok, Rand.bind_done_ok]
  have key : ∀ loop f, Sat (findLine part loop f [(0, 0), (2, 1), (1, 3)]) fun o => o = .error .fuel := by
    intro loop f
    induction f with
    | zero => exact rfl
    | succ f ih =>
      have := findLine_step part loop f (0, 0) (1, 3) [(2, 1)] (by simp)
      rw [show ([(0, 0), (2, 1), (1, 3)] : List Pt) = (0, 0) :: [(2, 1)] ++ [(1, 3)] from rfl, this]
      have hp : Sat (pickA [(2, 1)] (0, 0) (1, 3) loop) fun o => o = .ok (2, 1) ∨ o = .error .fuel := by
        cases loop with
        | zero => exact Or.inr rfl
        | succ k =>
          rw [pickA]
          refine (C15_select _ (by simp) (by simp)).bind fun a ha => ?_
          rw [List.mem_singleton] at ha
          subst ha
          have : crossP (2, 1) (0, 0) (1, 3) = .ok (-5) := by decide
          rw [this, Rand.lift_ok, Rand.bind_done_ok, if_neg (by decide)]
          exact Or.inl rfl
      refine Sat.bind hp (fun a h => ?_) (fun e h => by rcases h with h | h <;> cases h; rfl)
      rcases h with h | h
      · cases h
        have ec : cutEnds (2, 1) (0, 0) (1, 3) [(2, 1)] = .ok [] := by decide
        rw [ec, Rand.lift_ok, Rand.bind_done_ok]
        refine (C15_select _ (by simp) (by simp)).bind fun b hb => ?_
        rw [List.mem_singleton] at hb
        subst hb
        have ea : ([(2, 1)].all fun p : Pt => (sideOf (2, 1) (1, 3) (0, 0) p).isOk) = true := by decide
        rw [ea, if_pos rfl, Rand.lift_ok, Rand.bind_done_ok]
        have ep : ∀ q, part q [(2, 1)] = [(2, 1)] := fun q => List.perm_singleton.1 (hpart q [(2, 1)]).1
        dsimp only
        rw [ep]
        exact Sat.bind (r := findLine part loop f [(0, 0), (2, 1), (1, 3)]) ih (fun a h => by cases h) (fun e h => by cases h; rfl)
      · cases h
  exact key fuel fuel

/-- the polygon of the next theorem crosses itself -/
theorem crossing_not_simple : ¬ SimplePolygon [(-3, -1), (-1, -1), (3, 0), (-1, 2), (0, -3)] := by
  rintro ⟨-, -, h⟩
  have := h 1 3 (by decide) (by decide) (-3 / 7, -6 / 7) ⟨1 / 7, by norm_num, by norm_num, by norm_num [vertex], by norm_num [vertex]⟩
    ⟨4 / 7, by norm_num, by norm_num, by norm_num [vertex], by norm_num [vertex]⟩
  rcases this with ⟨h1, -⟩ | ⟨h1, -⟩ <;> exact absurd h1 (by decide)

/-- **C104, refuted.** Five points in general position, and a result that crosses itself. -/
theorem C104_simple_refuted : GeneralPosition [(-1, 2), (3, 0), (-3, -1), (0, -3), (-1, -1)] ∧
    (((polygonOf stablePartition sortBy 9 [(-1, 2), (3, 0), (-3, -1), (0, -3), (-1, -1)] (3, 2)).run true
      [6148914691236517206, 12297829382473034411, 0, 0, 0, 0]).bind fun x => x.1.toOption) = some [(-3, -1), (-1, -1), (3, 0), (-1, 2), (0, -3)] ∧
    ¬ SimplePolygon [(-3, -1), (-1, -1), (3, 0), (-1, 2), (0, -3)] := by
  refine ⟨⟨?_, ?_⟩, by decide +kernel, crossing_not_simple⟩
  · intro i j hi hj hij
    simp only [List.length_cons, List.length_nil, Nat.zero_add, Nat.reduceAdd] at hi hj
    interval_cases j <;> interval_cases i <;> simp
  · intro i j k hi hj hk hij hjk
    simp only [List.length_cons, List.length_nil, Nat.zero_add, Nat.reduceAdd] at hi hj hk
    interval_cases k <;> interval_cases j <;> interval_cases i <;> simp [turn]

/-- **C104, refuted.** With the direction `(0, 0)`, which can be sampled, the closing edge joins any two points. Here they are opposite corners of
a convex quadrilateral without right angles. -/
theorem C104_zero_refuted : NoRightAngle [(0, 0), (7, 6), (6, 1), (1, 5)] ∧ GeneralPosition [(0, 0), (7, 6), (6, 1), (1, 5)] ∧
    (((polygonOf stablePartition sortBy 9 [(0, 0), (7, 6), (6, 1), (1, 5)] (0, 0)).run true [0, 0, 0, 0, 0, 0]).bind fun x => x.1.toOption) =
      some [(0, 0), (6, 1), (1, 5), (7, 6)] ∧ ¬ SimplePolygon [(0, 0), (6, 1), (1, 5), (7, 6)] := by
  refine ⟨?_, ⟨?_, ?_⟩, by decide +kernel, ?_⟩
  · unfold NoRightAngle
    decide
  · intro i j hi hj hij
    simp only [List.length_cons, List.length_nil, Nat.zero_add, Nat.reduceAdd] at hi hj
    interval_cases j <;> interval_cases i <;> simp
  · intro i j k hi hj hk hij hjk
    simp only [List.length_cons, List.length_nil, Nat.zero_add, Nat.reduceAdd] at hi hj hk
    interval_cases k <;> interval_cases j <;> interval_cases i <;> simp [turn]
  · rintro ⟨-, -, h⟩
    have := h 1 3 (by decide) (by decide) (203 / 58, 174 / 58) ⟨1 / 2, by norm_num, by norm_num, by norm_num [vertex], by norm_num [vertex]⟩
      ⟨1 / 2, by norm_num, by norm_num, by norm_num [vertex], by norm_num [vertex]⟩
    rcases this with ⟨h1, -⟩ | ⟨h1, -⟩ <;> exact absurd h1 (by decide)

/-! ### Examples -/

-- the same quadrilateral with another direction
example : (((polygonOf stablePartition sortBy 9 [(0, 0), (7, 6), (6, 1), (1, 5)] (3, 1)).run true [0, 0, 0, 0, 0, 0]).bind fun x => x.1.toOption) =
    some [(0, 0), (6, 1), (7, 6), (1, 5)] := by decide +kernel
example : SatOk (polygonOf stablePartition sortBy 9 [(0, 0), (7, 6), (6, 1), (1, 5)] (3, 1)) fun r =>
    r.Perm [(0, 0), (7, 6), (6, 1), (1, 5)] ∧ SimplePolygon r :=
  C104_simple_partial stablePartition_contract sortBy_contract _ _ (by decide) (by decide) (by intro p hp; fin_cases hp <;> decide)
    (by intro p hp; fin_cases hp; decide) C104_zero_refuted.2.1 C104_zero_refuted.1 (by decide) 9 (by decide)
-- a complete call
example : (((polygon (fun n dim => decide (n * n * n ≤ dim * dim)) stablePartition sortBy 9 4 8).run true
    ((List.range 20).map fun i => (i * 7777777777777777777 + 12345) % 2 ^ 64)).bind fun x => x.1.toOption) = some [(3, -6), (-7, -1), (0, 7), (5, -4)] := by decide +kernel

end ICPC.Props
