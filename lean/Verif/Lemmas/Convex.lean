import Verif.Model.Convex
import Verif.Spec.Convex
import Verif.Lemmas.CyclicOrder
import Verif.Props.Geo
import Verif.Props.RandSeq
import Verif.Props.Shuffle

/-!
# Lemmas for `Random::convex`
-/

namespace ICPC.Cyc
open ICPC.Spec ICPC.Props

/-! ### Sorting -/

theorem leftHalf_true {p : Pt} : leftHalf p = true ↔ Rt (-p) := by
  unfold leftHalf Rt
  simp only [Prod.fst_neg, Prod.snd_neg]
  split
  · rw [decide_eq_true_eq]; omega
  · rw [decide_eq_true_eq]; omega

theorem leftHalf_false {p : Pt} (h : p ≠ 0) : leftHalf p = false ↔ Rt p := by
  rw [← Bool.not_eq_true, leftHalf_true]
  rcases rt_or h with h1 | h1
  · refine ⟨fun _ => h1, fun _ h2 => ?_⟩
    unfold Rt at h1 h2
    simp only [Prod.fst_neg, Prod.snd_neg] at h2
    omega
  · refine ⟨fun h2 => absurd h1 h2, fun h2 => ?_⟩
    unfold Rt at h1 h2
    simp only [Prod.fst_neg, Prod.snd_neg] at h1
    omega

/-- The coordinates are small enough for the products in the comparator. -/
def Dir (M : Int) (p : Pt) : Prop := p ≠ 0 ∧ (-M ≤ p.1 ∧ p.1 ≤ M) ∧ -M ≤ p.2 ∧ p.2 ≤ M

theorem cyclicLess_ok {M : Int} (h0 : 0 ≤ M) (hM : M ≤ 2147483646) {a b : Pt} (ha : Dir M a) (hb : Dir M b) :
    cyclicLess a b = .ok (if leftHalf a ≠ leftHalf b then leftHalf a else decide (0 < cr a b)) := by
  unfold cyclicLess
  by_cases h : leftHalf a ≠ leftHalf b
  · rw [if_pos h, if_pos h]
    cases h1 : leftHalf a <;> cases h2 : leftHalf b <;> first | rfl | simp_all
  · rw [if_neg h, if_neg h, crossO_ok h0 hM ha.2 hb.2]
    rfl

theorem lessValue_eq {M : Int} (h0 : 0 ≤ M) (hM : M ≤ 2147483646) {a b : Pt} (ha : Dir M a) (hb : Dir M b) :
    lessValue a b = (if leftHalf a ≠ leftHalf b then leftHalf a else decide (0 < cr a b)) := by
  unfold lessValue
  rw [cyclicLess_ok h0 hM ha hb]

/-- Transitivity of the comparison within one half. -/
theorem half_strict {H : Pt → Prop} (hH : Half H) {a b c : Pt} (ha : H a) (hb : H b) (hc : H c) (h1 : 0 < cr a b) (h2 : 0 < cr b c) :
    0 < cr a c := by
  have h := hH.trans ha hb hc h1.le h2.le
  rcases h.lt_or_eq with h | h
  · exact h
  · -- `c` is parallel to `a`
    exfalso
    have h3 : 0 ≤ cr c a := by rw [cr_swap]; omega
    have := hH.trans hc ha hb h3 h1.le
    rw [cr_swap] at this
    omega

theorem half_of (b : Bool) : ∃ H, Half H ∧ ∀ p : Pt, p ≠ 0 → (leftHalf p = b ↔ H p) := by
  cases b with
  | true => exact ⟨_, half_neg half_rt, fun p _ => leftHalf_true⟩
  | false => exact ⟨_, half_rt, fun p hp => leftHalf_false hp⟩

theorem strictWeak {M : Int} (h0 : 0 ≤ M) (hM : M ≤ 2147483646) {l : List Pt} (hl : ∀ p ∈ l, Dir M p) : StrictWeakOn lessValue l := by
  refine ⟨fun a ha => ?_, fun a ha b hb c hc => ?_, fun a ha b hb c hc => ?_⟩
  · rw [lessValue_eq h0 hM (hl a ha) (hl a ha), cr_self]; simp
  · rw [lessValue_eq h0 hM (hl a ha) (hl b hb), lessValue_eq h0 hM (hl b hb) (hl c hc), lessValue_eq h0 hM (hl a ha) (hl c hc)]
    by_cases e1 : leftHalf a = leftHalf b
    · by_cases e2 : leftHalf b = leftHalf c
      · obtain ⟨H, hH, hiff⟩ := half_of (leftHalf a)
        rw [if_neg (not_not.2 e1), if_neg (not_not.2 e2), if_neg (not_not.2 (e1.trans e2))]
        simp only [decide_eq_true_eq]
        exact half_strict hH ((hiff a (hl a ha).1).1 rfl) ((hiff b (hl b hb).1).1 e1.symm)
          ((hiff c (hl c hc).1).1 (e1.trans e2).symm)
      · rw [if_neg (not_not.2 e1), if_pos e2, if_pos (fun h => e2 (e1 ▸ h))]
        intro _ h; rw [e1, h]
    · rw [if_pos e1]
      intro h1 h2
      by_cases e2 : leftHalf b = leftHalf c
      · rw [if_pos (fun h => e1 (h.trans e2.symm))]; exact h1
      · rw [if_pos e2] at h2
        exact absurd (h1.trans h2.symm) e1
  · rw [lessValue_eq h0 hM (hl a ha) (hl b hb), lessValue_eq h0 hM (hl b hb) (hl c hc), lessValue_eq h0 hM (hl a ha) (hl c hc)]
    by_cases e1 : leftHalf a = leftHalf b
    · by_cases e2 : leftHalf b = leftHalf c
      · obtain ⟨H, hH, hiff⟩ := half_of (leftHalf a)
        rw [if_neg (not_not.2 e1), if_neg (not_not.2 e2), if_neg (not_not.2 (e1.trans e2))]
        simp only [decide_eq_false_iff_not]
        intro h1 h2
        have := hH.trans ((hiff c (hl c hc).1).1 (e1.trans e2).symm) ((hiff b (hl b hb).1).1 e1.symm) ((hiff a (hl a ha).1).1 rfl)
          (by rw [cr_swap]; omega) (by rw [cr_swap]; omega)
        rw [cr_swap] at this
        omega
      · rw [if_neg (not_not.2 e1), if_pos e2, if_pos (fun h => e2 (e1 ▸ h))]
        intro _ h; rw [e1, h]
    · rw [if_pos e1]
      intro h1 h2
      by_cases e2 : leftHalf b = leftHalf c
      · rw [if_pos (fun h => e1 (h.trans e2.symm))]; exact h1
      · rw [if_pos e2] at h2
        exact absurd (h1.trans h2.symm) e1

theorem sorted_split {M : Int} (h0 : 0 ≤ M) (hM : M ≤ 2147483646) {l : List Pt} (hl : ∀ p ∈ l, Dir M p)
    (hs : l.Pairwise fun a b => lessValue b a = false) : ∃ L R, l = L ++ R ∧ Sorted L R := by
  obtain ⟨L, R, rfl, hL, hR⟩ := split_while leftHalf l
  have hR' : ∀ x ∈ R, leftHalf x = false := by
    cases R with
    | nil => simp
    | cons a R =>
      have ha := hR a (by simp)
      intro x hx
      rcases List.mem_cons.1 hx with rfl | hx
      · exact ha
      · have := (List.pairwise_cons.1 (List.pairwise_append.1 hs).2.1).1 x hx
        rw [lessValue_eq h0 hM (hl x (by simp [hx])) (hl a (by simp))] at this
        by_contra hc
        rw [Bool.not_eq_false] at hc
        rw [if_pos (by rw [hc, ha]; simp), hc] at this
        cases this
  have pw : ∀ {X : List Pt} {b : Bool}, (∀ x ∈ X, leftHalf x = b) → (∀ x ∈ X, Dir M x) → (X.Pairwise fun a b => lessValue b a = false) →
      X.Pairwise fun a b => 0 ≤ cr a b := by
    intro X b hX hd hs
    refine hs.imp_of_mem fun {a c} ha hc h => ?_
    rw [lessValue_eq h0 hM (hd c hc) (hd a ha), if_neg (by rw [hX a ha, hX c hc]; simp)] at h
    have := of_decide_eq_false h
    rw [cr_swap]; omega
  have hsL := (List.pairwise_append.1 hs).1
  have hsR := (List.pairwise_append.1 hs).2.1
  have dL : ∀ x ∈ L, Dir M x := fun x hx => hl x (by simp [hx])
  have dR : ∀ x ∈ R, Dir M x := fun x hx => hl x (by simp [hx])
  exact ⟨L, R, rfl, ⟨fun v hv => leftHalf_true.1 (hL v hv), fun v hv => (leftHalf_false (dR v hv).1).1 (hR' v hv),
    pw hL dL hsL, pw hR' dR hsR⟩⟩

theorem cyclicSort_ok {sort : (Pt → Pt → Bool) → List Pt → List Pt} (hsort : SortContract sort) {M : Int} (h0 : 0 ≤ M)
    (hM : M ≤ 2147483646) {l : List Pt} (hl : ∀ p ∈ l, Dir M p) :
    ∃ L R, cyclicSort sort l = .ok (L ++ R) ∧ (L ++ R).Perm l ∧ Sorted L R := by
  obtain ⟨hp, hs⟩ := hsort lessValue l (strictWeak h0 hM hl)
  obtain ⟨L, R, e, hLR⟩ := sorted_split h0 hM (fun p hp' => hl p (hp.mem_iff.1 hp')) hs
  refine ⟨L, R, ?_, e ▸ hp, hLR⟩
  unfold cyclicSort
  rw [if_pos, e]
  rw [List.all_eq_true]
  intro a ha
  rw [List.all_eq_true]
  intro b hb
  rw [cyclicLess_ok h0 hM (hl a ha) (hl b hb)]
  rfl

/-! ### Sums of coordinates -/

/-- The sum of the positive parts. -/
def ps (c : List Int) : Int := (c.map fun z => max z 0).sum

theorem ps_append (a b : List Int) : ps (a ++ b) = ps a + ps b := by simp [ps]
theorem ps_nonneg (a : List Int) : 0 ≤ ps a := by
  refine List.sum_nonneg fun x hx => ?_
  obtain ⟨v, _, rfl⟩ := List.mem_map.1 hx
  exact le_max_right _ _
theorem ps_ge (a : List Int) : a.sum ≤ ps a := by
  induction a with
  | nil => simp [ps]
  | cons x a ih =>
    have : ps (x :: a) = max x 0 + ps a := by simp [ps]
    rw [List.sum_cons, this]
    have := le_max_left x 0
    omega
theorem ps_perm {a b : List Int} (h : a.Perm b) : ps a = ps b := (h.map _).sum_eq

theorem ps_of_nonneg {a : List Int} (h : ∀ x ∈ a, 0 ≤ x) : ps a = a.sum := by
  unfold ps
  congr 1
  conv_rhs => rw [← List.map_id a]
  exact List.map_congr_left fun x hx => max_eq_left (h x hx)

theorem ps_of_nonpos {a : List Int} (h : ∀ x ∈ a, x ≤ 0) : ps a = 0 := by
  induction a with
  | nil => rfl
  | cons x a ih =>
    have : ps (x :: a) = max x 0 + ps a := by simp [ps]
    rw [this, ih fun x hx => h x (by simp [hx]), max_eq_right (h x (by simp))]; rfl

/-- The sum is zero and the positive parts add up to `M`. -/
def Balanced (c : List Int) (M : Int) : Prop := c.sum = 0 ∧ ps c = M

theorem Balanced.perm {c d : List Int} {M : Int} (h : Balanced c M) (hp : d.Perm c) : Balanced d M :=
  ⟨hp.sum_eq.trans h.1, (ps_perm hp).trans h.2⟩

theorem Balanced.take_le {c : List Int} {M : Int} (h : Balanced c M) (a b : Nat) : (c.take b).sum - (c.take a).sum ≤ M := by
  obtain ⟨h1, h2⟩ := h
  rcases Nat.le_total a b with hab | hab
  · -- the middle part
    have e : c.take b = c.take a ++ (c.take b).drop a := by
      conv_lhs => rw [← List.take_append_drop a (c.take b)]
      rw [List.take_take, Nat.min_eq_left hab]
    have e2 : ps c = ps (c.take a) + ps ((c.take b).drop a) + ps (c.drop b) := by
      rw [← ps_append, ← e, ← ps_append, List.take_append_drop]
    have := ps_nonneg (c.take a)
    have := ps_nonneg (c.drop b)
    have := ps_ge ((c.take b).drop a)
    rw [e, List.sum_append]
    omega
  · have e : c.take a = c.take b ++ (c.take a).drop b := by
      conv_lhs => rw [← List.take_append_drop b (c.take a)]
      rw [List.take_take, Nat.min_eq_left hab]
    have e2 : ps c = ps (c.take b) + ps ((c.take a).drop b) + ps (c.drop a) := by
      rw [← ps_append, ← e, ← ps_append, List.take_append_drop]
    have e3 : (c.take a).sum + (c.drop a).sum = 0 := by rw [← List.sum_append, List.take_append_drop, h1]
    have := ps_nonneg ((c.take a).drop b)
    have := ps_ge (c.take b)
    have := ps_ge (c.drop a)
    omega

theorem Balanced.mem {c : List Int} {M : Int} (h : Balanced c M) {x : Int} (hx : x ∈ c) : -M ≤ x ∧ x ≤ M := by
  obtain ⟨l1, l2, rfl⟩ := List.append_of_mem hx
  obtain ⟨h1, h2⟩ := h
  rw [List.sum_append, List.sum_cons] at h1
  have e : ps (l1 ++ x :: l2) = ps l1 + (max x 0 + ps l2) := by rw [ps_append]; simp [ps]
  have := ps_ge l1
  have := ps_ge l2
  have := ps_nonneg l1
  have := ps_nonneg l2
  have := le_max_left x 0
  have := le_max_right x 0
  omega

/-! ### The partial sums -/

theorem sum_fst (l : List Pt) : l.sum.1 = (l.map Prod.fst).sum := by
  induction l with
  | nil => rfl
  | cons a l ih => rw [List.sum_cons, List.map_cons, List.sum_cons, ← ih]; rfl

theorem sum_snd (l : List Pt) : l.sum.2 = (l.map Prod.snd).sum := by
  induction l with
  | nil => rfl
  | cons a l ih => rw [List.sum_cons, List.map_cons, List.sum_cons, ← ih]; rfl

/-- Edges of a closed polygon of width and height `M`. -/
structure Edges (M : Int) (ds : List Pt) : Prop where
  x : Balanced (ds.map Prod.fst) M
  y : Balanced (ds.map Prod.snd) M

theorem Edges.sum_zero {M : Int} {ds : List Pt} (h : Edges M ds) : ds.sum = 0 :=
  Prod.ext (by rw [sum_fst]; exact h.x.1) (by rw [sum_snd]; exact h.y.1)

theorem Edges.diff {M : Int} {ds : List Pt} (h : Edges M ds) (a b : Nat) :
    (ds.take b).sum.1 - (ds.take a).sum.1 ≤ M ∧ (ds.take b).sum.2 - (ds.take a).sum.2 ≤ M := by
  simp only [sum_fst, sum_snd, List.map_take]
  exact ⟨h.x.take_le a b, h.y.take_le a b⟩

theorem Edges.bound {M : Int} {ds : List Pt} (h : Edges M ds) (a : Nat) :
    (-M ≤ (ds.take a).sum.1 ∧ (ds.take a).sum.1 ≤ M) ∧ -M ≤ (ds.take a).sum.2 ∧ (ds.take a).sum.2 ≤ M := by
  have h1 := h.diff a 0
  have h2 := h.diff 0 a
  simp only [List.take_zero, List.sum_nil, Prod.fst_zero, Prod.snd_zero] at h1 h2
  omega

theorem convexWalk_ok : ∀ (ds : List Pt) (p : Pt), (∀ k, I64 (p + (ds.take k).sum).1 ∧ I64 (p + (ds.take k).sum).2) →
    convexWalk p ds = .ok ((List.range ds.length).map fun k => p + (ds.take (k + 1)).sum)
  | [], _, _ => rfl
  | d :: ds, p, h => by
    have h1 := h 1
    simp only [List.take_succ_cons, List.take_zero, List.sum_cons, List.sum_nil, add_zero, Prod.fst_add, Prod.snd_add] at h1
    unfold convexWalk
    rw [chk_ok h1.1, ok_bind, chk_ok h1.2, ok_bind]
    have e : ((p.1 + d.1, p.2 + d.2) : Pt) = p + d := rfl
    rw [e, convexWalk_ok ds (p + d) (fun k => by
      have := h (k + 1)
      simpa only [List.take_succ_cons, List.sum_cons, ← add_assoc] using this), ok_bind]
    refine congrArg Except.ok ?_
    rw [List.length_cons, List.range_succ_eq_map, List.map_cons, List.map_map]
    congr 1
    · simp
    · refine List.map_congr_left fun k _ => ?_
      simp [add_assoc]

theorem convexShift_ok (s : Pt) : ∀ (ps : List Pt), (∀ p ∈ ps, I64 (p + s).1 ∧ I64 (p + s).2) →
    convexShift s.1 s.2 ps = .ok (ps.map fun p => p + s)
  | [], _ => rfl
  | p :: ps, h => by
    unfold convexShift
    have h1 := h p (by simp)
    simp only [Prod.fst_add, Prod.snd_add] at h1
    rw [chk_ok h1.1, ok_bind, chk_ok h1.2, ok_bind, convexShift_ok s ps fun q hq => h q (by simp [hq]), ok_bind]
    rfl

/-- The polygon with edges `ds`, starting at `s`. -/
def polygon (s : Pt) (ds : List Pt) : List Pt := (List.range ds.length).map fun k => (ds.take k).sum + s

@[simp] theorem polygon_length (s : Pt) (ds : List Pt) : (polygon s ds).length = ds.length := by simp [polygon]

theorem polygon_get (s : Pt) (ds : List Pt) {k : Nat} (h : k < (polygon s ds).length) :
    (polygon s ds)[k] = (ds.take k).sum + s := by simp [polygon]

theorem mem_polygon {s : Pt} {ds : List Pt} (h0 : ds.sum = 0) (hne : ds ≠ []) (k : Nat) (_ : k ≤ ds.length) :
    (ds.take k).sum + s ∈ polygon s ds := by
  have hpos : 0 < ds.length := List.length_pos_iff.2 hne
  rcases Nat.lt_or_ge k ds.length with h | h
  · exact List.mem_map.2 ⟨k, List.mem_range.2 h, rfl⟩
  · refine List.mem_map.2 ⟨0, List.mem_range.2 hpos, ?_⟩
    rw [List.take_of_length_le h, h0]; rfl

theorem cons_walk_dropLast (ds : List Pt) (_ : ds ≠ []) :
    ((0, 0) :: (List.range ds.length).map fun k => (0 : Pt) + (ds.take (k + 1)).sum).dropLast =
      (List.range ds.length).map fun k => (ds.take k).sum := by
  have e : ((0, 0) :: (List.range ds.length).map fun k => (0 : Pt) + (ds.take (k + 1)).sum) =
      (List.range (ds.length + 1)).map fun k => (ds.take k).sum := by
    rw [List.range_succ_eq_map, List.map_cons, List.map_map]
    congr 1
    refine List.map_congr_left fun k _ => ?_
    simp
  rw [e, List.range_succ, List.map_append, List.map_cons, List.map_nil, List.dropLast_concat]

/-- The largest value of a coordinate of the partial sums. -/
theorem walk_max {ds : List Pt} (f : Pt → Int) (hf : f 0 = 0) :
    ∃ m, (((List.range ds.length).map fun k => (0 : Pt) + (ds.take (k + 1)).sum).map f).foldl max 0 = m ∧
      (∃ k, k ≤ ds.length ∧ f (ds.take k).sum = m) ∧ ∀ k, k ≤ ds.length → f (ds.take k).sum ≤ m := by
  refine ⟨_, rfl, ?_, ?_⟩
  · rcases foldl_max_mem (((List.range ds.length).map fun k => (0 : Pt) + (ds.take (k + 1)).sum).map f) 0 with h | h
    · exact ⟨0, Nat.zero_le _, by rw [h]; simpa using hf⟩
    · obtain ⟨p, hp, e⟩ := List.mem_map.1 h
      obtain ⟨k, hk, rfl⟩ := List.mem_map.1 hp
      exact ⟨k + 1, by have := List.mem_range.1 hk; omega, by rw [← e]; simp⟩
  · intro k hk
    have hge := foldl_max_ge (((List.range ds.length).map fun k => (0 : Pt) + (ds.take (k + 1)).sum).map f) 0
    cases k with
    | zero =>
      have : f (ds.take 0).sum = 0 := by simpa using hf
      rw [this]; exact hge.1
    | succ k =>
      refine hge.2 _ (List.mem_map.2 ⟨_, List.mem_map.2 ⟨k, List.mem_range.2 (by omega), rfl⟩, ?_⟩)
      simp

/-! ### Turns -/

theorem turn_polygon (s : Pt) (ds : List Pt) {i j k : Nat} (hij : i ≤ j) (hjk : j ≤ k) :
    turn ((ds.take i).sum + s) ((ds.take j).sum + s) ((ds.take k).sum + s) = cr ((ds.take j).drop i).sum ((ds.take k).drop j).sum := by
  have e1 : (ds.take j).sum = (ds.take i).sum + ((ds.take j).drop i).sum := by
    rw [← List.sum_append]
    conv_lhs => rw [← List.take_append_drop i (ds.take j)]
    rw [List.take_take, Nat.min_eq_left hij]
  have e2 : (ds.take k).sum = (ds.take j).sum + ((ds.take k).drop j).sum := by
    rw [← List.sum_append]
    conv_lhs => rw [← List.take_append_drop j (ds.take k)]
    rw [List.take_take, Nat.min_eq_left hjk]
  rw [e2, e1]
  generalize (ds.take i).sum = a
  generalize ((ds.take j).drop i).sum = b
  generalize ((ds.take k).drop j).sum = c
  unfold turn cr
  simp only [Prod.fst_add, Prod.snd_add]
  ring

theorem polygon_turn {L R : List Pt} (h : Sorted L R) (h0 : (L ++ R).sum = 0) (s : Pt) {i j k : Nat} (hij : i ≤ j) (hjk : j ≤ k) :
    0 ≤ turn (((L ++ R).take i).sum + s) (((L ++ R).take j).sum + s) (((L ++ R).take k).sum + s) := by
  rw [turn_polygon s _ hij hjk]
  refine cr_blocks (Z1 := (L ++ R).take i) (Z2 := (L ++ R).drop k) h ?_ h0
  generalize L ++ R = l
  have e1 : l.take j = l.take i ++ (l.take j).drop i := by
    conv_lhs => rw [← List.take_append_drop i (l.take j)]
    rw [List.take_take, Nat.min_eq_left hij]
  have e2 : l.take k = l.take j ++ (l.take k).drop j := by
    conv_lhs => rw [← List.take_append_drop j (l.take k)]
    rw [List.take_take, Nat.min_eq_left hjk]
  rw [← e1, ← e2, List.take_append_drop]

/-! ### Width and height -/

/-- There are two partial sums that differ by the sum of the vectors to the left of `D`. -/
theorem extent {L R : List Pt} (h : Sorted L R) (h0 : (L ++ R).sum = 0) {D : Pt} (hD : D ≠ 0) :
    ∃ a b, a ≤ (L ++ R).length ∧ b ≤ (L ++ R).length ∧
      cr D (((L ++ R).take b).sum) - cr D (((L ++ R).take a).sum) = ps ((L ++ R).map (cr D)) := by
  obtain ⟨L1, L2, P, Q, hl, hr, hf⟩ := rebase h hD
  have hps : ps ((L ++ R).map (cr D)) = cr D P.sum := by
    have hp : (L ++ R).Perm (P ++ Q) := by rw [hl, ← hr]; exact List.perm_append_comm
    rw [ps_perm (hp.map _), List.map_append, ps_append, ps_of_nonneg, ps_of_nonpos, add_zero, cr_sum_right]
    · intro x hx
      obtain ⟨v, hv, rfl⟩ := List.mem_map.1 hx
      exact hf.q_nonpos hv
    · intro x hx
      obtain ⟨v, hv, rfl⟩ := List.mem_map.1 hx
      exact hf.p_nonneg hv
  rw [hps]
  rw [hl] at h0 ⊢
  rcases List.append_eq_append_iff.1 hr with ⟨a', hP, hL1⟩ | ⟨c', hL2, hQ⟩
  · -- `P = L2 ++ a'`, `L1 = a' ++ Q`
    refine ⟨L1.length, a'.length, by simp, by rw [hL1]; simp, ?_⟩
    have e1 : (L1 ++ L2).take L1.length = L1 := by simp
    have e2 : (L1 ++ L2).take a'.length = a' := by rw [hL1]; simp
    rw [e1, e2, hP, List.sum_append, cr_add_right]
    have : cr D L1.sum + cr D L2.sum = 0 := by rw [← cr_add_right, ← List.sum_append, h0, cr_zero_right]
    omega
  · -- `L2 = P ++ c'`
    refine ⟨L1.length, L1.length + P.length, by simp, by rw [hL2]; simp, ?_⟩
    have e1 : (L1 ++ L2).take L1.length = L1 := by simp
    have e2 : (L1 ++ L2).take (L1.length + P.length) = L1 ++ P := by
      rw [hL2, ← List.append_assoc, ← List.length_append, List.take_left]
    rw [e1, e2, List.sum_append, cr_add_right]
    omega

end ICPC.Cyc
