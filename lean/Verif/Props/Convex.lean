import Verif.Lemmas.Convex

/-!
# C71: `Random::convex`
-/

namespace ICPC.Props
open ICPC ICPC.Spec ICPC.Cyc

/-- What the differences drawn by `Random::convex` satisfy. -/
theorem convexDraw_sat {binom : Int → Rand Int} (hb : ∀ m, 0 ≤ m → SatOk (binom m) fun v => 0 ≤ v ∧ v ≤ m) {n dim : Int}
    (h3 : 3 ≤ n) (h1 : n ≤ 8 * dim - 8) (hd : dim ≤ 0x3FFFFFFF) :
    SatOk (convexDraw binom n dim) fun xy => (xy.1.length = n.toNat ∧ Balanced xy.1 (2 * dim - 2)) ∧
      xy.2.length = n.toNat ∧ Balanced xy.2 (2 * dim - 2) := by
  have part : ∀ k, 0 < k → k < n → SatOk (partition (2 * dim - 2) k 0) fun res => res.length = k.toNat ∧ res.sum = 2 * dim - 2 ∧ ∀ y ∈ res, 0 ≤ y := by
    intro k hk hkn
    refine C08_partition_partial (2 * dim - 2) k 0 (i64_mk (by omega) (by omega)) (by omega) hk (by omega)
      (Or.inr ⟨by decide, i64_mk (by omega) (by omega), i64_mk (by omega) (by omega)⟩)
  have bal : ∀ {k : Int} {x x' : List Int}, 0 < k → k < n → (x.length = k.toNat ∧ x.sum = 2 * dim - 2 ∧ ∀ y ∈ x, 0 ≤ y) →
      (x'.length = (n - k).toNat ∧ x'.sum = 2 * dim - 2 ∧ ∀ y ∈ x', 0 ≤ y) →
      (x.map (fun z => -z) ++ x').length = n.toNat ∧ Balanced (x.map (fun z => -z) ++ x') (2 * dim - 2) := by
    intro k x x' hk hkn hx hx'
    refine ⟨by rw [List.length_append, List.length_map, hx.1, hx'.1]; omega, ?_, ?_⟩
    · have : (x.map fun z => -z).sum = - x.sum := by
        clear hx hx'
        induction x with
        | nil => rfl
        | cons a x ih => rw [List.map_cons, List.sum_cons, List.sum_cons, ih]; ring
      rw [List.sum_append, this, hx.2.1, hx'.2.1]; omega
    · rw [ps_append, ps_of_nonpos, ps_of_nonneg hx'.2.2, hx'.2.1]
      · omega
      · intro z hz
        obtain ⟨v, hv, rfl⟩ := List.mem_map.1 hz
        have := hx.2.2 v hv
        omega
  unfold convexDraw
  refine SatOk.bind (hb (n - 2) (by omega)) fun l hl => ?_
  refine SatOk.bind (hb (n - 2) (by omega)) fun d hd' => ?_
  refine SatOk.bind (part (1 + l) (by omega) (by omega)) fun x hx => ?_
  refine SatOk.bind (part (1 + d) (by omega) (by omega)) fun y hy => ?_
  refine SatOk.bind (part (n - (1 + l)) (by omega) (by omega)) fun x' hx' => ?_
  refine SatOk.bind (part (n - (1 + d)) (by omega) (by omega)) fun y' hy' => ?_
  exact satOk_done ⟨bal (by omega) (by omega) hx hx', bal (by omega) (by omega) hy hy'⟩

theorem countP_split {p : Int → Bool} {yes no : List Int} (h1 : ∀ a ∈ yes, p a = true) (h2 : ∀ a ∈ no, p a = false) :
    (yes ++ no).countP p = yes.length := by
  rw [List.countP_append, List.countP_eq_length.2 h1, List.countP_eq_zero.2 (fun a ha => by rw [h2 a ha]; simp), add_zero]

/-- The number of zeros. -/
def zeros (l : List Int) : Nat := l.countP fun z => decide (z = 0)

/-- The directions are not zero, and their coordinates are the drawn differences; the differences are rejected exactly if
they have more than `n` zeros. -/
theorem convexDirs_sat {part : (Int → Bool) → List Int → List Int} (hp : PartitionContract part) {n : Int} {x y : List Int}
    (h0 : 0 ≤ n) (hn : n < 2 ^ 63) (hx : x.length = n.toNat) (hy : y.length = n.toNat) :
    SatOk (convexDirs part n x y) fun r => (r = none ∧ n < zeros x + zeros y) ∨ ∃ ds, r = some ds ∧ (zeros x + zeros y : Int) ≤ n ∧
      ds.length = n.toNat ∧ (∀ d ∈ ds, d ≠ 0) ∧ (ds.map Prod.fst).Perm x ∧ (ds.map Prod.snd).Perm y := by
  obtain ⟨px, xz, xn, ex, hxz, hxn⟩ := hp (fun z => decide (z = 0)) x
  obtain ⟨py, yn, yz, ey, hyn, hyz⟩ := hp (fun z => decide (z ≠ 0)) y
  have cx : (xz ++ xn).countP (fun z => decide (z = 0)) = xz.length := countP_split hxz hxn
  have cy : (yn ++ yz).countP (fun z => decide (z ≠ 0)) = yn.length := countP_split hyn hyz
  unfold convexDirs
  dsimp only
  rw [ex, ey, cx, cy]
  rw [ex] at px
  rw [ey] at py
  have lx := px.length_eq
  have ly := py.length_eq
  rw [List.length_append] at lx ly
  have zx : zeros x = xz.length := by unfold zeros; rw [← px.countP_eq, cx]
  have zy : zeros y = yz.length := by
    unfold zeros
    rw [← py.countP_eq, List.countP_append, List.countP_eq_zero.2 (fun a ha => by have := hyn a ha; simpa using this),
      List.countP_eq_length.2 (fun a ha => by have := hyz a ha; simpa using this), zero_add]
  by_cases hc : (xz.length : Int) + (((yn ++ yz).length - yn.length : Nat) : Int) > n
  · rw [if_pos hc]; exact satOk_done (Or.inl ⟨rfl, by rw [List.length_append] at hc; omega⟩)
  rw [if_neg hc]
  rw [List.length_append] at hc
  have sb : SatOk (shuffleBack xz.length (xz ++ xn)) fun sx => ∃ t, sx = xz ++ t ∧ t.Perm xn := by
    unfold shuffleBack
    rw [List.drop_left, List.take_left]
    refine SatOk.bind (C03_shuffle_perm xn (by omega)) fun t ht => ?_
    exact satOk_done ⟨t, rfl, ht⟩
  have sf : SatOk (shuffleFront (decide (xz.length ≠ 0)) yn.length (yn ++ yz)) fun sy => ∃ t, sy = t ++ yz ∧ t.Perm yn := by
    unfold shuffleFront
    split
    · rw [List.drop_left, List.take_left]
      refine SatOk.bind (C03_shuffle_perm yn (by omega)) fun t ht => ?_
      exact satOk_done ⟨t, rfl, ht⟩
    · exact satOk_done ⟨yn, rfl, List.Perm.refl _⟩
  refine SatOk.bind sb fun sx hsx => SatOk.bind sf fun sy hsy => satOk_done (Or.inr ⟨_, rfl, by omega, ?_⟩)
  obtain ⟨t, rfl, ht⟩ := hsx
  obtain ⟨u, rfl, hu⟩ := hsy
  have lt := ht.length_eq
  have lu := hu.length_eq
  have l1 : (xz ++ t).length = n.toNat := by rw [List.length_append]; omega
  have l2 : (u ++ yz).length = n.toNat := by rw [List.length_append]; omega
  refine ⟨by rw [List.length_zip, l1, l2, Nat.min_self], ?_, ?_, ?_⟩
  · intro d hd h00
    obtain ⟨i, hi, e⟩ := List.mem_iff_getElem.1 hd
    rw [List.length_zip, l1, l2, Nat.min_self] at hi
    rw [List.getElem_zip, h00] at e
    have e1 := congrArg Prod.fst e
    have e2 := congrArg Prod.snd e
    dsimp only [Prod.fst_zero, Prod.snd_zero] at e1 e2
    -- a zero of `x` is in front
    have i1 : i < xz.length := by
      by_contra hi'
      rw [List.getElem_append_right (by omega)] at e1
      have := hxn _ (ht.mem_iff.1 (List.getElem_mem (l := t) (n := i - xz.length) (by rw [List.length_append] at l1; omega)))
      rw [e1] at this
      simp at this
    have i2 : u.length ≤ i := by
      by_contra hi'
      rw [List.getElem_append_left (by omega)] at e2
      have := hyn _ (hu.mem_iff.1 (List.getElem_mem (l := u) (n := i) (by omega)))
      rw [e2] at this
      simp at this
    omega
  · rw [List.map_fst_zip (by omega)]
    exact (List.Perm.append_left xz ht).trans px
  · rw [List.map_snd_zip (by omega)]
    exact (List.Perm.append_right yz hu).trans py

/-- What `Random::convex` promises, up to polygons that degenerate to a line. -/
structure ConvexResult (n dim : Int) (pts : List Pt) : Prop where
  /-- the number of points -/
  count : pts.length = n.toNat
  /-- the points are in the open square -/
  box : ∀ p ∈ pts, (-dim < p.1 ∧ p.1 < dim) ∧ -dim < p.2 ∧ p.2 < dim
  /-- the width is filled -/
  width : (∃ p ∈ pts, p.1 = dim - 1) ∧ ∃ p ∈ pts, p.1 = 1 - dim
  /-- the height is filled -/
  height : (∃ p ∈ pts, p.2 = dim - 1) ∧ ∃ p ∈ pts, p.2 = 1 - dim
  /-- neighbours are different -/
  neighbours : ∀ i (hi : i < pts.length), pts[i] ≠ pts[(i + 1) % pts.length]'(Nat.mod_lt _ (by omega))
  /-- any three points, in their order, make no right turn -/
  turns : ∀ i j k (hi : i < pts.length) (hj : j < pts.length) (hk : k < pts.length), i < j → j < k → 0 ≤ turn pts[i] pts[j] pts[k]

theorem take_succ_sum (ds : List Pt) (i : Nat) (hi : i < ds.length) : (ds.take (i + 1)).sum = (ds.take i).sum + ds[i] := by
  rw [List.take_succ_eq_append_getElem hi, List.sum_append]; simp

theorem convexPlace_polygon {sort : (Pt → Pt → Bool) → List Pt → List Pt} (hsort : SortContract sort) {n dim : Int} {dirs : List Pt}
    (h3 : 3 ≤ n) (hd1 : 2 ≤ dim) (hd : dim ≤ 0x3FFFFFFF) (hn : dirs.length = n.toNat) (hz : ∀ d ∈ dirs, d ≠ 0) (he : Edges (2 * dim - 2) dirs) :
    ∃ s ds, convexPlace sort dim dirs = .ok (polygon s ds) ∧ ds.Perm dirs ∧ ds.sum = 0 ∧ ConvexResult n dim (polygon s ds) := by
  obtain ⟨L, R, e, hperm, hs⟩ := cyclicSort_ok hsort (M := 2 * dim - 2) (by omega) (by omega) (l := dirs) (fun d hd' =>
    ⟨hz d hd', he.x.mem (List.mem_map.2 ⟨d, hd', rfl⟩), he.y.mem (List.mem_map.2 ⟨d, hd', rfl⟩)⟩)
  have hne : ∀ d ∈ L ++ R, d ≠ 0 := fun d hd' => hz d (hperm.mem_iff.1 hd')
  have hl : (L ++ R).length = n.toNat := hperm.length_eq.trans hn
  have hE : Edges (2 * dim - 2) (L ++ R) := ⟨he.x.perm (hperm.map _), he.y.perm (hperm.map _)⟩
  have ext1 := extent hs hE.sum_zero (D := (0, -1)) (by decide)
  have ext2 := extent hs hE.sum_zero (D := (1, 0)) (by decide)
  have turns : ∀ s : Pt, ∀ {i j k : Nat}, i ≤ j → j ≤ k → 0 ≤ turn (((L ++ R).take i).sum + s) (((L ++ R).take j).sum + s) (((L ++ R).take k).sum + s) :=
    fun s {i j k} h1 h2 => polygon_turn hs hE.sum_zero s h1 h2
  unfold convexPlace
  rw [e, ok_bind]
  clear e he hs
  generalize L ++ R = ds at *
  clear hz
  have hds : ds ≠ [] := by
    intro h; rw [h] at hl; simp at hl; omega
  have h00 := hE.sum_zero
  have c1 : ∀ v : Pt, cr (0, -1) v = v.1 := fun v => by simp [cr]
  have c2 : ∀ v : Pt, cr (1, 0) v = v.2 := fun v => by simp [cr]
  have m1 : ds.map (cr (0, -1)) = ds.map Prod.fst := List.map_congr_left fun v _ => c1 v
  have m2 : ds.map (cr (1, 0)) = ds.map Prod.snd := List.map_congr_left fun v _ => c2 v
  rw [m1, hE.x.2] at ext1
  rw [m2, hE.y.2] at ext2
  simp only [c1] at ext1
  simp only [c2] at ext2
  have hw : convexWalk (0, 0) ds = .ok ((List.range ds.length).map fun k => (0 : Pt) + (ds.take (k + 1)).sum) := by
    refine convexWalk_ok ds (0, 0) fun k => ?_
    have := hE.bound k
    simp only [Prod.fst_add, Prod.snd_add]
    exact ⟨i64_mk (by omega) (by omega), i64_mk (by omega) (by omega)⟩
  rw [hw, ok_bind]
  obtain ⟨mx, emx, ⟨kx, hkx, ekx⟩, hmx⟩ := walk_max (ds := ds) Prod.fst rfl
  obtain ⟨my, emy, ⟨ky, hky, eky⟩, hmy⟩ := walk_max (ds := ds) Prod.snd rfl
  dsimp only
  rw [emx, emy]
  have bx := (hE.bound kx).1
  have b_y := (hE.bound ky).2
  rw [chk_in (by omega) (by omega), ok_bind, chk_in (by omega) (by omega), ok_bind, cons_walk_dropLast ds hds]
  have hsh : convexShift (dim - 1 - mx) (dim - 1 - my) ((List.range ds.length).map fun k => (ds.take k).sum) =
      .ok (polygon (dim - 1 - mx, dim - 1 - my) ds) := by
    have := convexShift_ok (dim - 1 - mx, dim - 1 - my) ((List.range ds.length).map fun k => (ds.take k).sum) (fun p hp => by
      obtain ⟨k, _, rfl⟩ := List.mem_map.1 hp
      have := hE.bound k
      simp only [Prod.fst_add, Prod.snd_add]
      exact ⟨i64_mk (by omega) (by omega), i64_mk (by omega) (by omega)⟩)
    dsimp only at this
    rw [this, List.map_map]; rfl
  refine ⟨_, _, hsh, hperm, h00, ⟨by rw [polygon_length, hl], ?_, ?_, ?_, ?_, ?_⟩⟩
  · intro p hp
    obtain ⟨k, hk, rfl⟩ := List.mem_map.1 hp
    have hk := (List.mem_range.1 hk).le
    have := hmx k hk
    have := hmy k hk
    have := (hE.diff k kx).1
    have := (hE.diff k ky).2
    simp only [Prod.fst_add, Prod.snd_add]
    omega
  · refine ⟨⟨_, mem_polygon h00 hds kx hkx, ?_⟩, ?_⟩
    · simp only [Prod.fst_add]; omega
    · obtain ⟨a, b, ha, hb, hab⟩ := ext1
      refine ⟨_, mem_polygon h00 hds a ha, ?_⟩
      have := hmx b hb
      have := (hE.diff a kx).1
      simp only [Prod.fst_add]
      omega
  · refine ⟨⟨_, mem_polygon h00 hds ky hky, ?_⟩, ?_⟩
    · simp only [Prod.snd_add]; omega
    · obtain ⟨a, b, ha, hb, hab⟩ := ext2
      refine ⟨_, mem_polygon h00 hds a ha, ?_⟩
      have := hmy b hb
      have := (hE.diff a ky).2
      simp only [Prod.snd_add]
      omega
  · intro i hi
    have hi' : i < ds.length := by simpa using hi
    rw [polygon_get, polygon_get]
    have hd' := hne _ (List.getElem_mem hi')
    have hstep := take_succ_sum ds i hi'
    rw [polygon_length]
    intro heq
    have heq := add_right_cancel heq
    rcases Nat.lt_or_ge (i + 1) ds.length with h | h
    · rw [Nat.mod_eq_of_lt h, hstep] at heq
      exact hd' (by simpa using heq)
    · have e1 : i + 1 = ds.length := by omega
      rw [e1, Nat.mod_self, List.take_zero, List.sum_nil] at heq
      rw [e1, List.take_length, h00, heq, zero_add] at hstep
      exact hd' hstep.symm
  · intro i j k hi hj hk hij hjk
    rw [polygon_get, polygon_get, polygon_get]
    exact turns _ hij.le hjk.le

theorem convexPlace_ok {sort : (Pt → Pt → Bool) → List Pt → List Pt} (hsort : SortContract sort) {n dim : Int} {dirs : List Pt}
    (h3 : 3 ≤ n) (hd1 : 2 ≤ dim) (hd : dim ≤ 0x3FFFFFFF) (hn : dirs.length = n.toNat) (hz : ∀ d ∈ dirs, d ≠ 0) (he : Edges (2 * dim - 2) dirs) :
    ∃ pts, convexPlace sort dim dirs = .ok pts ∧ ConvexResult n dim pts :=
  let ⟨_, _, e, _, _, h⟩ := convexPlace_polygon hsort h3 hd1 hd hn hz he
  ⟨_, e, h⟩

theorem convexLoop_sat {part : (Int → Bool) → List Int → List Int} (hp : PartitionContract part)
    {sort : (Pt → Pt → Bool) → List Pt → List Pt} (hsort : SortContract sort)
    {binom : Int → Rand Int} (hb : ∀ m, 0 ≤ m → SatOk (binom m) fun v => 0 ≤ v ∧ v ≤ m) {n dim : Int}
    (h3 : 3 ≤ n) (h1 : n ≤ 8 * dim - 8) (hd : dim ≤ 0x3FFFFFFF) : ∀ fuel,
    Sat (convexLoop part sort binom n dim fuel) fun o => o = .error .fuel ∨ ∃ pts, o = .ok pts ∧ ConvexResult n dim pts
  | 0 => Or.inl rfl
  | fuel + 1 => by
    unfold convexLoop
    refine SatOk.bind (convexDraw_sat hb h3 h1 hd) fun xy hxy => ?_
    refine SatOk.bind (convexDirs_sat hp (by omega) (by omega) hxy.1.1 hxy.2.1) fun r hr => ?_
    rcases hr with ⟨rfl, _⟩ | ⟨ds, rfl, _, hl, hz, hx, hy⟩
    · exact convexLoop_sat hp hsort hb h3 h1 hd fuel
    · obtain ⟨pts, e, hr⟩ := convexPlace_ok hsort h3 (by omega) hd hl hz ⟨hxy.1.2.perm hx, hxy.2.2.perm hy⟩
      exact Or.inr ⟨pts, e, hr⟩

theorem convex_unfold {part : (Int → Bool) → List Int → List Int} {sort : (Pt → Pt → Bool) → List Pt → List Pt}
    {binom : Int → Rand Int} {fuel : Nat} {n dim : Int} (h3 : 3 ≤ n) (h1 : n ≤ 8 * dim - 8) (hd : dim ≤ 0x3FFFFFFF) :
    convex part sort binom fuel n dim = convexLoop part sort binom n dim fuel := by
  unfold convex
  rw [decide_eq_true hd, decide_eq_true (show dim > 0 by omega), decide_eq_true h1, decide_eq_true h3]
  rfl

/-- Points without a right turn are on a line or a convex polygon. -/
theorem convexResult_cases {n dim : Int} {pts : List Pt} (h3 : 3 ≤ n) (h : ConvexResult n dim pts) : ConvexPolygon pts ∨ OnALine pts := by
  have hc := h.count
  by_cases hex : ∃ i j k, ∃ (hi : i < pts.length) (hj : j < pts.length) (hk : k < pts.length), turn pts[i] pts[j] pts[k] ≠ 0
  · exact Or.inl ⟨by omega, h.turns, h.neighbours, hex⟩
  · right
    have hz : ∀ p ∈ pts, turn (pts[0]'(by omega)) (pts[1]'(by omega)) p = 0 := by
      intro p hp
      obtain ⟨k, hk, rfl⟩ := List.mem_iff_getElem.1 hp
      by_contra hne
      exact hex ⟨0, 1, k, by omega, by omega, hk, hne⟩
    have h01 := h.neighbours 0 (by omega)
    rw [show pts[(0 + 1) % pts.length]'(Nat.mod_lt _ (by omega)) = pts[1]'(by omega) by
      congr 1; exact Nat.mod_eq_of_lt (by omega)] at h01
    generalize pts[0]'(by omega) = a at *
    generalize pts[1]'(by omega) = b at *
    refine ⟨-(b.2 - a.2), b.1 - a.1, (b.1 - a.1) * a.2 - (b.2 - a.2) * a.1, ?_, fun p hp => ?_⟩
    · by_contra hcon
      exact h01 (Prod.ext (by omega) (by omega))
    · have := hz p hp
      unfold turn at this
      linear_combination this

/-- **C71.** For all documented arguments, all results of `Random::binomial`, every `std::sort` and `std::partition`
that keep their contracts and all draws: no step of `Random::convex(n, dim)` is undefined or throws, the comparator it
passes to `std::sort` is a strict weak ordering, and unless the loop goes on rejecting it returns `n` points with
coordinates strictly between `-dim` and `dim` that reach both limits in x and y; neighbours are different, no three of the
points in their order make a right turn, and the points are a convex polygon or all on one line.  The full claim is
without the last alternative; it is false then (`C71_line_refuted`).  The end of the loop is `C71_ends`. -/
theorem C71_convex_partial (part : (Int → Bool) → List Int → List Int) (hp : PartitionContract part)
    (sort : (Pt → Pt → Bool) → List Pt → List Pt) (hsort : SortContract sort)
    (binom : Int → Rand Int) (hb : ∀ m, 0 ≤ m → SatOk (binom m) fun v => 0 ≤ v ∧ v ≤ m) (fuel : Nat) (n dim : Int)
    (h3 : 3 ≤ n) (h1 : n ≤ 8 * dim - 8) (hd : dim ≤ 0x3FFFFFFF) :
    Sat (convex part sort binom fuel n dim) fun o => o = .error .fuel ∨ ∃ pts, o = .ok pts ∧ pts.length = n.toNat ∧
      (∀ p ∈ pts, (-dim < p.1 ∧ p.1 < dim) ∧ -dim < p.2 ∧ p.2 < dim) ∧
      ((∃ p ∈ pts, p.1 = dim - 1) ∧ ∃ p ∈ pts, p.1 = 1 - dim) ∧ ((∃ p ∈ pts, p.2 = dim - 1) ∧ ∃ p ∈ pts, p.2 = 1 - dim) ∧
      (∀ i (hi : i < pts.length), pts[i] ≠ pts[(i + 1) % pts.length]'(Nat.mod_lt _ (by omega))) ∧
      (∀ i j k (hi : i < pts.length) (hj : j < pts.length) (hk : k < pts.length), i < j → j < k → 0 ≤ turn pts[i] pts[j] pts[k]) ∧
      (ConvexPolygon pts ∨ OnALine pts) := by
  rw [convex_unfold h3 h1 hd]
  refine Sat.mono (convexLoop_sat hp hsort hb h3 h1 hd fuel) fun o ho => ?_
  rcases ho with ho | ⟨pts, ho, h⟩
  · exact Or.inl ho
  · exact Or.inr ⟨pts, ho, h.count, h.box, h.width, h.height, h.neighbours, h.turns, convexResult_cases h3 h⟩

/-- **C71.** The returned polygon is accepted by `isConvex` unless its points are all on one line. -/
theorem C71_accepted (part : (Int → Bool) → List Int → List Int) (hp : PartitionContract part)
    (sort : (Pt → Pt → Bool) → List Pt → List Pt) (hsort : SortContract sort)
    (binom : Int → Rand Int) (hb : ∀ m, 0 ≤ m → SatOk (binom m) fun v => 0 ≤ v ∧ v ≤ m) (fuel : Nat) (n dim : Int)
    (h3 : 3 ≤ n) (h1 : n ≤ 8 * dim - 8) (hd : dim ≤ 0x3FFFFFFF) :
    Sat (convex part sort binom fuel n dim) fun o => ∀ pts, o = .ok pts → isConvex pts = .ok true ∨ OnALine pts := by
  refine Sat.mono (C71_convex_partial part hp sort hsort binom hb fuel n dim h3 h1 hd) fun o ho pts he => ?_
  rcases ho with ho | ⟨pts', ho, hl, hbox, _, _, _, _, hc⟩
  · rw [ho] at he; cases he
  · rw [ho] at he
    cases he
    rcases hc with hc | hc
    · left
      obtain ⟨b, hb, hiff, _⟩ := C29_isConvex_partial pts (fun p hp => by have := hbox p hp; omega)
      rw [hb, hiff hc]
    · exact Or.inr hc

/-- Other arguments make `Random::convex` throw. -/
theorem C71_throws (part : (Int → Bool) → List Int → List Int) (sort : (Pt → Pt → Bool) → List Pt → List Pt)
    (binom : Int → Rand Int) (fuel : Nat) (n dim : Int) (h : 0x3FFFFFFF < dim ∨ n < 3 ∨ 8 * dim - 8 < n) :
    convex part sort binom fuel n dim = .done (.error .throw) := by
  unfold convex
  by_cases c1 : dim ≤ 0x3FFFFFFF
  · rw [decide_eq_true c1]
    by_cases c2 : dim > 0
    · rw [decide_eq_true c2]
      by_cases c3 : n ≤ 8 * dim - 8
      · rw [decide_eq_true c3, decide_eq_false (show ¬ n ≥ 3 by omega)]; rfl
      · rw [decide_eq_false c3]; rfl
    · rw [decide_eq_false c2]; rfl
  · rw [decide_eq_false c1]; rfl

/-! ### The contracts can be kept, and a polygon on a line -/

/-- A partition that keeps the order. -/
def stablePartition {α : Type} (p : α → Bool) (l : List α) : List α := l.filter p ++ l.filter fun a => !p a

theorem stablePartition_contract {α : Type} : PartitionContract (α := α) stablePartition := by
  intro p l
  refine ⟨List.filter_append_perm p l, _, _, rfl, fun a ha => (List.mem_filter.1 ha).2, fun a ha => ?_⟩
  have := (List.mem_filter.1 ha).2
  simpa using this

/-- Insertion in front of the first element that is not less. -/
def insertBy {α : Type} (less : α → α → Bool) (a : α) : List α → List α
  | [] => [a]
  | b :: l => if less b a then b :: insertBy less a l else a :: b :: l

/-- Insertion sort. -/
def sortBy {α : Type} (less : α → α → Bool) (l : List α) : List α := l.foldr (insertBy less) []

theorem insertBy_perm {α : Type} (less : α → α → Bool) (a : α) : ∀ l : List α, (insertBy less a l).Perm (a :: l)
  | [] => List.Perm.refl _
  | b :: l => by
    unfold insertBy
    split
    · exact ((insertBy_perm less a l).cons b).trans (List.Perm.swap a b l)
    · exact List.Perm.refl _

theorem insertBy_sorted {α : Type} (less : α → α → Bool) (a : α) : ∀ l : List α, StrictWeakOn less (a :: l) →
    (l.Pairwise fun x y => less y x = false) → (insertBy less a l).Pairwise fun x y => less y x = false
  | [], _, _ => by simp [insertBy]
  | b :: l, hw, hs => by
    obtain ⟨h1, h2⟩ := List.pairwise_cons.1 hs
    obtain ⟨w1, w2, w3⟩ := hw
    unfold insertBy
    split
    · rename_i hba
      refine List.pairwise_cons.2 ⟨fun y hy => ?_, insertBy_sorted less a l ?_ h2⟩
      · rcases List.mem_cons.1 ((insertBy_perm less a l).mem_iff.1 hy) with rfl | hy
        · by_contra hc
          rw [Bool.not_eq_false] at hc
          have := w2 b (by simp) y (by simp) b (by simp) hba hc
          rw [w1 b (by simp)] at this
          cases this
        · exact h1 y hy
      · have sub : ∀ {x}, x ∈ a :: l → x ∈ a :: b :: l := by
          intro x hx
          rcases List.mem_cons.1 hx with rfl | hx <;> simp [*]
        exact ⟨fun x hx => w1 x (sub hx), fun x hx y hy z hz => w2 x (sub hx) y (sub hy) z (sub hz),
          fun x hx y hy z hz => w3 x (sub hx) y (sub hy) z (sub hz)⟩
    · rename_i hba
      rw [Bool.not_eq_true] at hba
      refine List.pairwise_cons.2 ⟨fun y hy => ?_, hs⟩
      rcases List.mem_cons.1 hy with rfl | hy'
      · exact hba
      · exact w3 y (by simp [hy']) b (by simp) a (by simp) (h1 y hy') hba

theorem sortBy_contract {α : Type} : SortContract (α := α) sortBy := by
  intro less l hw
  induction l with
  | nil => exact ⟨List.Perm.refl _, List.Pairwise.nil⟩
  | cons a l ih =>
    obtain ⟨w1, w2, w3⟩ := hw
    obtain ⟨hp, hs⟩ := ih ⟨fun x hx => w1 x (by simp [hx]), fun x hx y hy z hz => w2 x (by simp [hx]) y (by simp [hy]) z (by simp [hz]),
      fun x hx y hy z hz => w3 x (by simp [hx]) y (by simp [hy]) z (by simp [hz])⟩
    refine ⟨(insertBy_perm less a _).trans (hp.cons a), insertBy_sorted less a _ ?_ hs⟩
    have sub : ∀ {x}, x ∈ a :: sortBy less l → x ∈ a :: l := by
      intro x hx
      rcases List.mem_cons.1 hx with rfl | hx
      · simp
      · simp [hp.mem_iff.1 hx]
    exact ⟨fun x hx => w1 x (sub hx), fun x hx y hy z hz => w2 x (sub hx) y (sub hy) z (sub hz),
      fun x hx y hy z hz => w3 x (sub hx) y (sub hy) z (sub hz)⟩

/-- **C71 fails**: with the same differences in both coordinates the three points of a "triangle" are on the diagonal,
and `isConvex` rejects the result. -/
theorem C71_line_refuted : (convex stablePartition sortBy (fun _ => pure 0) 1 3 3).run true
      [9223372036854775808, 9223372036854775808, 15372286728091293013, 13835058055282163712] = some (.ok [(2, 2), (-2, -2), (0, 0)], []) ∧
    isConvex [(2, 2), (-2, -2), (0, 0)] = .ok false ∧ ¬ ConvexPolygon [(2, 2), (-2, -2), (0, 0)] := by
  refine ⟨by decide +kernel, by decide +kernel, ?_⟩
  rintro ⟨_, _, _, i, j, k, hi, hj, hk, h⟩
  apply h
  simp only [List.length_cons, List.length_nil] at hi hj hk
  have h1 : i = 0 ∨ i = 1 ∨ i = 2 := by omega
  have h2 : j = 0 ∨ j = 1 ∨ j = 2 := by omega
  have h3 : k = 0 ∨ k = 1 ∨ k = 2 := by omega
  rcases h1 with rfl | rfl | rfl <;> rcases h2 with rfl | rfl | rfl <;> rcases h3 with rfl | rfl | rfl <;> rfl

-- a heptagon in (-10, 10)²
example : ((convex stablePartition sortBy (fun m => pure (m / 2)) 1 7 10).run true
    ((List.range 21).map fun i => (i * 7777777777777777777 + 12345) % 2 ^ 64)).map Prod.fst =
      some (.ok [(9, 9), (-2, 6), (-9, 1), (-9, -9), (-3, -8), (4, -1), (6, 2)]) := by decide +kernel
-- the square cut into 8 edges of length 1: here the edges are all parallel to the axes
example : isConvex [(1, 1), (0, 1), (-1, 1), (-1, 0), (-1, -1), (0, -1), (1, -1), (1, 0)] = .ok true := by decide +kernel

end ICPC.Props
