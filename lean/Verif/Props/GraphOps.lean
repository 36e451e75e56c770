import Verif.Lemmas.GraphOps6

/-!
# C55: operators on graphs

`Good g dir lo n m` is the invariant of the class: `g` has the vertices `[lo, lo + n)` and stands for the edge map `m`; everything that can
be observed follows from it (`Agrees`, with every edge stored exactly once). `C55_built` shows that all graphs have it that are made by the
constructor and by any calls. The hypotheses on sizes say that no vertex number overflows.
-/

namespace ICPC.Props

open ICPC ICPC.Gen Spec.EdgeMap

variable {E : Type} {g o : Graph E} {dir : Bool} {lo lo' : Int} {n n' : Nat} {m m' : Map E}

/-- What a correct result is: the call succeeds, and the result is well formed and agrees with the map. -/
def Returns (r : Out (Graph E)) (dir : Bool) (lo : Int) (n : Nat) (m : Map E) : Prop :=
  ∃ g', r = .ok g' ∧ Good g' dir lo n m ∧ Agrees g' dir lo n m

theorem returns_of {r : Out (Graph E)} (h : ∃ g', r = .ok g' ∧ Good g' dir lo n m) : Returns r dir lo n m := by
  obtain ⟨g', h1, h2⟩ := h
  exact ⟨g', h1, h2, h2.agrees⟩

/-- **C55, complement.** Exactly the missing edges. -/
theorem C55_complement [Inhabited E] (h : Good g dir lo n m) : Returns g.complement dir lo n (complMap lo n m) := returns_of h.complement

/-- **C55, reverse.** -/
theorem C55_reverse (h : Good g true lo n m) : Returns g.reverse true lo n (rev m) := returns_of h.reverse

/-- **C55, undirected.** An edge wherever there is one in either direction, with the data of one of them. -/
theorem C55_undirected (h : Good g true lo n m) : ∃ m', Returns g.undirected false lo n m' ∧
    (∀ u v, (m' u v).isSome ↔ (m u v).isSome ∨ (m v u).isSome) ∧ ∀ u v d, m' u v = some d → m u v = some d ∨ m v u = some d := by
  obtain ⟨g', m', h1, h2, h3, h4⟩ := h.undirected
  exact ⟨m', returns_of ⟨g', h1, h2⟩, h3, h4⟩

/-- **C55, directed(p).** Those directions of every edge for which `p` holds. -/
theorem C55_directedBy (h : Good g false lo n m) (p : Int → Int → E → Bool) : Returns (g.directedBy p) true lo n (keep p m) :=
  returns_of (h.directedBy p)

/-- **C55, directed().** Both directions of every edge. -/
theorem C55_directed (h : Good g false lo n m) : Returns g.directed true lo n m := by
  have := C55_directedBy h fun _ _ _ => true
  have hk : keep (fun _ _ _ => true) m = m := by
    funext u v
    unfold keep
    cases m u v <;> rfl
  rw [hk] at this
  exact this

/-- **C55, combine.** The union on the smallest range that contains both. -/
theorem C55_combine (h : Good g dir lo n m) (ho : Good o dir lo' n' m') (hfit : I64 (max (lo + n) (lo' + n') - min lo lo')) :
    Returns (g.combine o) dir (min lo lo') (max (lo + n) (lo' + n') - min lo lo').toNat (union m m') := returns_of (h.combine ho hfit)

/-- **C55, append.** The disjoint union; the vertices of the other graph follow those of this one. -/
theorem C55_append (h : Good g dir lo n m) (ho : Good o dir lo' n' m') (hfit : I64 (lo + n + n')) (hfit' : I64 (n + n' : Int))
    (hdiff : I64 (lo + n - lo')) : Returns (g.append o) dir lo (n + n') (union m (shift m' (lo + n - lo'))) :=
  returns_of (h.append ho hfit hfit' hdiff)

/-- **C55, product.** The tensor product. -/
theorem C55_product [Inhabited E] (h : Good g false lo n m) (ho : Good o false lo' n' m') (hfit : I64 (n * n' : Int)) :
    Returns (g.product o) false 0 (n * n') (tensor lo n lo' m m') := returns_of (h.product ho hfit)

/-- **C55, cartesian.** -/
theorem C55_cartesian [Inhabited E] (h : Good g dir lo n m) (ho : Good o dir lo' n' m') (hfit : I64 (n * n' : Int)) :
    Returns (g.cartesian o) dir 0 (n * n') (cart lo n lo' n' m m') := returns_of (h.cartesian ho hfit)

/-- **C55, strongProduct.** The vertices are numbered as in `o.cartesian(g)`. -/
theorem C55_strongProduct [Inhabited E] (h : Good g false lo n m) (ho : Good o false lo' n' m') (hfit : I64 (n * n' : Int)) :
    Returns (g.strongProduct o) false 0 (n' * n) (strong lo' n' lo n m' m) := by
  have hs : strong lo' n' lo n m' m = union (cart lo' n' lo n m' m) (tensor lo' n' lo m' m) := by
    funext x y
    have hcase : (∃ a b c d, In lo' n' a ∧ In lo n b ∧ x = pairId lo' n' lo a b ∧ y = pairId lo' n' lo c d ∧ (a = c ∨ (m' a c).isSome) ∧
        (b = d ∨ (m b d).isSome) ∧ ¬ (a = c ∧ b = d)) ↔
        (∃ a b c d, x = pairId lo' n' lo a b ∧ y = pairId lo' n' lo c d ∧
          ((a = c ∧ In lo' n' a ∧ (m b d).isSome) ∨ (b = d ∧ In lo n b ∧ (m' a c).isSome))) ∨
        ∃ a b c d, x = pairId lo' n' lo a b ∧ y = pairId lo' n' lo c d ∧ (m' a c).isSome ∧ (m b d).isSome := by
      constructor
      · rintro ⟨a, b, c, d, ha, hb, hx, hy, h1, h2, h3⟩
        rcases h1 with h1 | h1 <;> rcases h2 with h2 | h2
        · exact absurd ⟨h1, h2⟩ h3
        · exact Or.inl ⟨a, b, c, d, hx, hy, Or.inl ⟨h1, ha, h2⟩⟩
        · exact Or.inl ⟨a, b, c, d, hx, hy, Or.inr ⟨h2, hb, h1⟩⟩
        · exact Or.inr ⟨a, b, c, d, hx, hy, h1, h2⟩
      · rintro (⟨a, b, c, d, hx, hy, ⟨h1, ha, h2⟩ | ⟨h1, hb, h2⟩⟩ | ⟨a, b, c, d, hx, hy, h1, h2⟩)
        · exact ⟨a, b, c, d, ha, (h.isSome_in h2).1, hx, hy, Or.inl h1, Or.inr h2, fun hh => (h.isSome_in h2).2.2 hh.2⟩
        · exact ⟨a, b, c, d, (ho.isSome_in h2).1, hb, hx, hy, Or.inr h2, Or.inl h1, fun hh => (ho.isSome_in h2).2.2 hh.1⟩
        · exact ⟨a, b, c, d, (ho.isSome_in h1).1, (h.isSome_in h2).1, hx, hy, Or.inr h1, Or.inr h2, fun hh => (h.isSome_in h2).2.2 hh.2⟩
    unfold strong union cart tensor
    by_cases hc : ∃ a b c d, x = pairId lo' n' lo a b ∧ y = pairId lo' n' lo c d ∧
        ((a = c ∧ In lo' n' a ∧ (m b d).isSome) ∨ (b = d ∧ In lo n b ∧ (m' a c).isSome))
    · rw [if_pos (hcase.2 (Or.inl hc)), if_pos hc]
      split <;> rfl
    · by_cases ht : ∃ a b c d, x = pairId lo' n' lo a b ∧ y = pairId lo' n' lo c d ∧ (m' a c).isSome ∧ (m b d).isSome
      · rw [if_pos (hcase.2 (Or.inr ht)), if_pos ht]
        rfl
      · rw [if_neg fun hh => (hcase.1 hh).elim hc ht, if_neg hc, if_neg ht]
        rfl
  rw [hs]
  exact returns_of (h.strongProduct ho hfit)

/-- **C55, lineGraph.** The vertices are the positions of the edges. -/
theorem C55_lineGraph {g : Graph Int} {m : Map Int} (h : Good g dir lo n m) (hfit : I64 (g.getEdges.length : Int)) :
    Returns g.lineGraph dir 0 g.getEdges.length (lineMap dir g.getEdges) := returns_of (h.lineGraph hfit)

/-- **C55, power.** For directed graphs: all pairs that are joined by a walk with at most `k` edges. The length of the queue is at most
`n + 1`. For undirected graphs see `C55_power_undirected_refuted`. -/
theorem C55_power_partial [Inhabited E] (h : Good g true lo n m) (k : Int) (fuel : Nat) (hfuel : n + 1 ≤ fuel) :
    Returns (g.power fuel k) true lo n (powerMap k lo n m) := returns_of (h.power k hfuel)

/-- **C55, range.** For graphs that start at vertex 0: the subgraph on `[l, r)`. For others see `C55_range_refuted`. -/
theorem C55_range_partial (h : Good g dir 0 n m) (l r : Int) (hlr : l ≤ r) (hl : I64 l) (hr : I64 r) (hlen : I64 (r - l)) :
    Returns (g.range l r) dir l (r - l).toNat (fun u v => if In l (r - l).toNat u ∧ In l (r - l).toNat v then m u v else none) :=
  returns_of (h.range hlr hl hr hlen)

/-- **C55, permutate(perm).** For a permutation of the vertices, whatever the random generator does, the result is the graph renamed by it. -/
theorem C55_permutate_partial (h : Good g dir lo n m) (hlen : g.edges.length < 2 ^ 63) (perm : List Int) (hl : perm.length = n)
    (hp : Spec.IsPermutationFrom lo perm) : SatOk (g.permutate perm) fun g' => ∃ m', Good g' dir lo n m' ∧ Agrees g' dir lo n m' ∧
      ∀ i j (hi : i < perm.length) (hj : j < perm.length), m' perm[i] perm[j] = m (lo + i) (lo + j) :=
  (h.permutate hlen perm hl hp).mono fun _ ⟨m', h1, h2⟩ => ⟨m', h1, h1.agrees, h2⟩

/-- **C55, permutate().** The graph renamed by some permutation of the vertices. -/
theorem C55_permutate_random (h : Good g dir lo n m) (hlen : g.edges.length < 2 ^ 63) : SatOk g.permutateRandom fun g' => ∃ m',
    ∃ perm : List Int, perm.length = n ∧ Spec.IsPermutationFrom lo perm ∧ Good g' dir lo n m' ∧ Agrees g' dir lo n m' ∧
      ∀ i j (hi : i < perm.length) (hj : j < perm.length), m' perm[i] perm[j] = m (lo + i) (lo + j) :=
  (h.permutateRandom hlen).mono fun _ ⟨m', perm, h1, h2, h3, h4⟩ => ⟨m', perm, h1, h2, h3, h3.agrees, h4⟩

/-- **C55, permutateEdges.** Only the order and the orientation in which edges are stored change. -/
theorem C55_permutateEdges (h : Good g dir lo n m) (hlen : g.edges.length < 2 ^ 63) : SatOk g.permutateEdges fun g' =>
    Good g' dir lo n m ∧ Agrees g' dir lo n m := (h.permutateEdges hlen).mono fun _ h => ⟨h, h.agrees⟩

/-- **C55, subgraph.** `k` of the edges (all if there are fewer), on the same vertices. -/
theorem C55_subgraph (h : Good g dir lo n m) (hlen : g.edges.length < 2 ^ 63) (k : Int) (h0 : 0 ≤ k) : SatOk (g.subgraph k) fun g' =>
    ∃ m', Good g' dir lo n m' ∧ Agrees g' dir lo n m' ∧ g'.edgeCount = min k g.edgeCount ∧ ∀ u v d, m' u v = some d → m u v = some d :=
  (h.subgraph hlen k h0).mono fun _ ⟨m', h1, h2, h3⟩ => ⟨m', h1, h1.agrees, h2, h3⟩

/-! ## All graphs are well formed -/

/-- The graphs that can be made by the constructor and calls, without overflow of vertex numbers. -/
inductive Built [Inhabited E] : Bool → Graph E → Prop
  | new {dir l r g} : I64 l → I64 r → l ≤ r → I64 (r - l) → Graph.new dir l r = .ok g → Built dir g
  | addEdge {dir g g'} {u v : Int} {d : E} : Built dir g → g.add u v d = .ok g' → Built dir g'
  | eraseEdge {dir g g'} {u v : Int} : Built dir g → g.erase u v = .ok g' → Built dir g'
  | setMinId {dir g g'} {k : Int} : Built dir g → I64 k → I64 (k + g.nodeCount) → g.setMinId k = .ok g' → Built dir g'
  | copy {dir g g'} : Built dir g → g.copy = .ok g' → Built dir g'
  | complement {dir g g'} : Built dir g → g.complement = .ok g' → Built dir g'
  | reverse {g g'} : Built true g → g.reverse = .ok g' → Built true g'
  | undirected {g g'} : Built true g → g.undirected = .ok g' → Built false g'
  | directed {g g'} (p : Int → Int → E → Bool) : Built false g → g.directedBy p = .ok g' → Built true g'
  | combine {dir g o g'} : Built dir g → Built dir o →
      I64 (max (g.minId + g.nodeCount) (o.minId + o.nodeCount) - min g.minId o.minId) → g.combine o = .ok g' → Built dir g'
  | append {dir g o g'} : Built dir g → Built dir o → I64 (g.minId + g.nodeCount + o.nodeCount) → I64 (g.nodeCount + o.nodeCount) →
      I64 (g.minId + g.nodeCount - o.minId) → g.append o = .ok g' → Built dir g'
  | product {g o g'} : Built false g → Built false o → I64 (g.nodeCount * o.nodeCount) → g.product o = .ok g' → Built false g'
  | cartesian {dir g o g'} : Built dir g → Built dir o → I64 (g.nodeCount * o.nodeCount) → g.cartesian o = .ok g' → Built dir g'
  | power {g g'} {k : Int} {fuel : Nat} : Built true g → g.nodeCount + 1 ≤ (fuel : Int) → g.power fuel k = .ok g' → Built true g'

theorem good_of {r : Out (Graph E)} {g' : Graph E} (h : ∃ g', r = .ok g' ∧ Good g' dir lo n m) (hr : r = .ok g') : Good g' dir lo n m := by
  obtain ⟨g'', h1, h2⟩ := h
  rw [hr] at h1
  obtain rfl := Except.ok.inj h1
  exact h2

/-- **C55, invariant.** Every graph that can be made is well formed: it agrees with some edge map, every edge is stored exactly once. -/
theorem C55_built [Inhabited E] (h : Built dir g) : ∃ lo n m, Good g dir lo n m ∧ Agrees g dir lo n m := by
  suffices hg : ∃ lo n m, Good g dir lo n m by
    obtain ⟨lo, n, m, hg⟩ := hg
    exact ⟨lo, n, m, hg, hg.agrees⟩
  induction h with
  | @new dir l r g h1 h2 h3 h4 h5 =>
    obtain ⟨g', a, b, -⟩ := new_good (E := E) dir h1 h2 h3 h4
    exact ⟨_, _, _, good_of ⟨g', a, b⟩ h5⟩
  | @addEdge dir g g' u v d _ h ih =>
    obtain ⟨lo, n, m, hg⟩ := ih
    by_cases hv : In lo n u ∧ In lo n v ∧ u ≠ v
    · obtain ⟨g1, a, b, -⟩ := hg.add d hv.1 hv.2.1 hv.2.2
      exact ⟨_, _, _, good_of ⟨g1, a, b⟩ h⟩
    · unfold Graph.add at h
      rw [hg.addEdge_throw d hv] at h
      cases h
  | @eraseEdge dir g g' u v _ h ih =>
    obtain ⟨lo, n, m, hg⟩ := ih
    by_cases hv : In lo n u ∧ In lo n v
    · obtain ⟨g1, a, b, -⟩ := hg.eraseEdge hv.1 hv.2
      unfold Graph.erase at h
      rw [a] at h
      obtain rfl := Except.ok.inj h
      exact ⟨_, _, _, b⟩
    · unfold Graph.erase at h
      rw [hg.eraseEdge_throw hv] at h
      cases h
  | @setMinId dir g g' k _ h1 h2 h ih =>
    obtain ⟨lo, n, m, hg⟩ := ih
    obtain ⟨g1, a, b, -⟩ := hg.setMinId k h1 (by rw [← hg.nodeCount_eq]; exact h2)
    exact ⟨_, _, _, good_of ⟨g1, a, b⟩ h⟩
  | copy _ h ih =>
    obtain ⟨lo, n, m, hg⟩ := ih
    obtain ⟨g1, a, b, -⟩ := hg.copy
    exact ⟨_, _, _, good_of ⟨g1, a, b⟩ h⟩
  | complement _ h ih =>
    obtain ⟨lo, n, m, hg⟩ := ih
    exact ⟨_, _, _, good_of hg.complement h⟩
  | reverse _ h ih =>
    obtain ⟨lo, n, m, hg⟩ := ih
    exact ⟨_, _, _, good_of hg.reverse h⟩
  | undirected _ h ih =>
    obtain ⟨lo, n, m, hg⟩ := ih
    obtain ⟨g', m', h1, h2, -⟩ := hg.undirected
    exact ⟨_, _, _, good_of ⟨g', h1, h2⟩ h⟩
  | directed p _ h ih =>
    obtain ⟨lo, n, m, hg⟩ := ih
    exact ⟨_, _, _, good_of (hg.directedBy p) h⟩
  | combine _ _ h1 h ih ih' =>
    obtain ⟨lo, n, m, hg⟩ := ih
    obtain ⟨lo', n', m', ho⟩ := ih'
    rw [hg.isLo, ho.isLo, hg.nodeCount_eq, ho.nodeCount_eq] at h1
    exact ⟨_, _, _, good_of (hg.combine ho h1) h⟩
  | append _ _ h1 h2 h3 h ih ih' =>
    obtain ⟨lo, n, m, hg⟩ := ih
    obtain ⟨lo', n', m', ho⟩ := ih'
    rw [hg.isLo, hg.nodeCount_eq, ho.nodeCount_eq] at h1
    rw [hg.nodeCount_eq, ho.nodeCount_eq] at h2
    rw [hg.isLo, ho.isLo, hg.nodeCount_eq] at h3
    exact ⟨_, _, _, good_of (hg.append ho h1 h2 h3) h⟩
  | product _ _ h1 h ih ih' =>
    obtain ⟨lo, n, m, hg⟩ := ih
    obtain ⟨lo', n', m', ho⟩ := ih'
    rw [hg.nodeCount_eq, ho.nodeCount_eq] at h1
    exact ⟨_, _, _, good_of (hg.product ho h1) h⟩
  | cartesian _ _ h1 h ih ih' =>
    obtain ⟨lo, n, m, hg⟩ := ih
    obtain ⟨lo', n', m', ho⟩ := ih'
    rw [hg.nodeCount_eq, ho.nodeCount_eq] at h1
    exact ⟨_, _, _, good_of (hg.cartesian ho h1) h⟩
  | power _ h1 h ih =>
    obtain ⟨lo, n, m, hg⟩ := ih
    rw [hg.nodeCount_eq] at h1
    exact ⟨_, _, _, good_of (hg.power _ (by omega)) h⟩

/-! ## Where the code does something else -/

/-- A path from `lo` on, for the examples. -/
private def pathFrom (dir : Bool) (lo : Int) (k : Nat) : Out (Graph Int) := do
  let g ← (Graph.new dir lo (lo + k + 1) : Out (Graph Int))
  (List.range k).foldlM (fun g i => g.add (lo + (i : Nat)) (lo + (i : Nat) + 1) 0) g

/-- **C55, power.** An undirected power stores every edge twice: the square of the path `0-1-2` is a triangle, reported with six edges. -/
theorem C55_power_undirected_refuted : ∃ g : Graph Int, Built false g ∧ ∃ g', g.power 4 2 = .ok g' ∧ g'.edgeCount = 6 ∧
    ∀ lo n m, ¬ Agrees g' false lo n m := by
  have h0 : ∃ g1 g2 g3 : Graph Int, Graph.new false 0 3 = .ok g1 ∧ g1.add 0 1 0 = .ok g2 ∧ g2.add 1 2 0 = .ok g3 ∧
      g3.power 4 2 = .ok ⟨false, [[0, 1], [0, 3], [1, 3]], [⟨1, 1, 0⟩, ⟨2, 2, 0⟩, ⟨1, 0, 0⟩, ⟨3, 2, 0⟩, ⟨3, 1, 0⟩, ⟨2, 0, 0⟩], 0⟩ := by
    refine ⟨_, _, _, rfl, rfl, rfl, ?_⟩
    decide +kernel
  obtain ⟨g1, g2, g3, h1, h2, h3, h4⟩ := h0
  refine ⟨g3, .addEdge (.addEdge (.new (by decide) (by decide) (by decide) (by decide) h1) h2) h3, _, h4, by decide, ?_⟩
  intro lo n m hag
  obtain ⟨i, -, hi2⟩ := hag.once 0 1 0 (hag.sound ⟨0, 1, 0⟩ (by decide +kernel)).2.2.2
  have a := hi2 0 ⟨⟨0, 1, 0⟩, by decide +kernel, Or.inl ⟨rfl, rfl⟩⟩
  have b := hi2 2 ⟨⟨1, 0, 0⟩, by decide +kernel, Or.inr ⟨rfl, rfl, rfl⟩⟩
  omega

/-- **C55, range.** For graphs that do not start at 0, `range` compares vertices with positions: the part of the path `1-2-3` on all of its
vertices lacks an edge. -/
theorem C55_range_refuted : (do
    let g ← pathFrom false 1 2
    let g' ← g.range 1 4
    pure (g.getEdges, g'.getEdges)) = .ok ([⟨1, 2, 0⟩, ⟨2, 3, 0⟩], [⟨1, 2, 0⟩]) := by decide +kernel

/-- **C55, permutate(perm).** The length of the permutation is not checked: too short a permutation of `[minId, …)` leads to an access out
of range, for every shuffle. -/
theorem C55_permutate_refuted : ∃ g, pathFrom true 0 1 = .ok g ∧ g.permutate [0] = .done (.error .ub) := by
  refine ⟨_, rfl, ?_⟩
  rfl

/-! ## Examples -/

example : (do let g ← pathFrom false 3 3; let g' ← g.complement; pure g'.getEdges) = .ok [⟨5, 3, 0⟩, ⟨6, 3, 0⟩, ⟨6, 4, 0⟩] := by decide +kernel

example : (do let g ← pathFrom true 3 2; let g' ← g.reverse; let g'' ← g.undirected; pure (g'.getEdges, g''.getEdges)) =
    .ok ([⟨4, 3, 0⟩, ⟨5, 4, 0⟩], [⟨3, 4, 0⟩, ⟨4, 5, 0⟩]) := by decide +kernel

example : (do let g ← pathFrom false 3 2; let g' ← g.directedBy fun u v _ => decide (u < v ∨ u = 4); pure g'.getEdges) =
    .ok [⟨3, 4, 0⟩, ⟨4, 3, 0⟩, ⟨4, 5, 0⟩] := by decide +kernel

example : (do let g ← pathFrom false 3 2; let o ← pathFrom false 1 2; let g' ← g.combine o; pure (g'.minId, g'.nodeCount, g'.getEdges)) =
    .ok (1, 5, [⟨3, 4, 0⟩, ⟨4, 5, 0⟩, ⟨1, 2, 0⟩, ⟨2, 3, 0⟩]) := by decide +kernel

example : (do let g ← pathFrom false 3 1; let o ← pathFrom false 1 2; let g' ← g.append o; pure (g'.minId, g'.nodeCount, g'.getEdges)) =
    .ok (3, 5, [⟨3, 4, 0⟩, ⟨5, 6, 0⟩, ⟨6, 7, 0⟩]) := by decide +kernel

example : (do let g ← pathFrom false 3 1; let o ← pathFrom false 1 1; let a ← g.cartesian o; let b ← g.product o; let c ← g.strongProduct o
              pure (a.getEdges, b.getEdges, c.getEdges)) =
    .ok ([⟨0, 2, 0⟩, ⟨1, 3, 0⟩, ⟨0, 1, 0⟩, ⟨2, 3, 0⟩], [⟨0, 3, 0⟩, ⟨2, 1, 0⟩], [⟨0, 2, 0⟩, ⟨1, 3, 0⟩, ⟨0, 1, 0⟩, ⟨2, 3, 0⟩, ⟨0, 3, 0⟩, ⟨2, 1, 0⟩]) := by
  decide +kernel

example : (do let g ← pathFrom false 3 3; let g' ← g.add 3 6 0; let l ← g'.lineGraph; pure (l.nodeCount, l.getEdges)) =
    .ok (4, [⟨0, 1, 0⟩, ⟨0, 3, 0⟩, ⟨1, 2, 0⟩, ⟨2, 3, 0⟩]) := by decide +kernel

example : (do let g ← pathFrom true 3 3; let l ← g.lineGraph; pure (l.nodeCount, l.getEdges)) = .ok (3, [⟨0, 1, 0⟩, ⟨1, 2, 0⟩]) := by decide +kernel

example : (do let g ← pathFrom true 3 3; let p ← g.power 5 2; pure p.getEdges) =
    .ok [⟨3, 4, 0⟩, ⟨3, 5, 0⟩, ⟨4, 5, 0⟩, ⟨4, 6, 0⟩, ⟨5, 6, 0⟩] := by decide +kernel

example : (do let g ← pathFrom true 0 4; let r ← g.range 1 4; pure (r.minId, r.nodeCount, r.getEdges)) = .ok (1, 3, [⟨1, 2, 0⟩, ⟨2, 3, 0⟩]) := by
  decide +kernel

end ICPC.Props
