import Verif.Lemmas.DiGraphVal

/-!
# C42-C47: validator graphs (src/graph_val.h)

`Graph.Reached l r E g` : `g` is the state of a `Graph(l, r)` after calls of `addEdge` for the edges `E` in this order, with
any calls of `areConnected` in between.
-/

namespace ICPC.Props
open ICPC Spec

/-! ## C42: connectivity -/

/-- `isConnected` tells whether all vertices are joined by paths of added edges. -/
theorem C42_isConnected {l r : Int} {E : List (Int × Int)} {g : Graph} (h : Graph.Reached l r E g) :
    g.isConnected = true ↔ Connected l r E := by
  obtain ⟨hlr, hg⟩ := graph_reached h
  have hr : l + ((r - l).toNat : Int) = r := by omega
  have := uf_joined hg.uf hg.ufLength
  rw [hr] at this
  rw [Graph.isConnected, decide_eq_true_eq, hg.components, Connected, ← this]
  omega

/-- `areConnected` tells whether two vertices are joined by a path; it does not fail for vertices in [l, r). -/
theorem C42_areConnected {l r : Int} {E : List (Int × Int)} {g : Graph} (h : Graph.Reached l r E g) {a b : Int}
    (ha : l ≤ a ∧ a < r) (hb : l ≤ b ∧ b < r) :
    ∃ c g', g.areConnected a b = .ok (c, g') ∧ (c = true ↔ Joined E a b) := by
  obtain ⟨hlr, hg⟩ := graph_reached h
  obtain ⟨c, g', h1, h2, -⟩ := graph_query hg (a := a) (b := b) (by omega) (by omega)
  exact ⟨c, g', h1, h2⟩

/-- The constructor and `addEdge` never fail for arguments in range (fewer than 2^63 edges). -/
theorem C42_total (l r : Int) (hlr : l ≤ r) (h64 : 2 * (r - l) < 2 ^ 63) :
    (∃ g, Graph.new l r = .ok g) ∧
    ∀ E g a b, Graph.Reached l r E g → (l ≤ a ∧ a < r) → (l ≤ b ∧ b < r) → (E.length : Int) + 1 < 2 ^ 63 →
      ∃ g', g.addEdge a b = .ok g' := by
  constructor
  · have h1 : I64 (r - l) := by unfold I64; omega
    have h2 : I64 (2 * (r - l)) := by unfold I64; omega
    cases hnew : Graph.new l r with
    | ok g => exact ⟨g, rfl⟩
    | error e =>
      unfold Graph.new BaseGraph.new at hnew
      rw [chk_ok h1, ok_bind, decide_eq_true (show 0 ≤ r - l by omega), judgeAssert_true, ok_bind, ok_bind, chk_ok h2, ok_bind] at hnew
      cases hnew
  · intro E g a b h ha hb hE
    obtain ⟨_, hg⟩ := graph_reached h
    obtain ⟨g', h1, -⟩ := graph_add hg (a := a) (b := b) (by omega) (by omega) (by unfold I64; omega)
    exact ⟨g', h1⟩

/-- The class `UnionFind` on its own: the states after a constructor call, calls of `unionSets` with the pairs `E`, and
queries in between. -/
inductive UFReached (n : Nat) : List (Nat × Nat) → List Int → Prop
  | new : UFReached n [] (ufNew n)
  | find {E u u' a r} : UFReached n E u → findSet u a = .ok (r, u') → UFReached n E u'
  | query {E u u' a b c} : UFReached n E u → ufConnected u a b = .ok (c, u') → UFReached n E u'
  | union {E u u' a b c} : UFReached n E u → unionSets u a b = .ok (c, u') → UFReached n (E ++ [(a, b)]) u'

theorem findSet_lt {u u' : List Int} {a r : Nat} (h : findSet u a = .ok (r, u')) : a < u.length := by
  unfold findSet findSetFuel at h
  cases hu : u[a]? with
  | none => rw [hu] at h; cases h
  | some v => exact (List.getElem?_eq_some_iff.1 hu).1

theorem ufReached {n : Nat} {E : List (Nat × Nat)} {u : List Int} (h : UFReached n E u) :
    UFfor id (· < n) u E ∧ u.length = n := by
  have conn : ∀ {E : List (Nat × Nat)} {u u' : List Int} {a b : Nat} {c : Bool}, UFfor id (· < n) u E ∧ u.length = n →
      ufConnected u a b = .ok (c, u') → a < n ∧ b < n := by
    intro E u u' a b c ih h
    unfold ufConnected at h
    rw [bind_ok] at h
    obtain ⟨⟨x, u1⟩, h1, h2⟩ := h
    rw [bind_ok] at h2
    obtain ⟨⟨y, u2⟩, h3, -⟩ := h2
    have ha := findSet_lt h1
    have hb := findSet_lt h3
    obtain ⟨r, u1', h4, -, h5⟩ := findSet_spec ih.1.ok ha
    simp only [h4, Except.ok.injEq, Prod.mk.injEq] at h1
    obtain ⟨rfl, rfl⟩ := h1
    rw [h5.length] at hb
    omega
  induction h with
  | new => exact ⟨uffor_new (fun x hx => hx) (fun x y _ _ h => h), by simp [ufNew]⟩
  | @find E u u' a r _ h ih =>
    obtain ⟨r, u1, h4, -, h5⟩ := findSet_spec ih.1.ok (findSet_lt h)
    rw [h] at h4
    simp only [Except.ok.injEq, Prod.mk.injEq] at h4
    obtain ⟨rfl, rfl⟩ := h4
    refine ⟨⟨h5.ok, fun x hx => by rw [h5.length]; exact ih.1.lt x hx, fun x y hx hy => ?_⟩, h5.length.trans ih.2⟩
    rw [h5.sameSet]; exact ih.1.same x y hx hy
  | @query E u u' a b c _ h ih =>
    obtain ⟨ha, hb⟩ := conn ih h
    obtain ⟨c', u1, h1, -, h3, h4, -⟩ := uffor_connected ih.1 ha hb
    simp only [id] at h1
    rw [h] at h1
    simp only [Except.ok.injEq, Prod.mk.injEq] at h1
    obtain ⟨rfl, rfl⟩ := h1
    exact ⟨h3, h4.trans ih.2⟩
  | @union E u u' a b c _ h ih =>
    have hab : a < n ∧ b < n := by
      unfold unionSets at h
      rw [bind_ok] at h
      obtain ⟨⟨x, u1⟩, h1, -⟩ := h
      exact conn ih h1
    obtain ⟨c', u1, h1, -, h3, h4, -⟩ := uffor_union ih.1 hab.1 hab.2
    simp only [id] at h1
    rw [h] at h1
    simp only [Except.ok.injEq, Prod.mk.injEq] at h1
    obtain ⟨rfl, rfl⟩ := h1
    exact ⟨h3, h4.trans ih.2⟩

/-- `UnionFind`: `findSet` returns a member of the component, the same for all its members; `connected` is reachability;
`unionSets` returns true iff the two were not connected before.  No call fails for arguments in [0, n). -/
theorem C42_unionFind {n : Nat} {E : List (Nat × Nat)} {u : List Int} (h : UFReached n E u) {a b : Nat} (ha : a < n) (hb : b < n) :
    (∃ r u', findSet u a = .ok (r, u') ∧ r < n ∧ Joined E a r ∧
      ∃ s u'', findSet u b = .ok (s, u'') ∧ (r = s ↔ Joined E a b)) ∧
    (∃ c u', ufConnected u a b = .ok (c, u') ∧ (c = true ↔ Joined E a b)) ∧
    (∃ c u', unionSets u a b = .ok (c, u') ∧ (c = true ↔ ¬ Joined E a b)) := by
  obtain ⟨hu, hl⟩ := ufReached h
  refine ⟨?_, ?_, ?_⟩
  · obtain ⟨r, u', h1, h2, -⟩ := findSet_spec hu.ok (hu.lt a ha)
    obtain ⟨s, u'', h3, h4, -⟩ := findSet_spec hu.ok (hu.lt b hb)
    have hr : r < n := by rw [← hl]; exact (rep_lt h2).2
    refine ⟨r, u', h1, hr, (hu.same a r ha hr).1 ⟨r, h2, rep_root_self h2⟩, s, u'', h3, ?_⟩
    rw [← hu.same a b ha hb]
    constructor
    · rintro rfl; exact ⟨r, h2, h4⟩
    · rintro ⟨t, h5, h6⟩
      rw [rep_unique h2 h5, rep_unique h4 h6]
  · obtain ⟨c, u', h1, h2, -⟩ := uffor_connected hu ha hb
    exact ⟨c, u', h1, h2⟩
  · obtain ⟨c, u', h1, h2, -⟩ := uffor_union hu ha hb
    exact ⟨c, u', h1, h2⟩

/-! ## C43: forests and trees -/

/-- `isForest` is true iff the added edges contain no cycle. -/
theorem C43_isForest {l r : Int} {E : List (Int × Int)} {g : Graph} (h : Graph.Reached l r E g) :
    g.isForest = true ↔ Forest E := (graph_reached h).2.forest

/-- `isTree` is true iff the graph is a connected forest. -/
theorem C43_isTree {l r : Int} {E : List (Int × Int)} {g : Graph} (h : Graph.Reached l r E g) :
    g.isTree = true ↔ Forest E ∧ Connected l r E := by
  rw [← C43_isForest h, ← C42_isConnected h]
  unfold Graph.isTree Graph.isForest Graph.isConnected
  rw [Bool.and_eq_true, and_comm]

/-! ## C44: two-colourable graphs -/

/-- `isBipartite` is true iff the vertices can be coloured with two colours. -/
theorem C44_isBipartite {l r : Int} {E : List (Int × Int)} {g : Graph} (h : Graph.Reached l r E g) :
    g.isBipartite = true ↔ TwoColourable E := (graph_reached h).2.bipartite

/-! ## C45: loops, repeated edges, neighbours -/

/-- `hasSelfloop` returns a vertex with a loop iff there is one. -/
theorem C45_selfloop {l r : Int} {E : List (Int × Int)} {g : Graph} (h : Graph.Reached l r E g) :
    (∀ a, g.base.selfloop = some a → (a, a) ∈ E) ∧ (g.base.selfloop = none → ∀ a, (a, a) ∉ E) :=
  ⟨(graph_reached h).2.loopSome, (graph_reached h).2.loopNone⟩

/-- `hasMultiedge` returns a pair joined by two edges iff there is one. -/
theorem C45_multiedge {l r : Int} {E : List (Int × Int)} {g : Graph} (h : Graph.Reached l r E g) :
    (∀ a b, g.base.multiedge = some (a, b) → Twice E a b) ∧ (g.base.multiedge = none → ∀ a b, ¬ Twice E a b) :=
  ⟨(graph_reached h).2.multiSome, (graph_reached h).2.multiNone⟩

theorem table_get {l : Int} {n : Nat} {t : List (List Int)} {R : Int → Int → Prop} (h : Table l n t R) (hn : I64 (n : Int)) {a : Int}
    (ha : l ≤ a ∧ a < l + n) : vertexIndex l a t.length = .ok (a - l).toNat ∧ (t.getD (a - l).toNat []).Pairwise (· < ·) ∧
      ∀ y, y ∈ t.getD (a - l).toNat [] ↔ R a y := by
  have e : (l + ((a - l).toNat : Int)) = a := by omega
  refine ⟨?_, h.sorted _ (by omega), fun y => ?_⟩
  · rw [vertexIndex_ok, h.length]
    exact ⟨by unfold I64 at *; omega, ha.1, ha.2, by omega⟩
  · rw [h.mem _ (by omega), e]

/-- `operator[]` returns the neighbours, each once and in increasing order, `degree` their number, `hasEdge` whether there is
an edge. -/
theorem C45_neighbours {l r : Int} {E : List (Int × Int)} {g : Graph} (h : Graph.Reached l r E g) {a : Int} (ha : l ≤ a ∧ a < r) :
    ∃ s, g.base.neighbours a = .ok s ∧ s.Pairwise (· < ·) ∧ (∀ b, b ∈ s ↔ Adjacent E a b) ∧
      g.degree a = .ok (s.length : Int) ∧ ∀ b, ∃ c, g.base.hasEdge a b = .ok c ∧ (c = true ↔ Adjacent E a b) := by
  obtain ⟨hlr, hg⟩ := graph_reached h
  obtain ⟨h1, h2, h3⟩ := table_get hg.adj hg.size (a := a) (by omega)
  have hn : g.base.neighbours a = .ok (g.base.adj.getD (a - l).toNat []) := by
    unfold BaseGraph.neighbours
    rw [hg.offset, h1, ok_bind]
  refine ⟨_, hn, h2, h3, ?_, fun b => ⟨(g.base.adj.getD (a - l).toNat []).contains b, ?_, ?_⟩⟩
  · unfold Graph.degree; rw [hn, ok_bind]
  · unfold BaseGraph.hasEdge; rw [hn, ok_bind]
  · rw [List.contains_iff_mem, h3]

/-- `nodeCount` and `edgeCount`. -/
theorem C45_counts {l r : Int} {E : List (Int × Int)} {g : Graph} (h : Graph.Reached l r E g) :
    (g.base.adj.length : Int) = r - l ∧ g.base.edges = E.length := by
  obtain ⟨hlr, hg⟩ := graph_reached h
  have := hg.adj.length
  exact ⟨by omega, hg.edges⟩

/-- The same for digraphs: loops, repeated edges, successors, predecessors. -/
theorem C45_digraph {l r : Int} {E : List (Int × Int)} {g : DiGraph} (h : DiGraph.Reached l r E g) :
    (∀ a, g.base.selfloop = some a → (a, a) ∈ E) ∧ (g.base.selfloop = none → ∀ a, (a, a) ∉ E) ∧
    (∀ a b, g.base.multiedge = some (a, b) → DiTwice E a b) ∧ (g.base.multiedge = none → ∀ a b, ¬ DiTwice E a b) ∧
    (g.base.adj.length : Int) = r - l ∧ g.base.edges = E.length ∧
    ∀ a, l ≤ a ∧ a < r →
      (∃ s, g.base.neighbours a = .ok s ∧ s.Pairwise (· < ·) ∧ ∀ b, b ∈ s ↔ (a, b) ∈ E) ∧
      (∃ s, g.inEdges a = .ok s ∧ s.Pairwise (· < ·) ∧ ∀ b, b ∈ s ↔ (b, a) ∈ E) ∧
      ∀ b, (∃ c, g.base.hasEdge a b = .ok c ∧ (c = true ↔ (a, b) ∈ E)) ∧
        (∃ c, g.hasReverse a b = .ok c ∧ (c = true ↔ (b, a) ∈ E)) := by
  obtain ⟨hlr, hg⟩ := digraph_reached h
  have hlen := hg.adj.length
  refine ⟨hg.loopSome, hg.loopNone, hg.multiSome, hg.multiNone, by omega, hg.edges, fun a ha => ?_⟩
  obtain ⟨h1, h2, h3⟩ := table_get hg.adj hg.size (a := a) (by omega)
  obtain ⟨k1, k2, k3⟩ := table_get hg.rev hg.size (a := a) (by omega)
  have hn : g.base.neighbours a = .ok (g.base.adj.getD (a - l).toNat []) := by
    unfold BaseGraph.neighbours
    rw [hg.offset, h1, ok_bind]
  have hi : g.inEdges a = .ok (g.rev.getD (a - l).toNat []) := by
    unfold DiGraph.inEdges
    rw [hg.offset, k1, ok_bind]
  refine ⟨⟨_, hn, h2, h3⟩, ⟨_, hi, k2, k3⟩, fun b => ⟨⟨(g.base.adj.getD (a - l).toNat []).contains b, ?_, ?_⟩,
    ⟨(g.rev.getD (a - l).toNat []).contains b, ?_, ?_⟩⟩⟩
  · unfold BaseGraph.hasEdge; rw [hn, ok_bind]
  · rw [List.contains_iff_mem, h3]
  · unfold DiGraph.hasReverse; rw [hi, ok_bind]
  · rw [List.contains_iff_mem, k3]

theorem length_filter_of_set {E : List (Int × Int)} {s : List Int} (f k : Int × Int → Int) (a : Int) (hs : s.Pairwise (· < ·))
    (hfk : ∀ e e' : Int × Int, f e = f e' → k e = k e' → e = e')
    (hm : ∀ b, b ∈ s ↔ ∃ e ∈ E, k e = a ∧ f e = b) (hd : E.Nodup) :
    s.length = (E.filter (fun e => k e == a)).length := by
  have h1 : s.Nodup := hs.imp (fun h => by omega)
  have hperm : s.Perm ((E.filter (fun e => k e == a)).map f) := by
    rw [List.perm_ext_iff_of_nodup h1]
    · intro b
      rw [hm, List.mem_map]
      constructor
      · rintro ⟨e, he, h1, h2⟩; exact ⟨e, List.mem_filter.2 ⟨he, by simpa using h1⟩, h2⟩
      · rintro ⟨e, he, h2⟩
        rw [List.mem_filter] at he
        exact ⟨e, he.1, by simpa using he.2, h2⟩
    · refine (List.Nodup.filter _ hd).map_on (fun x hx y hy hxy => ?_)
      rw [List.mem_filter] at hx hy
      have hx2 := hx.2
      have hy2 := hy.2
      simp only [beq_iff_eq] at hx2 hy2
      exact hfk x y hxy (hx2.trans hy2.symm)
  rw [hperm.length_eq, List.length_map]

/-- `outDegree` and `inDegree` of a digraph without repeated edges are the numbers of edges starting and ending at a vertex.
With repeated edges this is not so, see `C45_degree_refuted`. -/
theorem C45_degree_partial {l r : Int} {E : List (Int × Int)} {g : DiGraph} (h : DiGraph.Reached l r E g)
    (hm : g.base.multiedge = none) {a : Int} (ha : l ≤ a ∧ a < r) :
    g.outDegree a = .ok ((E.filter (fun e => e.1 == a)).length : Int) ∧
    g.inDegree a = .ok ((E.filter (fun e => e.2 == a)).length : Int) := by
  obtain ⟨-, -, -, h4, -, -, h7⟩ := C45_digraph h
  obtain ⟨⟨s, h1, h2, h3⟩, ⟨t, k1, k2, k3⟩, -⟩ := h7 a ha
  have hd : E.Nodup := by
    rw [List.nodup_iff_injective_getElem]
    intro i j hij
    by_contra hne
    have key : ∀ i j : Fin E.length, i.1 < j.1 → E[i.1] = E[j.1] → False := fun i j hlt hij =>
      h4 hm E[i.1].1 E[i.1].2 ⟨i, j, hlt, by simp, by rw [hij]; simp⟩
    rcases Nat.lt_or_ge i.1 j.1 with hlt | hge
    · exact key i j hlt hij
    · exact key j i (Nat.lt_of_le_of_ne hge (fun h => hne (Fin.ext h.symm))) hij.symm
  constructor
  · unfold DiGraph.outDegree
    rw [h1, ok_bind, length_filter_of_set (f := Prod.snd) (k := Prod.fst) a h2 (fun e e' h1 h2 => Prod.ext h2 h1) (fun b => ?_) hd]
    rw [h3]
    exact ⟨fun h => ⟨_, h, rfl, rfl⟩, fun ⟨e, he, h1, h2⟩ => by subst h1 h2; exact he⟩
  · unfold DiGraph.inDegree
    rw [k1, ok_bind, length_filter_of_set (f := Prod.fst) (k := Prod.snd) a k2 (fun e e' h1 h2 => Prod.ext h1 h2) (fun b => ?_) hd]
    rw [k3]
    exact ⟨fun h => ⟨_, h, rfl, rfl⟩, fun ⟨e, he, h1, h2⟩ => by subst h1 h2; exact he⟩

/-! ## C46: acyclic digraphs -/

/-- If `isDAG` returns something, then it is a topological order and the graph is acyclic. -/
theorem C46_sound_partial {l r : Int} {E : List (Int × Int)} {g : DiGraph} (h : DiGraph.Reached l r E g) {o : List Int}
    (ho : g.isDAG = .ok (some o)) : TopologicalOrder l r E o ∧ Acyclic E := by
  obtain ⟨hlr, hg⟩ := digraph_reached h
  rw [isDAG_eq hg] at ho
  replace ho := Except.ok.inj ho
  by_cases hE : E = []
  · rw [if_pos hE] at ho
    subst hE
    obtain rfl := Option.some.inj ho
    refine ⟨⟨?_, fun x => ?_, fun e he => by cases he⟩, fun a w hw => ?_⟩
    · refine List.Nodup.map (fun x y h => ?_) (List.nodup_reverse.2 List.nodup_range)
      omega
    · simp only [List.mem_map, List.mem_reverse, List.mem_range]
      constructor
      · rintro ⟨i, hi, rfl⟩; omega
      · rintro ⟨h1, h2⟩; exact ⟨(x - l).toNat, by omega, by omega⟩
    · cases hw with
      | nil => rfl
      | cons he _ => simp at he
  · rw [if_neg hE] at ho
    cases ho

/-- What `isDAG` really computes: it never fails, and returns an order iff there are no edges at all. -/
theorem C46_actual {l r : Int} {E : List (Int × Int)} {g : DiGraph} (h : DiGraph.Reached l r E g) :
    ∃ o, g.isDAG = .ok o ∧ (o.isSome = true ↔ E = []) := by
  refine ⟨_, isDAG_eq (digraph_reached h).2, ?_⟩
  split <;> simp [*]

/-- Every acyclic digraph with at least one edge is a counterexample: nothing is returned. -/
theorem C46_isDAG_refuted : ∃ (l r : Int) (E : List (Int × Int)) (g : DiGraph) (o : List Int), DiGraph.Reached l r E g ∧
    Acyclic E ∧ TopologicalOrder l r E o ∧ g.isDAG = .ok none := by
  refine ⟨0, 2, [(0, 1)], _, [0, 1], .add (E := []) (.new rfl) rfl, ?_, ?_, by decide +kernel⟩
  · intro a w hw
    have h1 : ∀ (i : Nat) (x y : Int), [((0 : Int), (1 : Int))][i]? = some (x, y) → x = 0 ∧ y = 1 := by
      intro i x y h
      cases i with
      | zero => simp only [List.getElem?_cons_zero, Option.some.injEq, Prod.mk.injEq] at h; omega
      | succ i => simp at h
    cases hw with
    | nil => rfl
    | cons he hw' =>
      obtain ⟨rfl, rfl⟩ := h1 _ _ _ he
      cases hw' with
      | cons he' _ => have := h1 _ _ _ he'; omega
  · refine ⟨by decide, fun x => ?_, fun e he => ?_⟩
    · simp only [List.mem_cons, List.not_mem_nil, or_false]; omega
    · simp only [List.mem_singleton] at he
      subst he
      exact ⟨0, 1, by omega, rfl, rfl⟩

/-! ## C47: directed trees -/

/-- `isTree` returns a vertex exactly for directed trees, and then it is the root.  (It may also return `r`, which is not a
vertex, for graphs that are not trees, see `C47_isTree_refuted`.) -/
theorem C47_isTree_partial {l r : Int} {E : List (Int × Int)} {g : DiGraph} (h : DiGraph.Reached l r E g) (x : Int) :
    (g.isTree = some x ∧ x < r) ↔ DirectedTree l r E x := by
  obtain ⟨hlr, hg⟩ := digraph_reached h
  have hr : l + ((r - l).toNat : Int) = r := by omega
  have := isTree_iff hg x
  rwa [hr] at this

/-- If the edges, seen as undirected edges, contain no cycle, then `isTree` is right. -/
theorem C47_isTree_forest_partial {l r : Int} {E : List (Int × Int)} {g : DiGraph} (h : DiGraph.Reached l r E g) (hF : Forest E)
    (x : Int) : g.isTree = some x ↔ DirectedTree l r E x := by
  obtain ⟨hlr, hg⟩ := digraph_reached h
  rw [← C47_isTree_partial h]
  refine ⟨fun hx => ⟨hx, ?_⟩, And.left⟩
  unfold DiGraph.isTree at hx
  split at hx
  · next hc =>
    rw [hg.count] at hc
    have hx := Option.some.inj hx
    rw [hg.offset] at hx
    have hpos : 0 < g.rev.countP List.isEmpty := by omega
    obtain ⟨s, hs, he⟩ := List.countP_pos_iff.1 hpos
    obtain ⟨i, hi⟩ := List.getElem?_of_mem hs
    have hin : i < g.rev.length := (List.getElem?_eq_some_iff.1 hi).1
    have hle : g.root ≤ i := by
      by_contra hlt
      refine hg.rootBefore (hg.forest.2 hF) i (by omega) ?_
      rw [List.isEmpty_iff] at he
      simp [hi, he]
    have := hg.rev.length
    omega
  · cases hx

/-- A loop of two vertices beside a vertex without edges is taken for a tree, with root 3 although the vertices are 0, 1, 2. -/
theorem C47_isTree_refuted : ∃ (l r : Int) (E : List (Int × Int)) (g : DiGraph) (x : Int), DiGraph.Reached l r E g ∧
    g.isTree = some x ∧ (∀ y, ¬ DirectedTree l r E y) ∧ ¬ (l ≤ x ∧ x < r) := by
  have h : ∃ g, DiGraph.Reached 0 3 [(1, 2), (2, 1)] g ∧ g.isTree = some 3 :=
    ⟨_, .add (E := [(1, 2)]) (.add (E := []) (.new rfl) rfl) rfl, by decide +kernel⟩
  obtain ⟨g, h1, h2⟩ := h
  refine ⟨0, 3, _, g, 3, h1, h2, fun y hy => ?_, by omega⟩
  have := (C47_isTree_partial h1 y).2 hy
  rw [h2] at this
  have := Option.some.inj this.1
  omega

/-- Two edges from 0 to 1 count once. -/
theorem C45_degree_refuted : ∃ (l r : Int) (E : List (Int × Int)) (g : DiGraph) (a : Int), DiGraph.Reached l r E g ∧
    (E.filter (fun e => e.1 == a)).length = 2 ∧ g.outDegree a = .ok 1 :=
  ⟨0, 2, [(0, 1), (0, 1)], _, 0, .add (E := [(0, 1)]) (.add (E := []) (.new rfl) rfl) rfl, rfl, by decide +kernel⟩

/-! ## Concrete cases -/

/-- The graph with the given edges. -/
def graphOf (l r : Int) (es : List (Int × Int)) : Out Graph := do
  let g ← Graph.new l r
  es.foldlM (fun g e => g.addEdge e.1 e.2) g

/-- The digraph with the given edges. -/
def digraphOf (l r : Int) (es : List (Int × Int)) : Out DiGraph := do
  let g ← DiGraph.new l r
  es.foldlM (fun g e => g.addEdge e.1 e.2) g

/-- isConnected, isForest, isTree, isBipartite; hasSelfloop; hasMultiedge. -/
def summary (l r : Int) (es : List (Int × Int)) : Out (List Bool × Option Int × Option (Int × Int)) := do
  let g ← graphOf l r es
  .ok ([g.isConnected, g.isForest, g.isTree, g.isBipartite], g.base.selfloop, g.base.multiedge)

-- a path 1-2-3-4, given in an order that links trees of both kinds
example : summary 1 5 [(1, 2), (4, 3), (3, 2)] = .ok ([true, true, true, true], none, none) := by decide +kernel
-- a square and a triangle
example : summary 1 5 [(1, 2), (4, 3), (3, 2), (4, 1)] = .ok ([true, false, false, true], none, none) := by decide +kernel
example : summary (-1) 2 [(-1, 0), (1, 0), (-1, 1)] = .ok ([true, false, false, false], none, none) := by decide +kernel
-- two components, one with an odd cycle
example : summary 0 6 [(0, 1), (2, 3), (3, 4), (4, 2)] = .ok ([false, false, false, false], none, none) := by decide +kernel
-- loops and repeated edges, in either orientation
example : summary 0 3 [(0, 1), (2, 2)] = .ok ([false, false, false, false], some 2, none) := by decide +kernel
example : summary 0 3 [(0, 1), (1, 2), (1, 0)] = .ok ([true, false, false, true], none, some (1, 0)) := by decide +kernel
-- edges after the one that closes an odd cycle, and after a loop
example : summary 0 6 [(0, 1), (1, 2), (2, 0), (3, 4), (4, 5), (0, 3)] = .ok ([true, false, false, false], none, none) := by decide +kernel
example : summary 0 3 [(1, 1), (0, 1), (1, 2)] = .ok ([true, false, false, false], some 1, none) := by decide +kernel
-- no vertices, one vertex, isolated vertices
example : summary 3 3 [] = .ok ([true, true, true, true], none, none) := by decide +kernel
example : summary 3 4 [] = .ok ([true, true, true, true], none, none) := by decide +kernel
example : summary 3 5 [] = .ok ([false, true, false, true], none, none) := by decide +kernel
-- a vertex outside [l, r) is undefined behaviour
example : summary 3 5 [(3, 5)] = .error .ub := by decide +kernel
example : (do let g ← graphOf 1 6 [(1, 2), (3, 4), (4, 1)]; let (c, g) ← g.areConnected 2 3; let (d, _) ← g.areConnected 2 5; .ok (c, d)) =
    .ok (true, false) := by decide +kernel
example : (do let g ← graphOf 0 4 [(2, 3), (0, 2), (2, 0), (2, 2)]; let s ← g.base.neighbours 2; let d ← g.degree 2; .ok (s, d)) =
    .ok ([0, 2, 3], 3) := by decide +kernel
example : (do let g ← digraphOf 0 4 [(2, 3), (0, 2), (1, 2)]; let s ← g.base.neighbours 2; let t ← g.inEdges 2; .ok (s, t)) =
    .ok ([3], [0, 1]) := by decide +kernel
-- trees: the root is not the first vertex and not the first end of an edge
example : (digraphOf 1 5 [(4, 1), (3, 4), (3, 2)]).map DiGraph.isTree = .ok (some 3) := by decide +kernel
-- an edge the wrong way round; a cycle through all vertices
example : (digraphOf 1 5 [(4, 1), (3, 4), (2, 3), (2, 1)]).map DiGraph.isTree = .ok none := by decide +kernel
example : (digraphOf 1 5 [(4, 1), (3, 4), (2, 4)]).map DiGraph.isTree = .ok none := by decide +kernel
example : (digraphOf 0 3 [(0, 1), (1, 2), (2, 0)]).map DiGraph.isTree = .ok none := by decide +kernel
example : (digraphOf 5 8 []) >>= DiGraph.isDAG = .ok (some [7, 6, 5]) := by decide +kernel

end ICPC.Props
