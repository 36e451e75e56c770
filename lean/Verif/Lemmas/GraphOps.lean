import Verif.Lemmas.GraphGenErase
import Verif.Model.GraphOps
import Verif.Spec.GraphOps

/-!
# Graphs from lists of edges
-/

namespace ICPC.Gen

open ICPC ICPC.Spec.EdgeMap

variable {E : Type} {g : Graph E} {dir : Bool} {lo : Int} {n : Nat} {m : Map E}

theorem mkRec_src {u v : Int} {d : E} (hu : I64 u) : (Graph.mkRec u v d).src = u := xorI_cancel hu

theorem new_eq (dir : Bool) {l r : Int} (hle : l ≤ r) (hlen : I64 (r - l)) :
    (Graph.new dir l r : Out (Graph E)) = .ok ⟨dir, List.replicate (r - l).toNat [], [], l⟩ := by
  unfold Graph.new
  rw [chk_ok hlen, ok_bind, decide_eq_true (by omega), decide_eq_true hle]
  rfl

/-- The edge as stored. -/
def Edge.toRec (e : Edge E) : Rec E := Graph.mkRec e.src e.dst e.data

/-- `e` and `e'` join the same pair. -/
def EqEdge (dir : Bool) (e e' : Edge E) : Prop := Same dir e.src e.dst e'.src e'.dst

/-- No two edges of the list join the same pair. -/
def Uniq (dir : Bool) (ts : List (Edge E)) : Prop := ts.Pairwise fun a b => ¬ EqEdge dir a b

/-- All edges join different vertices of the range. -/
def Valid (lo : Int) (n : Nat) (ts : List (Edge E)) : Prop := ∀ e ∈ ts, In lo n e.src ∧ In lo n e.dst ∧ e.src ≠ e.dst

theorem uniq_inj {ts : List (Edge E)} (h : Uniq dir ts) {i j : Nat} {a b : Edge E} (hi : ts[i]? = some a) (hj : ts[j]? = some b)
    (he : EqEdge dir a b) : i = j := by
  obtain ⟨hi', rfl⟩ := List.getElem?_eq_some_iff.1 hi
  obtain ⟨hj', rfl⟩ := List.getElem?_eq_some_iff.1 hj
  rcases Nat.lt_trichotomy i j with hlt | rfl | hlt
  · exact absurd he (List.pairwise_iff_getElem.1 h i j hi' hj' hlt)
  · rfl
  · exact absurd he.symm' (List.pairwise_iff_getElem.1 h j i hj' hi' hlt)

theorem simple_of_list (h1 : I64 lo) (h2 : I64 (lo + n)) (h3 : I64 n) {ts : List (Edge E)} (hv : Valid lo n ts) (hu : Uniq dir ts) :
    Simple dir lo n (ts.map Edge.toRec) := by
  have hsrc : ∀ e ∈ ts, e.toRec.src = e.src := fun e he => mkRec_src (in_i64 (hv e he).1 h1 h2)
  refine ⟨h1, h2, h3, ?_, ?_, ?_, ?_, ?_⟩
  · intro r hr
    obtain ⟨e, he, rfl⟩ := List.mem_map.1 hr
    exact xorI_i64 _ _
  · intro r hr
    obtain ⟨e, he, rfl⟩ := List.mem_map.1 hr
    rw [hsrc e he]; exact (hv e he).1
  · intro r hr
    obtain ⟨e, he, rfl⟩ := List.mem_map.1 hr
    exact (hv e he).2.1
  · intro r hr
    obtain ⟨e, he, rfl⟩ := List.mem_map.1 hr
    rw [hsrc e he]; exact (hv e he).2.2
  · intro i j r s hi hj hs
    rw [List.getElem?_map] at hi hj
    obtain ⟨a, ha, rfl⟩ := Option.map_eq_some_iff.1 hi
    obtain ⟨b, hb, rfl⟩ := Option.map_eq_some_iff.1 hj
    rw [hsrc a (List.mem_of_getElem? ha), hsrc b (List.mem_of_getElem? hb)] at hs
    exact uniq_inj hu ha hb hs

/-- Edges put into an empty graph, and `buildAdj`. -/
theorem build_list (h1 : I64 lo) (h2 : I64 (lo + n)) (h3 : I64 n) {ts : List (Edge E)} (hv : Valid lo n ts) (hu : Uniq dir ts)
    (hm : ∀ u v d, m u v = some d ↔ ∃ e ∈ ts, e.data = d ∧ Same dir u v e.src e.dst) (hdir : g.dir = dir) (hlo : g.minId = lo)
    (hn : g.adj.length = n) (hempty : ∀ s ∈ g.adj, s = []) (hed : g.edges = ts.map Edge.toRec) :
    ∃ g', g.buildAdj = .ok g' ∧ Good g' dir lo n m ∧ g'.edges = ts.map Edge.toRec := by
  refine build_good hn hdir hlo hed hempty (simple_of_list h1 h2 h3 hv hu) ?_
  intro u v d
  rw [hm]
  constructor
  · rintro ⟨e, he, hd, hs⟩
    exact ⟨_, List.mem_map_of_mem he, hd, by rw [show e.toRec.src = e.src from mkRec_src (in_i64 (hv e he).1 h1 h2)]; exact hs⟩
  · rintro ⟨r, hr, hd, hs⟩
    obtain ⟨e, he, rfl⟩ := List.mem_map.1 hr
    rw [show e.toRec.src = e.src from mkRec_src (in_i64 (hv e he).1 h1 h2)] at hs
    exact ⟨e, he, hd, hs⟩

namespace Good

theorem valid (h : Good g dir lo n m) : Valid lo n g.getEdges := by
  intro e he
  obtain ⟨r, hr, rfl⟩ := List.mem_map.1 he
  exact ⟨h.simple.src r hr, h.simple.dst r hr, h.simple.ne r hr⟩

theorem uniq (h : Good g dir lo n m) : Uniq dir g.getEdges := by
  unfold Uniq Graph.getEdges
  rw [List.pairwise_map, List.pairwise_iff_getElem]
  intro i j hi hj hij he
  have := h.simple.uniq i j _ _ (List.getElem?_eq_getElem hi) (List.getElem?_eq_getElem hj) he
  omega

theorem map_iff (h : Good g dir lo n m) (u v : Int) (d : E) : m u v = some d ↔ ∃ e ∈ g.getEdges, e.data = d ∧ Same dir u v e.src e.dst := by
  rw [h.map]
  unfold Graph.getEdges
  simp

theorem map_mem (h : Good g dir lo n m) {e : Edge E} (he : e ∈ g.getEdges) : m e.src e.dst = some e.data :=
  (h.map_iff _ _ _).2 ⟨e, he, rfl, Or.inl ⟨rfl, rfl⟩⟩

theorem edges_eq (h : Good g dir lo n m) : g.edges = g.getEdges.map Edge.toRec := by
  unfold Graph.getEdges
  rw [List.map_map]
  conv_lhs => rw [← List.map_id g.edges]
  refine List.map_congr_left fun r hr => ?_
  show r = Graph.mkRec r.src r.dst r.data
  unfold Graph.mkRec
  rw [← h.simple.key_eq hr]

theorem nodeCount_eq (h : Good g dir lo n m) : g.nodeCount = n := by unfold Graph.nodeCount; rw [h.size]

/-- A new graph of the same size as `g`, with the edges `ts`. -/
theorem fresh (h : Good g dir lo n m) (dir' : Bool) {ts : List (Edge E)} {m' : Map E} (hv : Valid lo n ts) (hu : Uniq dir' ts)
    (hm : ∀ u v d, m' u v = some d ↔ ∃ e ∈ ts, e.data = d ∧ Same dir' u v e.src e.dst) :
    ∃ g' res : Graph E, chk (g.minId + g.nodeCount) = .ok (lo + n) ∧ Graph.new dir' g.minId (lo + n) = .ok res ∧
      Graph.buildAdj { res with edges := ts.map Edge.toRec } = .ok g' ∧ Good g' dir' lo n m' ∧ g'.edges = ts.map Edge.toRec := by
  have hs := h.simple
  rw [h.isLo, h.nodeCount_eq, chk_ok hs.hi64, new_eq dir' (by omega) (by rw [show lo + (n : Int) - lo = n from by omega]; exact hs.n64)]
  suffices hb : ∃ g', Graph.buildAdj (⟨dir', List.replicate (lo + (n : Int) - lo).toNat [], ts.map Edge.toRec, lo⟩ : Graph E) = .ok g' ∧
      Good g' dir' lo n m' ∧ g'.edges = ts.map Edge.toRec by
    obtain ⟨g', h1, h2, h3⟩ := hb
    exact ⟨g', _, rfl, rfl, h1, h2, h3⟩
  exact build_list hs.lo64 hs.hi64 hs.n64 hv hu hm rfl rfl (by simp) (fun s hs => List.eq_of_mem_replicate hs) rfl

/-- `addEdge` for every element of a list. -/
theorem addAll (h : Good g dir lo n m) : ∀ (ts : List (Edge E)), Valid lo n ts →
    ∃ g', ts.foldlM (fun g t => g.add t.src t.dst t.data) g = .ok g' ∧ Good g' dir lo n (ts.foldl (fun m t => put dir m t.src t.dst t.data) m) := by
  intro ts
  induction ts generalizing g m with
  | nil => intro _; exact ⟨g, rfl, h⟩
  | cons t ts ih =>
    intro hv
    obtain ⟨h1, h2, h3⟩ := hv t (by simp)
    obtain ⟨g1, ha, hg, -⟩ := h.add t.data h1 h2 h3
    obtain ⟨g', hb, hg'⟩ := ih hg fun e he => hv e (by simp [he])
    exact ⟨g', by rw [List.foldlM_cons, ha, ok_bind, hb], hg'⟩

end Good

theorem putAll_notin : ∀ (ts : List (Edge E)) (m : Map E) (u v : Int), (∀ e ∈ ts, ¬ Same dir u v e.src e.dst) →
    ts.foldl (fun m t => put dir m t.src t.dst t.data) m u v = m u v
  | [], _, _, _, _ => rfl
  | t :: ts, m, u, v, h => by
    rw [List.foldl_cons, putAll_notin ts _ u v fun e he => h e (by simp [he])]
    unfold put
    rw [if_neg fun hs => h t (by simp) hs.symm']

theorem putAll_mem : ∀ (ts : List (Edge E)) (m : Map E) (u v : Int) (e : Edge E), Uniq dir ts → e ∈ ts → Same dir u v e.src e.dst →
    ts.foldl (fun m t => put dir m t.src t.dst t.data) m u v = some e.data
  | t :: ts, m, u, v, e, hu, he, hs => by
    rw [List.foldl_cons]
    obtain ⟨hu1, hu2⟩ := List.pairwise_cons.1 hu
    rcases List.mem_cons.1 he with rfl | he
    · rw [putAll_notin ts _ u v fun e' he' hs' => hu1 e' he' (hs.symm'.trans' hs')]
      unfold put
      rw [if_pos hs.symm']
    · exact putAll_mem ts _ u v e hu2 he hs

theorem putAll_some {ts : List (Edge E)} (u v : Int) (d : E) : ∀ {m : Map E}, ts.foldl (fun m t => put dir m t.src t.dst t.data) m u v = some d →
    m u v = some d ∨ ∃ e ∈ ts, e.data = d ∧ Same dir u v e.src e.dst := by
  induction ts with
  | nil => intro m h; exact Or.inl h
  | cons t ts ih =>
    intro m h
    rw [List.foldl_cons] at h
    rcases ih h with h | ⟨e, he, h⟩
    · unfold put at h
      split at h
      · exact Or.inr ⟨t, by simp, Option.some.inj h, Same.symm' ‹_›⟩
      · exact Or.inl h
    · exact Or.inr ⟨e, by simp [he], h⟩

theorem putAll_isSome (ts : List (Edge E)) (u v : Int) : ∀ {m : Map E}, (ts.foldl (fun m t => put dir m t.src t.dst t.data) m u v).isSome ↔
    (m u v).isSome ∨ ∃ e ∈ ts, Same dir u v e.src e.dst := by
  induction ts with
  | nil => simp
  | cons t ts ih =>
    intro m
    rw [List.foldl_cons, ih]
    unfold put
    simp only [List.mem_cons, exists_eq_or_imp]
    by_cases hs : Same dir t.src t.dst u v
    · simp [hs, hs.symm']
    · have : ¬ Same dir u v t.src t.dst := fun h => hs h.symm'
      simp [hs, this]

end ICPC.Gen
