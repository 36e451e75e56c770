import Verif.Props.Families
import Verif.Props.RandomGraph
import Verif.Props.GraphIO
import Verif.Props.PermCycles
import Verif.Props.PermFix
import Verif.Props.RandSeq
import Verif.Props.Seq

/-!
# C89: what the generator side makes is accepted by the validator side

Two parts of the library were written separately: the random generators and the graphs of src/graph_gen.h on one side, the checks of
src/validate.h and the graphs of src/graph_val.h on the other side.  The theorems say that they agree.
-/

namespace ICPC.Props

open ICPC ICPC.Spec

/-! ## Sequences -/

section
attribute [local irreducible] SatOk

private theorem accepted {p : List Int} {offset : Int} {n : Nat} (hl : p.length = n) (hn : (n : Int) < 2 ^ 63) (hp : IsPermutationFrom offset p) :
    ∃ b, isPerm p offset = .ok b ∧ b.value = true := by
  have hr : ∀ x ∈ p, x - offset < 2 ^ 63 := by
    intro x hx
    have hx' := hp.subset hx
    rw [mem_interval] at hx'
    omega
  obtain ⟨b, hb, hv, -⟩ := C17_isPerm_partial p offset hr (by omega)
  exact ⟨b, hb, hv.2 hp⟩

/-- **C89.** `isPerm` accepts every result of `Random::perm` with the same offset. -/
theorem C89_perm (count offset : Int) (h0 : 0 ≤ count) (h1 : I64 offset) (h2 : I64 (offset + count)) (h3 : I64 count) :
    SatOk (permOf count offset) fun p => ∃ b, isPerm p offset = .ok b ∧ b.value = true := by
  refine SatOk.mono (C05_perm count offset h0 h1 h2 h3) ?_
  rintro p ⟨hl, hp⟩
  exact accepted hl (by have := h3.2; omega) hp

/-- **C89.** So does it for permutations with given cycle lengths ... -/
theorem C89_perm_cycles (cs : List Nat) (offset : Int) (hpos : ∀ c ∈ cs, 0 < c) (h64 : cs.sum < 2 ^ 63)
    (ho : I64 offset) (ho' : I64 (offset + cs.sum)) :
    SatOk (permCycles (cs.map Int.ofNat) offset) fun p => ∃ b, isPerm p offset = .ok b ∧ b.value = true := by
  refine SatOk.mono (C06_cycle_type cs offset hpos h64 ho ho') ?_
  rintro p ⟨σ, rfl, -⟩
  refine accepted (n := cs.sum) (by simp) (by omega) ?_
  unfold IsPermutationFrom
  rw [List.length_ofFn, List.perm_ext_iff_of_nodup ?_ (nodup_interval _ _)]
  · intro x
    rw [List.mem_ofFn, mem_interval]
    constructor
    · rintro ⟨i, rfl⟩
      have := (σ i).2
      omega
    · rintro ⟨h1, h2⟩
      refine ⟨σ.symm ⟨(x - offset).toNat, by omega⟩, ?_⟩
      rw [Equiv.apply_symm_apply]
      simp only []
      omega
  · rw [List.nodup_ofFn]
    intro i j hij
    have : (σ i : Nat) = σ j := by simpa using hij
    exact σ.injective (Fin.ext this)

/-- **C89.** ... and for permutations with given fixed points. -/
theorem C89_perm_fix (n : Nat) (fix : List Int) (offset : Int) (h64 : I64 n) (ho : I64 offset) (ho' : I64 (offset + n))
    (hfix : ∀ x ∈ fix, offset ≤ x ∧ x < offset + n) (hnd : fix.Nodup) :
    SatOk (permFix n fix offset) fun p => ∃ b, isPerm p offset = .ok b ∧ b.value = true := by
  refine SatOk.mono (C07_perm_fix n fix offset h64 ho ho' hfix hnd) ?_
  rintro p ⟨hl, hp, -⟩
  exact accepted hl h64.2 hp

/-- **C89.** `isPermOf` accepts a shuffled sequence, with the original one as the second argument. -/
theorem C89_shuffle {α : Type} [LinearOrder α] (l : List α) (hlen : l.length < 2 ^ 63) :
    SatOk (shuffle l) fun l' => (isPermOf l' l).value = true :=
  SatOk.mono (C03_shuffle_perm l hlen) fun l' h => (C18_isPermOf l' l).1.2 h

/-- **C89.** `areDistinct` accepts every result of `Random::distinct`. -/
theorem C89_distinct (count lower upper : Int) (hl : I64 lower) (hu : I64 upper) (h0 : 0 ≤ count) (hle : lower + count ≤ upper) :
    SatOk (distinct count lower upper) fun res => ∃ b, areDistinct res = .ok b ∧ b.value = true := by
  refine SatOk.mono (C04_distinct count lower upper hl hu h0 hle) ?_
  rintro res ⟨-, hd, -⟩
  obtain ⟨b, hb, hv, -⟩ := C20_areDistinct res
  exact ⟨b, hb, hv.2 hd⟩

/-- **C89.** The checks for sorted sequences accept every result of the corresponding generator. -/
theorem C89_sorted (count lower upper : Int) (hl : I64 lower) (hu : I64 upper) (h0 : 0 ≤ count) :
    (lower + count ≤ upper → SatOk (increasing count lower upper) fun res => (areIncreasing res).value = true) ∧
    (lower + count ≤ upper → SatOk (decreasing count lower upper) fun res => (areDecreasing res).value = true) ∧
    (lower < upper → SatOk (nonDecreasing count lower upper) fun res => (areNonDecreasing res).value = true) ∧
    (lower < upper → SatOk (nonIncreasing count lower upper) fun res => (areNonIncreasing res).value = true) :=
  ⟨fun h => SatOk.mono (C10_increasing count lower upper hl hu h0 h) fun res hr => (C19_areIncreasing res).1.2 hr.2.1,
    fun h => SatOk.mono (C10_decreasing count lower upper hl hu h0 h) fun res hr => (C19_areDecreasing res).1.2 hr.2.1,
    fun h => SatOk.mono (C10_nonDecreasing count lower upper hl hu h0 h) fun res hr => (C19_areNonDecreasing res).1.2 hr.2.1,
    fun h => SatOk.mono (C10_nonIncreasing count lower upper hl hu h0 h) fun res hr => (C19_areNonIncreasing res).1.2 hr.2.1⟩

end

/-! ## Graphs -/

section
open ICPC.Gen Spec.EdgeMap Spec.Family Spec.Tree ICPC.Gen.Tree

variable {E : Type}

/-- The pairs of vertices that a generated graph writes, in this order. -/
def pairsOf (g : Gen.Graph E) : List (Int × Int) := g.getEdges.map fun e => (e.src, e.dst)

/-- A graph of the validator that is told all edges exists and stays within its bounds. -/
private theorem feed {l : Int} {n : Nat} (h64 : 2 * (n : Int) < 2 ^ 63) (B : List (Int × Int))
    (hB : ∀ e ∈ B, (l ≤ e.1 ∧ e.1 < l + n) ∧ l ≤ e.2 ∧ e.2 < l + n) (hlen : (B.length : Int) < 2 ^ 63) :
    ∃ v, ICPC.Graph.Reached l (l + n) B v := by
  obtain ⟨⟨v0, hv0⟩, htot⟩ := C42_total l (l + n) (by omega) (by omega)
  induction B using List.reverseRecOn with
  | nil => exact ⟨v0, .new hv0⟩
  | append_singleton B e ih =>
    rw [List.length_append, List.length_singleton] at hlen
    obtain ⟨v, hv⟩ := ih (fun x hx => hB x (by simp [hx])) (by omega)
    have he := hB e (by simp)
    obtain ⟨v', hv'⟩ := htot B v e.1 e.2 hv he.1 he.2 (by omega)
    exact ⟨v', .add hv hv'⟩

private theorem diFeed {l : Int} {n : Nat} (h64 : (n : Int) < 2 ^ 63) (B : List (Int × Int))
    (hB : ∀ e ∈ B, (l ≤ e.1 ∧ e.1 < l + n) ∧ l ≤ e.2 ∧ e.2 < l + n) (hlen : (B.length : Int) < 2 ^ 63) :
    ∃ v, ICPC.DiGraph.Reached l (l + n) B v := by
  induction B using List.reverseRecOn with
  | nil =>
    cases hnew : ICPC.DiGraph.new l (l + n) with
    | ok g => exact ⟨g, .new hnew⟩
    | error e =>
      exfalso
      unfold ICPC.DiGraph.new BaseGraph.new at hnew
      rw [chk_ok (by unfold I64; omega), ok_bind, decide_eq_true (by omega), judgeAssert_true, ok_bind] at hnew
      cases hnew
  | append_singleton B e ih =>
    rw [List.length_append, List.length_singleton] at hlen
    obtain ⟨v, hv⟩ := ih (fun x hx => hB x (by simp [hx])) (by omega)
    have he := hB e (by simp)
    obtain ⟨hlr, hg⟩ := digraph_reached hv
    obtain ⟨v', hv', -⟩ := digraph_add hg (a := e.1) (b := e.2) (by omega) (by omega) (by unfold I64; omega)
    exact ⟨v', .add hv hv'⟩

/-- Connected forests have one edge less than vertices. -/
private theorem tree_count {l r : Int} {E : List (Int × Int)} {v : ICPC.Graph} (h : ICPC.Graph.Reached l r E v) :
    r - l ≤ v.components + E.length ∧ (v.forest = true ↔ r - l = v.components + E.length) := by
  induction h with
  | @new g hg =>
    unfold ICPC.Graph.new at hg
    simp only [bind_ok] at hg
    obtain ⟨base, -, m, -, hg⟩ := hg
    obtain rfl := Except.ok.inj hg
    simp
  | @add E g g' a b h hadd ih =>
    unfold ICPC.Graph.addEdge at hadd
    simp only [bind_ok] at hadd
    obtain ⟨base, -, j, -, i, -, ⟨joined, uf⟩, -, ⟨-, buf⟩, -, ⟨-, buf'⟩, -, ⟨c, buf''⟩, -, hadd⟩ := hadd
    obtain rfl := Except.ok.inj hadd
    rw [List.length_append, List.length_singleton]
    push_cast
    cases joined
    · simp; omega
    · simp only [if_true]
      refine ⟨by omega, ?_⟩
      rw [ih.2]
      constructor <;> intro h <;> omega
  | @query E g g' a b c h hq ih =>
    unfold ICPC.Graph.areConnected at hq
    simp only [bind_ok] at hq
    obtain ⟨i, -, j, -, ⟨c', uf⟩, -, hq⟩ := hq
    obtain ⟨-, rfl⟩ := Prod.mk.inj (Except.ok.inj hq)
    exact ih

private theorem components_pos {l r : Int} {E : List (Int × Int)} {v : ICPC.Graph} (h : ICPC.Graph.Reached l r E v) (hlr : l < r) :
    1 ≤ v.components := by
  obtain ⟨-, hg⟩ := graph_reached h
  rw [hg.components]
  have h0 : 0 < v.uf.length := by rw [hg.ufLength]; omega
  obtain ⟨x, hx⟩ := rep_exists hg.uf.ok h0
  have hroot : ∀ {a r : Nat}, Rep v.uf a r → ∃ w, v.uf[r]? = some w ∧ w < 0 := by
    intro a r h
    induction h with
    | root h1 h2 => exact ⟨_, h1, h2⟩
    | step _ _ _ ih => exact ih
  have := hroot hx
  obtain ⟨w, h1, h2⟩ := this
  have h3 : 0 < rootCount v.uf := by
    unfold rootCount
    rw [List.countP_pos_iff]
    exact ⟨w, List.mem_of_getElem? h1, by simpa using h2⟩
  omega

/-- **C89.** An undirected graph of the generator side and the graph of the validator side that is told its edges: the latter reports no
loops and no repeated edges, both have the same numbers of vertices and edges, the same answers of `hasEdge` and the same degrees; and
`isConnected`, `isBipartite` and `isTree` tell whether the generated graph is connected, bipartite, and connected with one edge less than
vertices. -/
theorem C89_graph {g : Gen.Graph E} {lo : Int} {n : Nat} {m : Map E} (hA : Agrees g false lo n m) (hsym : ∀ u v, m u v = m v u)
    (h64 : 2 * (n : Int) < 2 ^ 63) (hE : g.edgeCount < 2 ^ 63) :
    (∃ v, ICPC.Graph.Reached lo (lo + n) (pairsOf g) v) ∧
    ∀ v, ICPC.Graph.Reached lo (lo + n) (pairsOf g) v →
      v.base.selfloop = none ∧ v.base.multiedge = none ∧ (v.base.adj.length : Int) = g.nodeCount ∧ v.base.edges = g.edgeCount ∧
      (∀ a b, In lo n a → In lo n b → v.base.hasEdge a b = g.hasEdge a b) ∧
      (∀ a, In lo n a → v.degree a = g.degree a) ∧
      (v.isConnected = true ↔ ∀ a b, In lo n a → In lo n b → Relation.ReflTransGen (fun x y => (m x y).isSome = true) a b) ∧
      (v.isBipartite = true ↔ ∃ c : Int → Bool, ∀ a b, In lo n a → In lo n b → (m a b).isSome = true → c a ≠ c b) ∧
      (0 < n → (v.isTree = true ↔ v.isConnected = true ∧ g.edgeCount + 1 = g.nodeCount)) := by
  have hrange : ∀ e ∈ pairsOf g, (lo ≤ e.1 ∧ e.1 < lo + n) ∧ lo ≤ e.2 ∧ e.2 < lo + n := by
    intro e he
    unfold pairsOf at he
    rw [List.mem_map] at he
    obtain ⟨e', he', rfl⟩ := he
    obtain ⟨h1, h2, -⟩ := hA.sound e' he'
    exact ⟨h1, h2⟩
  have hlen : ((pairsOf g).length : Int) = g.edgeCount := by rw [hA.count]; simp [pairsOf]
  have hmem : ∀ a b, (a, b) ∈ pairsOf g → (m a b).isSome = true := by
    intro a b h
    unfold pairsOf at h
    rw [List.mem_map] at h
    obtain ⟨e', he', h'⟩ := h
    obtain ⟨rfl, rfl⟩ := Prod.mk.inj h'
    rw [(hA.sound e' he').2.2.2]
    rfl
  have hadj : ∀ a b, Adjacent (pairsOf g) a b ↔ (m a b).isSome = true := by
    intro a b
    constructor
    · rintro (h | h)
      · exact hmem _ _ h
      · rw [hsym]; exact hmem _ _ h
    · intro h
      obtain ⟨d, hd⟩ := Option.isSome_iff_exists.1 h
      obtain ⟨i, ⟨e, he, hs⟩, -⟩ := hA.once a b d hd
      have hm : (e.src, e.dst) ∈ pairsOf g := by
        unfold pairsOf
        rw [List.mem_map]; exact ⟨e, List.mem_of_getElem? he, rfl⟩
      rcases hs with ⟨h1, h2⟩ | ⟨-, h1, h2⟩
      · rw [h1, h2] at hm; exact Or.inl hm
      · rw [h1, h2] at hm; exact Or.inr hm
  refine ⟨feed h64 _ hrange (by omega), fun v hv => ?_⟩
  have hc := C45_counts hv
  have hnc := hA.nodeCount
  have hedges : v.base.edges = g.edgeCount := by rw [hc.2, hlen]
  refine ⟨?_, ?_, ?_, hedges, ?_, ?_, ?_, ?_, ?_⟩
  · rcases hl : v.base.selfloop with _ | a
    · rfl
    · have he := (C45_selfloop hv).1 a hl
      unfold pairsOf at he
      rw [List.mem_map] at he
      obtain ⟨e', he', h'⟩ := he
      obtain ⟨h1, h2⟩ := Prod.mk.inj h'
      exact absurd (h1.trans h2.symm) (hA.sound e' he').2.2.1
  · rcases hl : v.base.multiedge with _ | ⟨a, b⟩
    · rfl
    · obtain ⟨i, j, hij, hi, hj⟩ := (C45_multiedge hv).1 a b hl
      have key : ∀ k : Nat, (pairsOf g)[k]? = some (a, b) ∨ (pairsOf g)[k]? = some (b, a) →
          ∃ e : Edge E, g.getEdges[k]? = some e ∧ Same false a b e.src e.dst := by
        intro k hk
        unfold pairsOf at hk
        rw [List.getElem?_map] at hk
        rcases hg : g.getEdges[k]? with _ | e
        · rw [hg] at hk; simp at hk
        · rw [hg] at hk
          refine ⟨e, rfl, ?_⟩
          rcases hk with hk | hk <;> obtain ⟨h1, h2⟩ := Prod.mk.inj (Option.some.inj hk)
          · exact Or.inl ⟨h1, h2⟩
          · exact Or.inr ⟨rfl, h1, h2⟩
      have hab : (m a b).isSome = true := by
        rw [← hadj]
        rcases hi with hi | hi
        · exact Or.inl (List.mem_of_getElem? hi)
        · exact Or.inr (List.mem_of_getElem? hi)
      obtain ⟨d, hd⟩ := Option.isSome_iff_exists.1 hab
      have := (hA.once a b d hd).unique (key i hi) (key j hj)
      omega
  · rw [hc.1, hnc]; omega
  · intro a b ha hb
    obtain ⟨-, -, -, -, -, h⟩ := C45_neighbours hv (a := a) ha
    obtain ⟨c, h1, h2⟩ := h b
    rw [h1, hA.has, if_pos ⟨ha, hb⟩]
    congr 1
    rw [Bool.eq_iff_iff, h2, hadj]
  · intro a ha
    obtain ⟨s, -, hs, hs', hdeg, -⟩ := C45_neighbours hv (a := a) ha
    obtain ⟨l, -, hl, hnd, hm⟩ := hA.view a ha
    rw [hdeg, hl]
    congr 2
    have hp : s.Perm (l.map Edge.dst) := by
      rw [List.perm_ext_iff_of_nodup (hs.imp fun h => ne_of_lt h) hnd]
      intro b
      rw [hs', hadj, List.mem_map]
      constructor
      · intro h
        obtain ⟨d, hd⟩ := Option.isSome_iff_exists.1 h
        exact ⟨⟨a, b, d⟩, (hm _).2 ⟨rfl, hd⟩, rfl⟩
      · rintro ⟨e, he, rfl⟩
        rw [((hm e).1 he).2]; rfl
    rw [hp.length_eq, List.length_map]
  · rw [C42_isConnected hv]
    constructor
    · intro h a b ha hb
      have hj := h a b ha.1 ha.2 hb.1 hb.2
      clear * - hj hmem hsym
      induction hj with
      | rel x y h => exact Relation.ReflTransGen.single (hmem _ _ h)
      | refl x => exact .refl
      | symm x y _ ih =>
        have : Std.Symm fun x y => (m x y).isSome = true := ⟨fun x y h => by rw [hsym]; exact h⟩
        exact symm ih
      | trans x y z _ _ ih1 ih2 => exact ih1.trans ih2
    · intro h a b h1 h2 h3 h4
      have hj := h a b ⟨h1, h2⟩ ⟨h3, h4⟩
      clear * - hj hadj
      induction hj with
      | refl => exact joined_refl _ _
      | tail _ h ih =>
        refine joined_trans ih ?_
        rcases (hadj _ _).2 h with h | h
        · exact joined_edge h
        · exact joined_symm (joined_edge h)
  · rw [C44_isBipartite hv]
    constructor
    · rintro ⟨c, h⟩
      refine ⟨c, fun a b ha hb hab => ?_⟩
      rcases (hadj a b).2 hab with h' | h'
      · exact h _ h'
      · exact (h _ h').symm
    · rintro ⟨c, h⟩
      exact ⟨c, fun e he => h _ _ (hrange e he).1 (hrange e he).2 (hmem _ _ he)⟩
  · intro hn
    have ht := tree_count hv
    have hp := components_pos hv (by omega)
    rw [ICPC.Graph.isTree, ICPC.Graph.isConnected, Bool.and_eq_true, decide_eq_true_eq, hnc]
    rw [hlen] at ht
    rw [ht.2]
    constructor
    · rintro ⟨h1, h2⟩; exact ⟨h1, by omega⟩
    · rintro ⟨h1, h2⟩; exact ⟨h1, by omega⟩

/-- What makes `DiGraph::isTree` return `x`. -/
private theorem diTree {l : Int} {n : Nat} {B : List (Int × Int)} {v : ICPC.DiGraph} (hv : ICPC.DiGraph.Reached l (l + n) B v) {x : Int}
    (hx : l ≤ x ∧ x < l + n) (p1 : ∀ a, (a, x) ∉ B) (p3 : ∀ y, l ≤ y ∧ y < l + n → y ≠ x → ∃ a, (a, y) ∈ B) (hB : B.length + 1 = n)
    (hj : ∀ a b, l ≤ a → a < l + n → l ≤ b → b < l + n → Joined B a b) : v.isTree = some x := by
  obtain ⟨-, hg⟩ := digraph_reached hv
  rw [show (l + (n : Int) - l).toNat = n by omega] at hg
  have hlen := hg.adj.length
  have hrl := hg.rev.length
  unfold ICPC.DiGraph.isTree
  rw [hlen, hg.edges, hg.offset, hg.count]
  have hxe : v.rev.getD (x - l).toNat [] = [] := (rev_empty hg hx).2 p1
  have hemp : ∀ i, i < n → v.rev.getD i [] = [] → i = (x - l).toNat := by
    intro i hi he
    by_contra hne
    have hv : l ≤ l + (i : Int) ∧ l + (i : Int) < l + n := by omega
    have hvi : (l + (i : Int) - l).toNat = i := by omega
    obtain ⟨a, ha⟩ := p3 (l + i) hv (by omega)
    exact (rev_empty hg hv).1 (by rw [hvi]; exact he) a ha
  have hg1 : ∀ (i : Nat) (s : List Int), v.rev[i]? = some s → i < n ∧ v.rev.getD i [] = s := fun i s hi => by
    have := (List.getElem?_eq_some_iff.1 hi).1
    exact ⟨by omega, by simp [hi]⟩
  have hcount : v.rev.countP List.isEmpty = 1 := by
    refine Nat.le_antisymm (countP_le_one _ _ (fun i j s t hi hj hs htt => ?_)) ?_
    · obtain ⟨a1, a2⟩ := hg1 i s hi
      obtain ⟨b1, b2⟩ := hg1 j t hj
      rw [List.isEmpty_iff] at hs htt
      rw [hemp i a1 (a2.trans hs), hemp j b1 (b2.trans htt)]
    · have hlt : (x - l).toNat < v.rev.length := by omega
      refine List.countP_pos_iff.2 ⟨v.rev[(x - l).toNat], List.getElem_mem _, ?_⟩
      have : v.rev.getD (x - l).toNat [] = v.rev[(x - l).toNat] := by simp [hlt]
      rw [← this, hxe]; rfl
  have hjoin : rootCount v.uf ≤ 1 := by
    rw [uf_joined hg.uf hg.ufLength]
    exact hj
  have hno : rootCount v.uf + B.length = n := by have := hg.ufCount; omega
  have hroot : v.root = (x - l).toNat := by
    have h1 : v.root ≤ (x - l).toNat := by
      by_contra hlt
      exact hg.rootBefore hno (x - l).toNat (by omega) hxe
    exact hemp _ (by omega) (hg.rootAt (by omega))
  rw [if_pos ⟨by omega, by omega⟩, hroot]
  congr 1; omega

/-- **C89.** The same for directed graphs: no loops, no repeated edges, the same numbers, the same answers about edges in both directions,
the same numbers of outgoing edges; and if the generated graph is a tree directed away from `x`, then `isTree` returns `x`. -/
theorem C89_digraph {g : Gen.Graph E} {lo : Int} {n : Nat} {m : Map E} (hA : Agrees g true lo n m)
    (h64 : (n : Int) < 2 ^ 63) (hE : g.edgeCount < 2 ^ 63) :
    (∃ v, ICPC.DiGraph.Reached lo (lo + n) (pairsOf g) v) ∧
    ∀ v, ICPC.DiGraph.Reached lo (lo + n) (pairsOf g) v →
      v.base.selfloop = none ∧ v.base.multiedge = none ∧ (v.base.adj.length : Int) = g.nodeCount ∧ v.base.edges = g.edgeCount ∧
      (∀ a b, In lo n a → In lo n b → v.base.hasEdge a b = g.hasEdge a b ∧ v.hasReverse b a = g.hasEdge a b) ∧
      (∀ a, In lo n a → v.outDegree a = g.degree a) ∧
      (∀ x, In lo n x → (∀ u, In lo n u → m u x = none) → (∀ y, In lo n y → y ≠ x → ∃! u, In lo n u ∧ (m u y).isSome = true) →
        (∀ a b, In lo n a → In lo n b → Relation.EqvGen (fun u w => In lo n u ∧ In lo n w ∧ (m u w).isSome = true) a b) →
        v.isTree = some x) := by
  have hrange : ∀ e ∈ pairsOf g, (lo ≤ e.1 ∧ e.1 < lo + n) ∧ lo ≤ e.2 ∧ e.2 < lo + n := by
    intro e he
    unfold pairsOf at he
    rw [List.mem_map] at he
    obtain ⟨e', he', rfl⟩ := he
    obtain ⟨h1, h2, -⟩ := hA.sound e' he'
    exact ⟨h1, h2⟩
  have hlen : ((pairsOf g).length : Int) = g.edgeCount := by rw [hA.count]; simp [pairsOf]
  have hmem : ∀ a b, (a, b) ∈ pairsOf g ↔ (m a b).isSome = true := by
    intro a b
    constructor
    · intro h
      unfold pairsOf at h
      rw [List.mem_map] at h
      obtain ⟨e', he', h'⟩ := h
      obtain ⟨rfl, rfl⟩ := Prod.mk.inj h'
      rw [(hA.sound e' he').2.2.2]
      rfl
    · intro h
      obtain ⟨d, hd⟩ := Option.isSome_iff_exists.1 h
      obtain ⟨i, ⟨e, he, hs⟩, -⟩ := hA.once a b d hd
      unfold pairsOf
      rw [List.mem_map]
      rcases hs with ⟨h1, h2⟩ | ⟨h0, -⟩
      · exact ⟨e, List.mem_of_getElem? he, by rw [h1, h2]⟩
      · cases h0
  have honce : ∀ (a b : Int) (i j : Nat), (pairsOf g)[i]? = some (a, b) → (pairsOf g)[j]? = some (a, b) → i = j := by
    intro a b i j hi hj
    have key : ∀ k : Nat, (pairsOf g)[k]? = some (a, b) → ∃ e : Edge E, g.getEdges[k]? = some e ∧ Same true a b e.src e.dst := by
      intro k hk
      unfold pairsOf at hk
      rw [List.getElem?_map] at hk
      rcases hg : g.getEdges[k]? with _ | e
      · rw [hg] at hk; simp at hk
      · rw [hg] at hk
        obtain ⟨h1, h2⟩ := Prod.mk.inj (Option.some.inj hk)
        exact ⟨e, rfl, Or.inl ⟨h1, h2⟩⟩
    obtain ⟨d, hd⟩ := Option.isSome_iff_exists.1 ((hmem a b).1 (List.mem_of_getElem? hi))
    exact (hA.once a b d hd).unique (key i hi) (key j hj)
  refine ⟨diFeed h64 _ hrange (by omega), fun v hv => ?_⟩
  have hnc := hA.nodeCount
  obtain ⟨hl1, -, hm1, -, hc1, hc2, hv'⟩ := C45_digraph hv
  refine ⟨?_, ?_, by rw [hc1, hnc]; omega, by rw [hc2, hlen], ?_, ?_, ?_⟩
  · rcases hl : v.base.selfloop with _ | a
    · rfl
    · have he := hl1 a hl
      unfold pairsOf at he
      rw [List.mem_map] at he
      obtain ⟨e', he', h'⟩ := he
      obtain ⟨h1, h2⟩ := Prod.mk.inj h'
      exact absurd (h1.trans h2.symm) (hA.sound e' he').2.2.1
  · rcases hl : v.base.multiedge with _ | ⟨a, b⟩
    · rfl
    · obtain ⟨i, j, hij, hi, hj⟩ := hm1 a b hl
      have := honce a b i j hi hj
      omega
  · intro a b ha hb
    obtain ⟨-, -, h⟩ := hv' a ha
    obtain ⟨-, -, h'⟩ := hv' b hb
    obtain ⟨c, h1, h2⟩ := (h b).1
    obtain ⟨c', h1', h2'⟩ := (h' a).2
    rw [h1, h1', hA.has, if_pos ⟨ha, hb⟩]
    constructor <;> congr 1
    · rw [Bool.eq_iff_iff, h2, hmem]
    · rw [Bool.eq_iff_iff, h2', hmem]
  · intro a ha
    obtain ⟨⟨s, hs0, hs, hs'⟩, -, -⟩ := hv' a ha
    obtain ⟨l, -, hl, hnd, hm⟩ := hA.view a ha
    unfold ICPC.DiGraph.outDegree
    rw [hs0, ok_bind, hl]
    congr 2
    have hp : s.Perm (l.map Edge.dst) := by
      rw [List.perm_ext_iff_of_nodup (hs.imp fun h => ne_of_lt h) hnd]
      intro b
      rw [hs', hmem, List.mem_map]
      constructor
      · intro h
        obtain ⟨d, hd⟩ := Option.isSome_iff_exists.1 h
        exact ⟨⟨a, b, d⟩, (hm _).2 ⟨rfl, hd⟩, rfl⟩
      · rintro ⟨e, he, rfl⟩
        rw [((hm e).1 he).2]; rfl
    rw [hp.length_eq, List.length_map]
  · intro x hx hroot hpar hconn
    refine diTree hv hx ?_ ?_ ?_ ?_
    · intro a ha
      have := (hmem _ _).1 ha
      rw [hroot a (hrange _ ha).1] at this
      cases this
    · intro y hy hne
      obtain ⟨u, ⟨-, hu⟩, -⟩ := hpar y hy hne
      exact ⟨u, (hmem _ _).2 hu⟩
    · have hp : ((pairsOf g).map Prod.snd).Perm ((interval lo n).erase x) := by
        rw [List.perm_ext_iff_of_nodup ?_ ((nodup_interval _ _).erase x)]
        · intro y
          rw [List.mem_map, (nodup_interval lo n).mem_erase_iff, mem_interval]
          constructor
          · rintro ⟨⟨u, w⟩, he, rfl⟩
            refine ⟨fun h => ?_, (hrange _ he).2⟩
            simp only [] at h
            rw [h] at he
            have := (hmem _ _).1 he
            rw [hroot u (hrange _ he).1] at this
            cases this
          · rintro ⟨h1, h2⟩
            obtain ⟨u, ⟨-, hu⟩, -⟩ := hpar y h2 h1
            exact ⟨(u, y), (hmem _ _).2 hu, rfl⟩
        · rw [List.nodup_iff_injective_getElem]
          intro i j hij
          simp only [List.getElem_map] at hij
          have hi : i.1 < (pairsOf g).length := by simpa using i.2
          have hj : j.1 < (pairsOf g).length := by simpa using j.2
          rcases hei : (pairsOf g)[i.1] with ⟨a, b⟩
          rcases hej : (pairsOf g)[j.1] with ⟨a', b'⟩
          rw [hei, hej] at hij
          simp only [] at hij
          subst hij
          have m1 : (a, b) ∈ pairsOf g := by rw [← hei]; exact List.getElem_mem _
          have m2 : (a', b) ∈ pairsOf g := by rw [← hej]; exact List.getElem_mem _
          have hb := (hrange _ m1).2
          have hbx : b ≠ x := by
            intro h
            rw [h] at m1
            have := (hmem _ _).1 m1
            rw [hroot a (hrange _ m1).1] at this
            cases this
          have : a = a' := (hpar b hb hbx).unique ⟨(hrange _ m1).1, (hmem _ _).1 m1⟩ ⟨(hrange _ m2).1, (hmem _ _).1 m2⟩
          subst this
          exact Fin.ext (honce a b i j (by rw [List.getElem?_eq_getElem hi, hei]) (by rw [List.getElem?_eq_getElem hj, hej]))
      have := hp.length_eq
      rw [List.length_map, List.length_erase_of_mem (mem_interval.2 hx), length_interval] at this
      have hn : 0 < n := by unfold In at hx; omega
      omega
    · intro a b h1 h2 h3 h4
      have hj := hconn a b ⟨h1, h2⟩ ⟨h3, h4⟩
      clear * - hj hmem
      induction hj with
      | rel x y h => exact joined_edge ((hmem _ _).2 h.2.2)
      | refl x => exact joined_refl _ _
      | symm x y _ ih => exact joined_symm ih
      | trans x y z _ _ ih1 ih2 => exact joined_trans ih1 ih2

/-! ## Random graphs and families of graphs -/

variable [Inhabited E]

/-- The graph exists, and the graph of the validator that is told its edges exists and has the property. -/
def Passes (g : Gen.Graph E) (n : Nat) (P : ICPC.Graph → Prop) : Prop :=
  (∃ v, ICPC.Graph.Reached 0 n (pairsOf g) v) ∧ ∀ v, ICPC.Graph.Reached 0 n (pairsOf g) v →
    v.base.selfloop = none ∧ v.base.multiedge = none ∧ P v

private theorem ofRel_symm (R : Int → Int → Prop) (u v : Int) : (ofRel false R : Map E) u v = ofRel false R v u := by
  classical
  unfold ofRel
  refine if_congr ?_ rfl rfl
  simp only [true_and]
  exact or_comm

private theorem ofRel_isSome {dir : Bool} {R : Int → Int → Prop} {u v : Int} :
    ((ofRel dir R : Map E) u v).isSome = true ↔ R u v ∨ (dir = false ∧ R v u) := by
  unfold ofRel
  split <;> simp [*]

/-- All vertices are joined if every vertex but the first is joined to a smaller one. -/
private theorem connected_of {R : Int → Int → Prop} {n : Nat} (h : ∀ v, 1 ≤ v → v < (n : Int) → ∃ u, 0 ≤ u ∧ u < v ∧ R u v) :
    ∀ a b, In 0 n a → In 0 n b → Relation.ReflTransGen (fun x y => ((ofRel false R : Map E) x y).isSome = true) a b := by
  have h0 : ∀ (k : Nat) (v : Int), v = k → v < n → Relation.ReflTransGen (fun x y => ((ofRel false R : Map E) x y).isSome = true) 0 v := by
    intro k
    induction k using Nat.strong_induction_on with
    | _ k ih =>
      intro v hv hn
      by_cases hz : v = 0
      · rw [hz]
      · obtain ⟨u, h1, h2, h3⟩ := h v (by omega) hn
        exact .tail (ih u.toNat (by omega) u (by omega) (by omega)) (ofRel_isSome.2 (.inl h3))
  have hs : Std.Symm fun x y => ((ofRel false R : Map E) x y).isSome = true := ⟨fun x y h => by rw [ofRel_symm]; exact h⟩
  intro a b ha hb
  unfold In at ha hb
  exact (symm (h0 a.toNat a (by omega) (by omega))).trans (h0 b.toNat b (by omega) (by omega))

/-- Graphs in which every vertex but the first has exactly one smaller neighbour are accepted as trees. -/
private theorem tree_of {g : Gen.Graph E} {n : Nat} {R : Int → Int → Prop} (f : Int → Int) (hg : Good g false 0 n (ofRel false R))
    (hf : ∀ v, 1 ≤ v → v < (n : Int) → 0 ≤ f v ∧ f v < v) (hR : ∀ u v, R u v ↔ 1 ≤ v ∧ v < n ∧ u = f v) (hn : 0 < n)
    (h64 : 2 * (n : Int) < 2 ^ 63) : Passes g n fun v => v.isTree = true ∧ v.isBipartite = true := by
  classical
  set S : Finset (Int × Int) := (Finset.Ico (1 : Int) n).image fun v => (f v, v) with hS
  have hmemS : ∀ u v, (u, v) ∈ S ↔ R u v := by
    intro u v
    rw [hS, Finset.mem_image, hR]
    constructor
    · rintro ⟨w, hw, he⟩
      rw [Finset.mem_Ico] at hw
      obtain ⟨rfl, rfl⟩ := Prod.mk.inj he
      exact ⟨hw.1, hw.2, rfl⟩
    · rintro ⟨h1, h2, rfl⟩
      exact ⟨v, Finset.mem_Ico.2 ⟨h1, h2⟩, rfl⟩
  have hRS : R = fun u v => (u, v) ∈ S := by funext u v; exact propext (hmemS u v).symm
  have hsub : S ⊆ allPairs false n := by
    rintro ⟨u, v⟩ h
    obtain ⟨h1, h2, rfl⟩ := (hR u v).1 ((hmemS u v).1 h)
    have := hf v h1 h2
    rw [mem_allPairs]
    unfold In
    simp only []
    refine ⟨by omega, by omega, by omega, fun _ => by omega⟩
  have hcount : g.edgeCount + 1 = n := by
    rw [Good.edgeCount_card S hsub (hRS ▸ hg), hS, Finset.card_image_of_injective _ (fun a b h => (Prod.mk.inj h).2), Int.card_Ico]
    omega
  have hA := hg.agrees
  obtain ⟨h1, h2⟩ := C89_graph hA (ofRel_symm R) h64 (by omega)
  rw [zero_add] at h1 h2
  refine ⟨h1, fun v hv => ?_⟩
  obtain ⟨a1, a2, -, -, -, -, a7, a8, a9⟩ := h2 v hv
  have hconn : v.isConnected = true := a7.2 (connected_of fun w hw hw' => ⟨f w, (hf w hw hw').1, (hf w hw hw').2, (hR _ _).2 ⟨hw, hw', rfl⟩⟩)
  have htree : v.isTree = true := (a9 hn).2 ⟨hconn, by rw [hA.nodeCount]; exact hcount⟩
  refine ⟨a1, a2, htree, ?_⟩
  rw [C44_isBipartite hv]
  exact forest_twoColourable _ ((C43_isTree hv).1 htree).1

private theorem treeSize_pos (c : Nat) : ∀ h, 1 ≤ treeSize c h
  | 0 => le_rfl
  | h + 1 => by unfold treeSize; omega

private theorem treeEdge_range (c : Nat) : ∀ (h : Nat) (u v : Int), TreeEdge c h u v → 0 ≤ u ∧ u < v ∧ v < treeSize c h
  | 0, _, _, h => h.elim
  | h + 1, u, v, ⟨i, hi, hc⟩ => by
    have hp := treeSize_pos c h
    have hb : (1 + i * treeSize c h + treeSize c h : Int) ≤ treeSize c (h + 1) := by
      have : (i + 1) * treeSize c h ≤ c * treeSize c h := Nat.mul_le_mul_right _ hi
      have e : treeSize c (h + 1) = 1 + c * treeSize c h := rfl
      rw [e]; push_cast
      have := (Int.ofNat_le.2 this)
      push_cast at this
      linarith
    have h0 : (0 : Int) ≤ i * treeSize c h := by positivity
    rcases hc with ⟨rfl, rfl⟩ | hc
    · refine ⟨le_rfl, by omega, by omega⟩
    · obtain ⟨a1, a2, a3⟩ := treeEdge_range c h _ _ hc
      refine ⟨by omega, by omega, by omega⟩

private theorem treeEdge_parent (c : Nat) : ∀ (h : Nat) (v : Int), 1 ≤ v → v < treeSize c h → ∃! u, TreeEdge c h u v
  | 0, v, h1, h2 => by simp [treeSize] at h2; omega
  | h + 1, v, h1, h2 => by
    have hp := treeSize_pos c h
    set s := treeSize c h with hs
    obtain ⟨w, rfl⟩ : ∃ w : Nat, v = 1 + w := ⟨(v - 1).toNat, by omega⟩
    have hw : w < c * s := by
      have e : treeSize c (h + 1) = 1 + c * s := rfl
      rw [e] at h2
      omega
    have hi : w / s < c := Nat.div_lt_of_lt_mul (by rwa [Nat.mul_comm])
    have hmod := Nat.mod_lt w hp
    have hdm := Nat.div_add_mod w s
    have hdm' : (w : Int) = s * ((w / s : Nat) : Int) + ((w % s : Nat) : Int) := by exact_mod_cast hdm.symm
    -- the subtree is determined by the position
    have huniq : ∀ (i : Nat) (r : Int), 0 ≤ r → r < s → (1 + (w : Int)) = r + (1 + i * s) → i = w / s ∧ r = (w % s : Nat) := by
      intro i r hr0 hr1 he
      obtain ⟨r', rfl⟩ : ∃ r' : Nat, r = r' := ⟨r.toNat, by omega⟩
      have : w = r' + s * i := by
        have : (w : Int) = r' + s * i := by linarith
        exact_mod_cast this
      have hr : r' < s := by omega
      constructor
      · rw [this, Nat.add_mul_div_left _ _ hp, Nat.div_eq_of_lt hr, zero_add]
      · rw [this, Nat.add_mul_mod_self_left, Nat.mod_eq_of_lt hr]
    by_cases hz : w % s = 0
    · refine ⟨0, ⟨w / s, hi, .inl ⟨rfl, ?_⟩⟩, ?_⟩
      · rw [hz] at hdm'
        push_cast at hdm' ⊢
        linarith
      · rintro u ⟨i, -, ⟨rfl, -⟩ | hc⟩
        · rfl
        · exfalso
          obtain ⟨a1, a2, a3⟩ := treeEdge_range c h _ _ hc
          rw [← hs] at a1 a2 a3
          have := (huniq i (1 + (w : Int) - (1 + i * s)) (by omega) a3 (by omega)).2
          omega
    · obtain ⟨u0, hu0, hu0'⟩ := treeEdge_parent c h (w % s : Nat) (by omega) (by omega)
      have e : (1 + (w : Int)) - (1 + ((w / s : Nat) : Int) * s) = (w % s : Nat) := by
        rw [hdm']
        push_cast
        ring
      refine ⟨u0 + (1 + ((w / s : Nat) : Int) * s), ⟨w / s, hi, .inr ?_⟩, ?_⟩
      · rw [← hs, e, show u0 + (1 + ((w / s : Nat) : Int) * s) - (1 + ((w / s : Nat) : Int) * s) = u0 by ring]
        exact hu0
      · rintro u ⟨i, -, ⟨-, hc⟩ | hc⟩
        · exfalso
          have := (huniq i 0 le_rfl (by omega) (by rw [← hs] at hc; omega)).2
          omega
        · obtain ⟨a1, a2, a3⟩ := treeEdge_range c h _ _ hc
          obtain ⟨b1, b2⟩ := huniq i (1 + (w : Int) - (1 + i * s)) (by rw [← hs] at a1 a2; omega) a3 (by omega)
          rw [← hs] at hc
          rw [b2] at hc
          have := hu0' _ hc
          rw [b1] at this
          omega

/-- **C89.** Paths, stars, brooms and complete trees are trees for the validator. -/
theorem C89_trees (n p l c k : Nat) (h1 : 2 * (n + 1 : Int) < 2 ^ 63) (h2 : 2 * (p + l + 1 : Int) < 2 ^ 63)
    (h3 : 2 * (treeSize c (k + 1) : Int) < 2 ^ 63) :
    (∃ g : Gen.Graph E, path false (n : Int) = .ok g ∧ Passes g (n + 1) fun v => v.isTree = true ∧ v.isBipartite = true) ∧
    (∃ g : Gen.Graph E, star false (n : Int) = .ok g ∧ Passes g (n + 1) fun v => v.isTree = true ∧ v.isBipartite = true) ∧
    (∃ g : Gen.Graph E, broom (p : Int) l = .ok g ∧ Passes g (p + l + 1) fun v => v.isTree = true ∧ v.isBipartite = true) ∧
    (∃ g : Gen.Graph E, completeTree false (k + 2 : Nat) c = .ok g ∧
      Passes g (treeSize c (k + 1)) fun v => v.isTree = true ∧ v.isBipartite = true) := by
  refine ⟨?_, ?_, ?_, ?_⟩
  · obtain ⟨g, e, hg, -⟩ := C52_path (E := E) (dir := false) n (by unfold I64; omega)
    exact ⟨g, e, tree_of (fun v => v - 1) hg (fun v h _ => by omega) (fun u v => by push_cast; omega) (by omega) (by push_cast; omega)⟩
  · obtain ⟨g, e, hg, -⟩ := C52_star (E := E) (dir := false) n (by unfold I64; omega)
    exact ⟨g, e, tree_of (fun _ => 0) hg (fun v h _ => by omega) (fun u v => by push_cast; omega) (by omega) (by push_cast; omega)⟩
  · obtain ⟨g, e, hg, -⟩ := C52_broom (E := E) p l (by unfold I64; omega)
    exact ⟨g, e, tree_of (fun v => min (v - 1) p) hg (fun v h _ => by omega) (fun u v => by push_cast; omega) (by omega) (by push_cast; omega)⟩
  · obtain ⟨⟨g, e, hg, -⟩, -⟩ := C52_completeTree_partial (E := E) (dir := false) c k (by unfold I64; omega)
    classical
    choose! f hf hf' using treeEdge_parent c (k + 1)
    refine ⟨g, e, tree_of f hg (fun v h1 h2 => ?_) (fun u v => ⟨fun h => ?_, ?_⟩) (treeSize_pos _ _) h3⟩
    · have := treeEdge_range c (k + 1) _ _ (hf v h1 h2)
      exact ⟨this.1, this.2.1⟩
    · obtain ⟨a1, a2, a3⟩ := treeEdge_range c (k + 1) _ _ h
      exact ⟨by omega, a3, hf' v (by omega) a3 u h⟩
    · rintro ⟨a1, a2, rfl⟩
      exact hf v a1 a2

private theorem ofRel_congr {R R' : Int → Int → Prop} (h : ∀ u v, (R u v ∨ R v u) ↔ (R' u v ∨ R' v u)) :
    (ofRel false R : Map E) = ofRel false R' := by
  funext u v
  unfold ofRel
  by_cases hc : R u v ∨ (false = false ∧ R v u)
  · rw [if_pos hc, if_pos (by simpa using (h u v).1 (by simpa using hc))]
  · rw [if_neg hc, if_neg (fun h' => hc (by simpa using (h u v).2 (by simpa using h')))]

open Classical in
/-- A simple graph with at most 2^32 vertices has fewer than 2^63 edges. -/
private theorem few_edges {g : Gen.Graph E} {n : Nat} {R : Int → Int → Prop} (hg : Good g false 0 n (ofRel false R)) (hn : n ≤ 2 ^ 32) :
    g.edgeCount < 2 ^ 63 := by
  set S : Finset (Int × Int) := (allPairs false n).filter fun p => R p.1 p.2 ∨ R p.2 p.1 with hS
  have hm : (ofRel false R : Map E) = ofRel false fun u v => (u, v) ∈ S := by
    refine ofRel_congr fun u v => ⟨fun h => ?_, fun h => ?_⟩
    · have hsome : ((ofRel false R : Map E) u v).isSome = true := ofRel_isSome.2 (by simpa using h)
      obtain ⟨d, hd⟩ := Option.isSome_iff_exists.1 hsome
      obtain ⟨i, ⟨e, he, hs⟩, -⟩ := hg.agrees.once u v d hd
      obtain ⟨b1, b2, b3, -⟩ := hg.agrees.sound e (List.mem_of_getElem? he)
      have hin : In 0 n u ∧ In 0 n v ∧ u ≠ v := by
        rcases hs with ⟨c1, c2⟩ | ⟨-, c1, c2⟩
        · rw [c1] at b1 b3; rw [c2] at b2 b3; exact ⟨b1, b2, b3⟩
        · rw [c1] at b1 b3; rw [c2] at b2 b3; exact ⟨b2, b1, b3.symm⟩
      simp only [hS, Finset.mem_filter, mem_allPairs]
      rcases lt_or_gt_of_ne hin.2.2 with hlt | hgt
      · exact .inl ⟨⟨hin.1, hin.2.1, hin.2.2, fun _ => hlt⟩, by simpa using h⟩
      · exact .inr ⟨⟨hin.2.1, hin.1, hin.2.2.symm, fun _ => hgt⟩, by simpa [or_comm] using h⟩
    · simp only [hS, Finset.mem_filter] at h
      rcases h with ⟨-, h⟩ | ⟨-, h⟩
      · exact h
      · exact h.symm
  rw [hm] at hg
  rw [Good.edgeCount_card S (Finset.filter_subset _ _) hg]
  have h1 := Finset.card_le_card (Finset.filter_subset (fun p : Int × Int => R p.1 p.2 ∨ R p.2 p.1) (allPairs false n))
  rw [(C49_number n).2, Nat.choose_two_right] at h1
  have h2 : n * (n - 1) ≤ 2 ^ 32 * (2 ^ 32 - 1) := Nat.mul_le_mul hn (by omega)
  rw [← hS] at h1
  omega

/-- A graph in which every vertex but the first has a smaller neighbour passes as connected. -/
private theorem passes_connected {g : Gen.Graph E} {n : Nat} {R : Int → Int → Prop} (hg : Good g false 0 n (ofRel false R)) (hn : n ≤ 2 ^ 32)
    (h : ∀ v, 1 ≤ v → v < (n : Int) → ∃ u, 0 ≤ u ∧ u < v ∧ R u v) : Passes g n fun v => v.isConnected = true := by
  obtain ⟨h1, h2⟩ := C89_graph hg.agrees (ofRel_symm R) (by omega) (few_edges hg hn)
  rw [zero_add] at h1 h2
  refine ⟨h1, fun v hv => ?_⟩
  obtain ⟨a1, a2, -, -, -, -, a7, -, -⟩ := h2 v hv
  exact ⟨a1, a2, a7.2 (connected_of h)⟩

/-- A graph with a colouring passes as bipartite. -/
private theorem passes_bipartite {g : Gen.Graph E} {n : Nat} {R : Int → Int → Prop} (hg : Good g false 0 n (ofRel false R)) (hn : n ≤ 2 ^ 32)
    (c : Int → Bool) (h : ∀ u v, R u v → c u ≠ c v) : Passes g n fun v => v.isBipartite = true := by
  obtain ⟨h1, h2⟩ := C89_graph hg.agrees (ofRel_symm R) (by omega) (few_edges hg hn)
  rw [zero_add] at h1 h2
  refine ⟨h1, fun v hv => ?_⟩
  obtain ⟨a1, a2, -, -, -, -, -, a8, -⟩ := h2 v hv
  refine ⟨a1, a2, a8.2 ⟨c, fun a b _ _ hab => ?_⟩⟩
  rcases ofRel_isSome.1 hab with h' | ⟨-, h'⟩
  · exact h _ _ h'
  · exact (h _ _ h').symm

omit [Inhabited E] in
private theorem Passes.both {g : Gen.Graph E} {n : Nat} {P Q : ICPC.Graph → Prop} (h1 : Passes g n P) (h2 : Passes g n Q) :
    Passes g n fun v => P v ∧ Q v :=
  ⟨h1.1, fun v hv => ⟨(h1.2 v hv).1, (h1.2 v hv).2.1, (h1.2 v hv).2.2, (h2.2 v hv).2.2⟩⟩

/-- **C89.** Cycles, complete graphs, lollipops, grids and hypercubes with at most 2^32 vertices are connected for the validator; cycles
are no trees; grids, hypercubes and complete bipartite graphs are bipartite. -/
theorem C89_families (n m p c w h d : Nat) (hn : n ≤ 2 ^ 32) (hnm : n + m ≤ 2 ^ 32) (hpc : p + c ≤ 2 ^ 32) (hw : w ≤ 2 ^ 32) (hh : h ≤ 2 ^ 32)
    (hwh : w * h ≤ 2 ^ 32) (hd : d ≤ 32) :
    (3 ≤ n → ∃ g : Gen.Graph E, cycle (n : Int) = .ok g ∧ Passes g n fun v => v.isConnected = true ∧ v.isTree = false) ∧
    (∃ g : Gen.Graph E, clique false (n : Int) = .ok g ∧ Passes g n fun v => v.isConnected = true) ∧
    (∃ g : Gen.Graph E, bipartite false (n : Int) m = .ok g ∧ Passes g (n + m) fun v => v.isBipartite = true) ∧
    (1 ≤ c → ∃ g : Gen.Graph E, lolly (p : Int) c = .ok g ∧ Passes g (p + c) fun v => v.isConnected = true) ∧
    (∃ g : Gen.Graph E, grid (w : Int) h = .ok g ∧ Passes g (w * h) fun v => v.isConnected = true ∧ v.isBipartite = true) ∧
    (∃ g : Gen.Graph E, hypercube (d : Int) = .ok g ∧ Passes g (2 ^ d) fun v => v.isConnected = true ∧ v.isBipartite = true) := by
  refine ⟨?_, ?_, ?_, ?_, ?_, ?_⟩
  · intro h3
    obtain ⟨g, e, hg, hA⟩ := C52_cycle (E := E) n h3 (by unfold I64; omega)
    refine ⟨g, e, Passes.both (passes_connected hg hn fun v h1 h2 => ⟨v - 1, by omega, by omega, .inl (by omega)⟩) ?_⟩
    obtain ⟨h1, h2⟩ := C89_graph hA (ofRel_symm _) (by omega) (few_edges hg hn)
    rw [zero_add] at h1 h2
    refine ⟨h1, fun v hv => ?_⟩
    obtain ⟨a1, a2, -, -, -, -, -, -, a9⟩ := h2 v hv
    refine ⟨a1, a2, ?_⟩
    refine Bool.eq_false_iff.2 fun ht => ?_
    have hcount := ((a9 (by omega)).1 ht).2
    rw [hA.nodeCount] at hcount
    set S : Finset (Int × Int) := insert (0, (n : Int) - 1) ((Finset.Ico (1 : Int) n).image fun v => (v - 1, v)) with hS
    have hcard : S.card = n := by
      rw [hS, Finset.card_insert_of_notMem, Finset.card_image_of_injective _ (fun a b h => (Prod.mk.inj h).2), Int.card_Ico]
      · omega
      · rw [Finset.mem_image]
        rintro ⟨v, -, h⟩
        obtain ⟨h1, h2⟩ := Prod.mk.inj h
        omega
    have hm : (ofRel false (fun i j => (0 ≤ i ∧ i < (n : Int) - 1 ∧ j = i + 1) ∨ (i = (n : Int) - 1 ∧ j = 0)) : Map E) =
        ofRel false fun u v => (u, v) ∈ S := by
      refine ofRel_congr fun u v => ?_
      simp only [hS, Finset.mem_insert, Finset.mem_image, Finset.mem_Ico, Prod.mk.injEq]
      constructor
      · rintro ((⟨x1, x2, x3⟩ | ⟨x1, x2⟩) | (⟨x1, x2, x3⟩ | ⟨x1, x2⟩))
        · exact .inl (.inr ⟨v, by omega⟩)
        · exact .inr (.inl (by omega))
        · exact .inr (.inr ⟨u, by omega⟩)
        · exact .inl (.inl (by omega))
      · rintro ((⟨x1, x2⟩ | ⟨x, x1, x2, x3⟩) | (⟨x1, x2⟩ | ⟨x, x1, x2, x3⟩)) <;> omega
    rw [hm] at hg
    rw [Good.edgeCount_card S ?_ hg, hcard] at hcount
    · omega
    · rintro ⟨u, v⟩ h
      simp only [hS, Finset.mem_insert, Finset.mem_image, Finset.mem_Ico, Prod.mk.injEq] at h
      rw [mem_allPairs]
      unfold In
      simp only []
      rcases h with ⟨x1, x2⟩ | ⟨x, x1, x2, x3⟩ <;> exact ⟨by omega, by omega, by omega, fun _ => by omega⟩
  · obtain ⟨g, e, hg, -⟩ := C52_clique (E := E) (dir := false) n (by unfold I64; omega)
    exact ⟨g, e, passes_connected hg hn fun v h1 h2 => ⟨0, by omega, by omega, by omega⟩⟩
  · obtain ⟨g, e, hg, -⟩ := C52_bipartite (E := E) (dir := false) n m (by unfold I64; omega)
    refine ⟨g, e, passes_bipartite hg hnm (fun v => decide (v < n)) fun u v h => ?_⟩
    rw [decide_eq_true (by omega), decide_eq_false (by omega)]
    exact fun h => Bool.noConfusion h
  · intro hc
    obtain ⟨g, e, hg, -⟩ := C52_lolly (E := E) p c (by unfold I64; omega)
    rw [show max (p + 1) (p + c) = p + c by omega] at hg
    exact ⟨g, e, passes_connected hg hpc fun v h1 h2 => by
      by_cases hv : v ≤ p
      · exact ⟨v - 1, by omega, by omega, by omega⟩
      · exact ⟨p, by omega, by omega, by push_cast at h2; omega⟩⟩
  · obtain ⟨g, e, hg, -⟩ := C52_grid (E := E) w h (by unfold I64; omega) (by unfold I64; omega) (by
      have : ((w * h : Nat) : Int) ≤ 2 ^ 32 := by exact_mod_cast hwh
      push_cast at this
      have h0 : (0 : Int) ≤ w * h := by positivity
      unfold I64; omega)
    refine ⟨g, e, Passes.both (passes_connected hg hwh fun v h1 h2 => ?_) (passes_bipartite hg hwh (fun x => decide ((x % w + x / w) % 2 = 0)) ?_)⟩
    · rcases Nat.eq_zero_or_pos w with rfl | hw0
      · simp at h2; omega
      push_cast at h2
      by_cases hv : v % w = 0
      · have := Int.emod_add_mul_ediv v w
        have hdiv : 1 ≤ v / w := by
          by_contra hlt
          have h0 := Int.ediv_nonneg (show (0 : Int) ≤ v by omega) (show (0 : Int) ≤ w by omega)
          rw [show v / (w : Int) = 0 by omega, hv] at this
          omega
        have : (w : Int) ≤ v := by nlinarith
        exact ⟨v - w, by omega, by omega, by omega, h2, .inr (by omega)⟩
      · exact ⟨v - 1, by omega, by omega, by omega, h2, .inl ⟨by omega, hv⟩⟩
    · rintro u v ⟨h0, h1, ⟨rfl, hv⟩ | rfl⟩
      · rcases Nat.eq_zero_or_pos w with rfl | hw0
        · simp at h1; omega
        have hwpos : (0 : Int) < w := by omega
        have e1 : (u + 1) / (w : Int) = u / w ∧ (u + 1) % (w : Int) = u % w + 1 := by
          have a1 := Int.emod_add_mul_ediv u w
          have a2 := Int.emod_nonneg u (ne_of_gt hwpos)
          have a3 := Int.emod_lt_of_pos u hwpos
          have hne : u % w + 1 ≠ w := by
            intro h
            apply hv
            rw [show u + 1 = w * (u / w + 1) by rw [mul_add]; omega]
            exact Int.mul_emod_right _ _
          have := (Int.ediv_emod_unique (a := u + 1) (r := u % w + 1) (q := u / w) hwpos).2 ⟨by linarith, by omega, by omega⟩
          exact this
        rw [e1.1, e1.2]
        simp only [ne_eq, decide_eq_decide]
        omega
      · rcases Nat.eq_zero_or_pos w with rfl | hw0
        · simp at h1; omega
        have e1 : (u + w) / (w : Int) = u / w + 1 := Int.add_ediv_of_dvd_right (dvd_refl _) |>.trans (by rw [Int.ediv_self (by omega)])
        have e2 : (u + w) % (w : Int) = u % w := Int.add_emod_right _ _
        rw [e1, e2]
        simp only [ne_eq, decide_eq_decide]
        omega
  · obtain ⟨g, e, hg, -⟩ := C52_hypercube (E := E) d (by omega)
    have h2d : 2 ^ d ≤ 2 ^ 32 := Nat.pow_le_pow_right (by omega) hd
    refine ⟨g, e, Passes.both (passes_connected hg h2d fun v h1 h2 => ?_)
      (passes_bipartite hg h2d (fun x => decide (((Finset.range d).filter fun i => x.toNat.testBit i = true).card % 2 = 0)) ?_)⟩
    · obtain ⟨x, rfl⟩ : ∃ x : Nat, v = x := ⟨v.toNat, by omega⟩
      have hx : x < 2 ^ d := by exact_mod_cast h2
      obtain ⟨k, hk⟩ := Nat.exists_testBit_of_ne_zero (show x ≠ 0 by omega)
      have hkd : k < d := by
        by_contra hlt
        rw [Nat.testBit_lt_two_pow (lt_of_lt_of_le hx (Nat.pow_le_pow_right (by omega) (by omega)))] at hk
        cases hk
      have hle : 2 ^ k ≤ x := Nat.ge_two_pow_of_testBit hk
      refine ⟨((x ^^^ 2 ^ k : Nat) : Int), by omega, ?_, x ^^^ 2 ^ k, x, k, rfl, rfl, Nat.xor_lt_two_pow hx (Nat.pow_lt_pow_right (by omega) hkd), hx, hkd, ?_⟩
      · have : x ^^^ 2 ^ k < x := by
          refine Nat.lt_of_testBit k ?_ hk ?_
          · rw [Nat.testBit_xor, hk, Nat.testBit_two_pow_self]; rfl
          · intro j hj
            rw [Nat.testBit_xor, Nat.testBit_two_pow_of_ne (by omega), Bool.xor_false]
        exact_mod_cast this
      · intro i
        rw [Nat.testBit_xor, Nat.testBit_two_pow]
        by_cases hik : k = i
        · simp [hik]
        · simp [hik, Ne.symm hik]
    · rintro u v ⟨x, y, k, rfl, rfl, hx, hy, hk, hxy⟩
      simp only [Int.toNat_natCast, ne_eq, decide_eq_decide]
      have hsd : ∀ z : Nat, ((Finset.range d).filter fun i => z.testBit i = true).card =
          (((Finset.range d).erase k).filter fun i => z.testBit i = true).card + if z.testBit k = true then 1 else 0 := by
        intro z
        rw [← Finset.insert_erase (Finset.mem_range.2 hk), Finset.filter_insert, Finset.erase_insert (Finset.notMem_erase _ _)]
        split
        · rw [Finset.card_insert_of_notMem (by simp)]
        · rfl
      have heq : ((Finset.range d).erase k).filter (fun i => x.testBit i = true) = ((Finset.range d).erase k).filter fun i => y.testBit i = true := by
        refine Finset.filter_congr fun i hi => ?_
        have : x.testBit i = y.testBit i := by
          by_contra h
          exact (Finset.ne_of_mem_erase hi) ((hxy i).1 h)
        rw [this]
      rw [hsd x, hsd y, heq]
      have hk' := (hxy k).2 rfl
      cases hxk : x.testBit k <;> cases hyk : y.testBit k <;> simp [hxk, hyk] at hk' ⊢ <;> omega

section
attribute [local irreducible] SatOk

/-- **C89.** Random graphs have neither loops nor repeated edges for the validator, random bipartite graphs are bipartite, random trees are
trees. -/
theorem C89_random (n m k : Nat) (hnm : n + m ≤ 2 ^ 31) :
    (k ≤ (allPairs false n).card → SatOk (randomGraph false (n : Int) k : Rand (Gen.Graph E)) fun g =>
      Passes g n fun v => v.base.edges = k ∧ (v.base.adj.length : Int) = n) ∧
    (k ≤ (crossPairs false n m).card → SatOk (randomBipartite false (n : Int) m k : Rand (Gen.Graph E)) fun g =>
      Passes g (n + m) fun v => v.base.edges = k ∧ v.isBipartite = true) ∧
    (1 ≤ n → SatOk (randomTree (n : Int) : Rand (Gen.Graph E)) fun g => Passes g n fun v => v.isTree = true ∧ v.isBipartite = true) := by
  have hsq : I64 ((n : Int) * (n - 1)) := by
    unfold I64
    have h1 : ((n : Int)) ≤ 2 ^ 31 := by exact_mod_cast (by omega : n ≤ 2 ^ 31)
    have h0 : (0 : Int) ≤ n := by omega
    constructor <;> nlinarith
  have hcross : I64 ((crossPairs false n m).card : Int) := by
    rw [(C56_number n m).2]
    unfold I64
    have h1 : ((n : Int)) ≤ 2 ^ 31 := by exact_mod_cast (by omega : n ≤ 2 ^ 31)
    have h2 : ((m : Int)) ≤ 2 ^ 31 := by exact_mod_cast (by omega : m ≤ 2 ^ 31)
    push_cast
    constructor <;> nlinarith
  refine ⟨fun hk => ?_, fun hk => ?_, fun h1 => ?_⟩
  · refine SatOk.mono (C49_randomGraph (E := E) (dir := false) n k (by unfold I64; omega) hsq hk) ?_
    rintro g ⟨hc, S, -, -, -, hg, hA⟩
    obtain ⟨h1, h2⟩ := C89_graph hA (ofRel_symm _) (by omega) (few_edges hg (by omega))
    rw [zero_add] at h1 h2
    refine ⟨h1, fun v hv => ?_⟩
    obtain ⟨a1, a2, a3, a4, -⟩ := h2 v hv
    exact ⟨a1, a2, a4.trans hc, a3.trans hA.nodeCount⟩
  · refine SatOk.mono (C56_randomBipartite (E := E) (dir := false) n m k (by unfold I64; omega) hcross hk) ?_
    rintro g ⟨hc, S, hS, -, -, hg, hA⟩
    obtain ⟨h1, h2⟩ := C89_graph hA (ofRel_symm _) (by omega) (few_edges hg (by omega))
    rw [zero_add] at h1 h2
    have hb : Passes g (n + m) fun v => v.isBipartite = true := by
      refine passes_bipartite hg (by omega) (fun v => decide (v < n)) fun u v huv => ?_
      have := hS huv
      unfold crossPairs at this
      rw [Finset.mem_filter] at this
      simp only [ne_eq, decide_eq_decide]
      omega
    refine ⟨h1, fun v hv => ?_⟩
    obtain ⟨a1, a2, a3, a4, -⟩ := h2 v hv
    exact ⟨a1, a2, a4.trans hc, (hb.2 v hv).2.2⟩
  · refine SatOk.mono (randomTree_sat (E := E) (by unfold I64; omega) h1) ?_
    rintro g ⟨S, hS, hg⟩
    obtain ⟨e1, e2⟩ := C89_graph hg.agrees (ofRel_symm _) (by omega) (few_edges hg (by omega))
    rw [zero_add] at e1 e2
    refine ⟨e1, fun v hv => ?_⟩
    obtain ⟨a1, a2, -, -, -, -, a7, -, a9⟩ := e2 v hv
    have hcard := hg.edgeCount_card S (tree_sub hS)
    have hcount := hS.count
    rw [verts_card] at hcount
    have hconn : v.isConnected = true := by
      refine a7.2 fun a b ha hb => ?_
      unfold In at ha hb
      have hpath := hS.connected a (by simp [verts]; omega) b (by simp [verts]; omega)
      clear * - hpath
      induction hpath with
      | refl => exact .refl
      | tail _ h ih =>
        refine .tail ih (ofRel_isSome.2 ?_)
        rcases h with h | h
        · exact .inl h
        · exact .inr ⟨rfl, h⟩
    have htree : v.isTree = true := (a9 (by omega)).2 ⟨hconn, by rw [hg.agrees.nodeCount]; omega⟩
    refine ⟨a1, a2, htree, ?_⟩
    rw [C44_isBipartite hv]
    exact forest_twoColourable _ ((C43_isTree hv).1 htree).1

/-- **C89.** Directed random trees: `isTree` returns the root 0. -/
theorem C89_randomDiTree (n : Nat) (h1 : 1 ≤ n) (hn : n ≤ 2 ^ 31) :
    SatOk (randomDiTree (n : Int) : Rand (Gen.Graph E)) fun g => (∃ v, ICPC.DiGraph.Reached 0 n (pairsOf g) v) ∧
      ∀ v, ICPC.DiGraph.Reached 0 n (pairsOf g) v → v.base.selfloop = none ∧ v.base.multiedge = none ∧ v.isTree = some 0 := by
  refine SatOk.mono (C50_randomDiTree (E := E) n (by unfold I64; omega) h1) ?_
  rintro g ⟨A, hR, -, hA⟩
  have hsome : ∀ u v, ((ofRel true fun u v => (u, v) ∈ A : Map E) u v).isSome = true ↔ (u, v) ∈ A := by
    intro u v
    rw [ofRel_isSome]
    simp
  have hrange : ∀ u v, (u, v) ∈ A → In 0 n u ∧ In 0 n v := by
    intro u v h
    obtain ⟨d, hd⟩ := Option.isSome_iff_exists.1 ((hsome u v).2 h)
    obtain ⟨i, ⟨e, he, hs⟩, -⟩ := hA.once u v d hd
    obtain ⟨b1, b2, -⟩ := hA.sound e (List.mem_of_getElem? he)
    rcases hs with ⟨c1, c2⟩ | ⟨h0, -⟩
    · rw [c1] at b1; rw [c2] at b2; exact ⟨b1, b2⟩
    · cases h0
  have hE : g.edgeCount < 2 ^ 63 := by
    have hnd : (pairsOf g).Nodup := by
      rw [List.nodup_iff_injective_getElem]
      intro i j hij
      have key : ∀ k : Fin (pairsOf g).length, g.getEdges[k.1]? = some (g.getEdges[k.1]'(by have := k.2; simpa [pairsOf] using this)) :=
        fun k => List.getElem?_eq_getElem _
      simp only [pairsOf, List.getElem_map, Prod.mk.injEq] at hij
      have hm := (hA.sound _ (List.mem_of_getElem? (key i))).2.2.2
      have huniq := (hA.once _ _ _ hm).unique ⟨_, key i, .inl ⟨rfl, rfl⟩⟩ ⟨_, key j, .inl ⟨hij.1.symm, hij.2.symm⟩⟩
      exact Fin.ext huniq
    have hsub : (pairsOf g).toFinset ⊆ verts n ×ˢ verts n := by
      intro e he
      rw [List.mem_toFinset] at he
      unfold pairsOf at he
      rw [List.mem_map] at he
      obtain ⟨e', he', rfl⟩ := he
      obtain ⟨b1, b2, -⟩ := hA.sound e' he'
      unfold In at b1 b2
      simp only [verts, Finset.mem_product, Finset.mem_Ico]
      omega
    have hcard := Finset.card_le_card hsub
    rw [List.toFinset_card_of_nodup hnd, Finset.card_product, verts_card] at hcard
    have hlen : (pairsOf g).length = g.getEdges.length := by simp [pairsOf]
    rw [hlen] at hcard
    rw [hA.count]
    have h2 : n * n ≤ 2 ^ 31 * 2 ^ 31 := Nat.mul_le_mul hn hn
    omega
  obtain ⟨e1, e2⟩ := C89_digraph hA (by omega) hE
  rw [zero_add] at e1 e2
  refine ⟨e1, fun v hv => ?_⟩
  obtain ⟨a1, a2, -, -, -, -, a7⟩ := e2 v hv
  refine ⟨a1, a2, a7 0 (by unfold In; omega) ?_ ?_ ?_⟩
  · intro u _
    rcases h : (ofRel true fun u v => (u, v) ∈ A : Map E) u 0 with _ | d
    · rfl
    · exact absurd ((hsome u 0).1 (by rw [h]; rfl)) (hR.root.2 u)
  · intro y hy hne
    unfold In at hy
    obtain ⟨u, hu, huniq⟩ := hR.parent y (by simp [verts]; omega) hne
    exact ⟨u, ⟨(hrange u y hu).1, (hsome u y).2 hu⟩, fun w hw => huniq w ((hsome w y).1 hw.2)⟩
  · intro a b ha hb
    unfold In at ha hb
    have hpath := hR.tree.connected a (by simp [verts]; omega) b (by simp [verts]; omega)
    have step : ∀ x y, (x, y) ∈ A.image sortPair →
        Relation.EqvGen (fun u w => In 0 n u ∧ In 0 n w ∧ ((ofRel true fun u v => (u, v) ∈ A : Map E) u w).isSome = true) x y := by
      intro x y hxy
      obtain ⟨⟨p, q⟩, hpq, heq⟩ := Finset.mem_image.1 hxy
      have hr := hrange p q hpq
      have hbase := Relation.EqvGen.rel p q (r := fun u w => In 0 n u ∧ In 0 n w ∧
        ((ofRel true fun u v => (u, v) ∈ A : Map E) u w).isSome = true) ⟨hr.1, hr.2, (hsome p q).2 hpq⟩
      unfold sortPair at heq
      have hcases : (x = p ∧ y = q) ∨ (x = q ∧ y = p) := by
        have := Prod.mk.inj heq
        simp only at this
        omega
      rcases hcases with ⟨rfl, rfl⟩ | ⟨rfl, rfl⟩
      · exact hbase
      · exact hbase.symm
    clear hb
    induction hpath with
    | refl => exact .refl _
    | tail _ h ih =>
      refine .trans _ _ _ ih ?_
      rcases h with h | h
      · exact step _ _ h
      · exact (step _ _ h).symm

end

end

/-! ## Concrete cases -/

open ICPC.Gen (cycle completeTree grid bipartite wheel randomTree randomDiTree)

private def check (n : Nat) (g : Out (Gen.Graph Unit)) : Out (List Bool × Option Int × Option (Int × Int)) := do
  let g ← g
  summary 0 n (pairsOf g)

example : check 5 (cycle 5) = .ok ([true, false, false, false], none, none) := by decide +kernel
example : check 7 (completeTree false 3 2) = .ok ([true, true, true, true], none, none) := by decide +kernel
example : check 6 (grid 3 2) = .ok ([true, false, false, true], none, none) := by decide +kernel
example : check 5 (bipartite false 3 2) = .ok ([true, false, false, true], none, none) := by decide +kernel
-- the graph `wheel 3` has one vertex too many (C53), but it is connected
example : check 5 (wheel 3) = .ok ([true, false, false, false], none, none) := by decide +kernel
example : ((randomTree 4 : Rand (Gen.Graph Unit)).run true [1, 2 ^ 63]).map (fun r => check 4 r.1) =
    some (.ok ([true, true, true, true], none, none)) := by decide +kernel
example : ((randomDiTree 4 : Rand (Gen.Graph Unit)).run true [2 ^ 64 - 1, 2 ^ 63]).map
    (fun r => do let g ← r.1; (digraphOf 0 4 (pairsOf g)).map DiGraph.isTree) = some (.ok (some 0)) := by decide +kernel
example : ((permOf 5 10).run true [1, 2, 3, 4, 5]).map (fun r => do let p ← r.1; (isPerm p 10).map Boolean.value) = some (.ok true) := by
  decide +kernel

end ICPC.Props
