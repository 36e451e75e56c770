import Verif.Lemmas.RandomTree2
import Verif.Props.GraphOps

/-!
# C50: Prüfer codes and random trees

`IsTree V S` (Spec/Tree): connected, with one edge less than vertices.
-/

namespace ICPC.Props

open ICPC ICPC.Gen Spec.EdgeMap Spec.Tree ICPC.Gen.Tree

variable {E : Type} [Inhabited E]

/-- The degree in the graph is the number of edges in the set. -/
private theorem degree_eq {n : Nat} {S : Finset (Int × Int)} (hS : S ⊆ allPairs false n) {g : Graph E}
    (h : Good g false 0 n (ofRel false fun u v => (u, v) ∈ S)) {v : Int} (hv : In 0 n v) : g.degree v = .ok (degreeOf S v : Int) := by
  obtain ⟨l, -, h2, h3, h4⟩ := h.agrees.view v hv
  rw [h2]
  have hlt : ∀ p ∈ S, p.1 < p.2 := fun p hp => (mem_allPairs.1 (hS hp)).2.2.2 rfl
  have himg : (S.filter fun p => p.1 = v ∨ p.2 = v).image (fun p => if p.1 = v then p.2 else p.1) = (l.map Edge.dst).toFinset := by
    ext d
    rw [Finset.mem_image, List.mem_toFinset, List.mem_map]
    constructor
    · rintro ⟨p, hp, e⟩
      obtain ⟨hp1, hp2⟩ := Finset.mem_filter.1 hp
      have hsome : (ofRel false (fun u v => (u, v) ∈ S) v d : Option E).isSome := by
        rw [ofRel_isSome]
        by_cases h1 : p.1 = v
        · rw [if_pos h1] at e
          left
          rw [← h1, ← e]
          exact hp1
        · rw [if_neg h1] at e
          right
          refine ⟨rfl, ?_⟩
          rw [← e, ← hp2.resolve_left h1]
          exact hp1
      obtain ⟨x, hx⟩ := Option.isSome_iff_exists.1 hsome
      exact ⟨⟨v, d, x⟩, (h4 _).2 ⟨rfl, hx⟩, rfl⟩
    · rintro ⟨e, he, rfl⟩
      obtain ⟨-, hm⟩ := (h4 e).1 he
      have hsome : (ofRel false (fun u v => (u, v) ∈ S) v e.dst : Option E).isSome := by rw [hm]; rfl
      rw [ofRel_isSome] at hsome
      rcases hsome with hs | ⟨-, hs⟩
      · exact ⟨_, Finset.mem_filter.2 ⟨hs, Or.inl rfl⟩, by rw [if_pos rfl]⟩
      · refine ⟨_, Finset.mem_filter.2 ⟨hs, Or.inr rfl⟩, ?_⟩
        have := hlt _ hs
        rw [if_neg (by dsimp only at *; omega)]
  have hinj : Set.InjOn (fun p : Int × Int => if p.1 = v then p.2 else p.1) (S.filter fun p => p.1 = v ∨ p.2 = v : Finset (Int × Int)) := by
    rintro ⟨p1, p2⟩ hp ⟨q1, q2⟩ hq e
    obtain ⟨hp1, hp2⟩ := Finset.mem_filter.1 (Finset.mem_coe.1 hp)
    obtain ⟨hq1, hq2⟩ := Finset.mem_filter.1 (Finset.mem_coe.1 hq)
    have := hlt _ hp1
    have := hlt _ hq1
    rw [Prod.mk.injEq]
    dsimp only at *
    split at e <;> split at e <;> omega
  unfold degreeOf
  rw [← Finset.card_image_of_injOn hinj, himg, List.toFinset_card_of_nodup h3, List.length_map]

/-- **C50.** `pruefer(code)` is a tree, and the degree of every vertex is one more than the number of its occurrences in the code. -/
theorem C50_pruefer (code : List Int) (hlen : I64 (code.length + 2 : Int)) (hv : ∀ x ∈ code, 0 ≤ x ∧ x < code.length + 2) :
    ∃ (g : Graph E) (S : Finset (Int × Int)), pruefer code = .ok g ∧ IsTree (verts (code.length + 2)) S ∧
      HasExactly g false (code.length + 2) S ∧ Agrees g false 0 (code.length + 2) (ofRel false fun u v => (u, v) ∈ S) ∧
      g.edgeCount = code.length + 1 ∧ ∀ v : Int, 0 ≤ v → v < code.length + 2 → g.degree v = .ok (1 + code.count v : Int) := by
  obtain ⟨g, S, h1, h2, h3⟩ := pruefer_good (E := E) code hlen hv
  have hsub := tree_sub h2.tree
  refine ⟨g, S, h1, h2.tree, h3.hasExactly, h3.agrees, ?_, ?_⟩
  · rw [h3.edgeCount_card S hsub]
    have := h2.tree.count
    rw [verts_card] at this
    omega
  · intro v hv0 hvn
    rw [degree_eq hsub h3 ⟨hv0, by push_cast; omega⟩, h2.degree v (Finset.mem_Ico.2 ⟨hv0, by push_cast; exact hvn⟩)]
    push_cast
    rfl

/-- **C50.** Different codes give different trees. -/
theorem C50_pruefer_injective (code code' : List Int) (hlen : I64 (code.length + 2 : Int)) (hv : ∀ x ∈ code, 0 ≤ x ∧ x < code.length + 2)
    (hl : code'.length = code.length) (hv' : ∀ x ∈ code', 0 ≤ x ∧ x < code'.length + 2) (g g' : Graph E) (h : pruefer code = .ok g)
    (h' : pruefer code' = .ok g') (heq : ∀ u v, g.hasEdge u v = g'.hasEdge u v) : code = code' := by
  obtain ⟨a, S, h1, h2, h3⟩ := pruefer_good (E := E) code hlen hv
  obtain ⟨b, S', h1', h2', h3'⟩ := pruefer_good (E := E) code' (by rw [hl]; exact hlen) hv'
  rw [h] at h1
  rw [h'] at h1'
  cases h1
  cases h1'
  rw [hl] at h2' h3'
  have hS : S = S' := by
    refine HasExactly.unique (g := g) (tree_sub h2.tree) (tree_sub h2'.tree) h3.hasExactly ?_
    intro u v hu hv
    rw [heq]
    exact h3'.hasExactly u v hu hv
  subst hS
  exact h2.inj h2'

/-- **C50.** Every tree has a code. -/
theorem C50_pruefer_surjective (n : Nat) (h2 : 2 ≤ n) (hn : I64 n) (S : Finset (Int × Int)) (hS : IsTree (verts n) S) :
    ∃ (code : List Int) (g : Graph E), code.length + 2 = n ∧ (∀ x ∈ code, 0 ≤ x ∧ x < n) ∧ pruefer code = .ok g ∧ HasExactly g false n S := by
  obtain ⟨c, hc⟩ := exists_dec (n - 2) hS (by rw [verts_card]; omega)
  have hl := hc.mem.2
  rw [verts_card] at hl
  have hm : ∀ x ∈ c, 0 ≤ x ∧ x < (n : Int) := fun x hx => Finset.mem_Ico.1 (hc.mem.1 x hx)
  obtain ⟨g, S', e1, e2, e3⟩ := pruefer_good (E := E) c (by rw [show (c.length + 2 : Int) = n from by omega]; exact hn)
    (fun x hx => by have := hm x hx; omega)
  rw [← hl] at e2 e3
  rw [dec_fun e2 hc] at e3
  exact ⟨c, g, hl.symm, hm, e1, e3.hasExactly⟩

private theorem satOk_bind {α β : Type} {r : Rand α} {f : α → Rand β} {P : α → Prop} {Q : β → Prop} (h : SatOk r P)
    (hf : ∀ a, P a → SatOk (f a) Q) : SatOk (r >>= f) Q := SatOk.bind h hf

private theorem bump_ub (code : List Int) : ∀ count : List Int, (∃ x ∈ code, ¬ (0 ≤ x ∧ x < count.length)) →
    code.foldlM (fun count x => bump count x 1) count = .error .ub := by
  induction code with
  | nil => rintro count ⟨x, hx, -⟩; cases hx
  | cons y code ih =>
    rintro count ⟨x, hx, hr⟩
    rw [List.foldlM_cons]
    by_cases hy : 0 ≤ y ∧ y < count.length
    · have hlt : y.toNat < count.length := by omega
      have e : bump count y 1 = .ok (count.set y.toNat (count[y.toNat] + 1)) := by
        simp [bump, at', show ¬ y < 0 from by omega, List.getElem?_eq_getElem hlt]
      rw [e, ok_bind]
      refine ih _ ⟨x, ?_, by rw [List.length_set]; exact hr⟩
      rcases List.mem_cons.1 hx with rfl | hx
      · exact absurd hy hr
      · exact hx
    · have e : bump count y 1 = .error .ub := by
        unfold bump at'
        split
        · rfl
        · rw [List.getElem?_eq_none (by omega)]
          rfl
      rw [e]
      rfl

/-- **C50.** The code has to consist of vertices: anything else is undefined behaviour. -/
theorem C50_pruefer_range (code : List Int) (hlen : I64 (code.length + 2 : Int)) (hx : ∃ x ∈ code, ¬ (0 ≤ x ∧ x < code.length + 2)) :
    (pruefer code : Out (Graph E)) = .error .ub := by
  unfold pruefer
  rw [chk_ok hlen, ok_bind]
  have h := bump_ub code (List.replicate (code.length + 2) 0) (by
    obtain ⟨x, h1, h2⟩ := hx
    exact ⟨x, h1, by rw [List.length_replicate]; push_cast; exact h2⟩)
  obtain ⟨g, hg, -⟩ := new_good (E := E) false i64_zero hlen (by omega) (by simpa using hlen)
  unfold Graph.ofSize
  rw [hg, ok_bind, h]
  rfl

section
attribute [local irreducible] SatOk

/-- **C50.** `randomTree(n)` is a tree for every random outcome. -/
theorem C50_randomTree (n : Nat) (hn : I64 n) (h1 : 1 ≤ n) : SatOk (randomTree (n : Int) : Rand (Graph E)) fun g => ∃ S, IsTree (verts n) S ∧
    HasExactly g false n S ∧ g.edgeCount = n - 1 ∧ Agrees g false 0 n (ofRel false fun u v => (u, v) ∈ S) := by
  refine SatOk.mono (randomTree_sat hn h1) ?_
  rintro g ⟨S, h2, h3⟩
  refine ⟨S, h2, h3.hasExactly, ?_, h3.agrees⟩
  rw [h3.edgeCount_card S (tree_sub h2)]
  have := h2.count
  rw [verts_card] at this
  omega

/-- **C50.** Every tree with the vertices `[0, n)` has the same probability. -/
theorem C50_randomTree_uniform (n : Nat) (hn : I64 n) (h1 : 1 ≤ n) (S : Finset (Int × Int)) (hS : IsTree (verts n) S) :
    probEdges (randomTree (n : Int) : Rand (Graph E)) false n S = 1 / (n : ℚ) ^ (n - 2) := randomTree_prob hn h1 hS

/-- **C50.** The directed `randomTree(n)` is a tree directed away from 0 for every random outcome. -/
theorem C50_randomDiTree (n : Nat) (hn : I64 n) (h1 : 1 ≤ n) : SatOk (randomDiTree (n : Int) : Rand (Graph E)) fun g => ∃ A,
    IsRooted (verts n) A 0 ∧ HasExactly g true n A ∧ Agrees g true 0 n (ofRel true fun u v => (u, v) ∈ A) := by
  have h := randomTree_sat (E := Unit) hn h1
  unfold randomDiTree
  generalize (randomTree (n : Int) : Rand (Graph Unit)) = r at h ⊢
  refine satOk_bind h ?_
  rintro tmp ⟨S, h2, h3⟩
  obtain ⟨g, A, e1, e2, -, e4⟩ := orient_tree (E := E) hn h1 h2 h3
  rw [lift_bind2, e1]
  exact satOk_done ⟨A, e2, e4.hasExactly, e4.agrees⟩

open Classical in
/-- **C50.** Every tree directed away from 0 has the same probability. -/
theorem C50_randomDiTree_uniform (n : Nat) (hn : I64 n) (h1 : 1 ≤ n) (A : Finset (Int × Int)) (hA : IsRooted (verts n) A 0) :
    probEdges (randomDiTree (n : Int) : Rand (Graph E)) true n A = 1 / (n : ℚ) ^ (n - 2) := by
  rw [← C50_randomTree_uniform (E := Unit) n hn h1 _ hA.tree]
  unfold probEdges randomDiTree
  rw [expect_bind]
  have h := randomTree_sat (E := Unit) hn h1
  refine expect_congr_ok h ?_
  rintro tmp ⟨S, h2, h3⟩
  obtain ⟨g, A', e1, e2, e3, e4⟩ := orient_tree (E := E) hn h1 h2 h3
  rw [lift_bind2, e1]
  show (if HasExactly g true n A then (1 : ℚ) else 0) = _
  refine if_congr ?_ rfl rfl
  have hsub : ∀ {A}, IsRooted (verts n) A 0 → A ⊆ allPairs true n := by
    intro A hA
    rintro ⟨u, v⟩ hp
    have h4 := hA.tree.valid _ (Finset.mem_image.2 ⟨_, hp, rfl⟩)
    have hin : ∀ {w : Int}, w ∈ verts n → In 0 n w := by
      intro w hw; unfold In; rw [zero_add]; exact Finset.mem_Ico.1 hw
    rw [mem_allPairs]
    rcases sortPair_cases u v with e | e <;> rw [e] at h4
    · exact ⟨hin h4.1, hin h4.2.1, h4.2.2.ne, by simp⟩
    · exact ⟨hin h4.2.1, hin h4.1, h4.2.2.ne', by simp⟩
  constructor
  · intro hex
    have := HasExactly.unique (hsub hA) (hsub e2) hex e4.hasExactly
    rw [this, e3]
    exact h3.hasExactly
  · intro hex
    have hS : A.image sortPair = S := HasExactly.unique (tree_sub hA.tree) (tree_sub h2) hex h3.hasExactly
    have h0 : (0 : Int) ∈ verts n := hA.root.1
    obtain ⟨par, rank, hp⟩ := exists_parents (n - 1) hA.tree (by rw [verts_card]; omega) h0
    have u1 := rooted_unique hA hp
    have u2 : A' = arcs (verts n) 0 par := rooted_unique e2 (by rw [e3, ← hS]; exact hp)
    rw [u1, ← u2]
    exact e4.hasExactly

end

/-- **C50.** There is no directed tree without vertices; the undirected one is empty. -/
theorem C50_randomTree_zero : (randomDiTree 0 : Rand (Graph Int)).run true [] = some (.error .throw, []) ∧
    (randomTree 0 : Rand (Graph Int)).run true [] = some (.ok ⟨false, [], [], 0⟩, []) := by decide +kernel

/-! ## Examples -/

private def pairsOf' (r : Out (Graph Int)) : Out (List (Int × Int)) := do let g ← r; pure (g.getEdges.map fun e => (e.src, e.dst))
private def pairsR' (r : Rand (Graph Int)) : Rand (List (Int × Int)) := do let g ← r; pure (g.getEdges.map fun e => (e.src, e.dst))

example : pairsOf' (pruefer [3, 3, 3, 4]) = .ok [(3, 0), (3, 1), (3, 2), (4, 3), (4, 5)] := by decide +kernel
example : pairsOf' (pruefer [1, 0, 5, 1]) = .ok [(1, 2), (0, 3), (5, 0), (1, 4), (1, 5)] := by decide +kernel
example : (pairsR' (randomTree 4)).run true [1, 2 ^ 63] = some (.ok [(0, 1), (2, 0), (2, 3)], []) := by decide +kernel
example : (pairsR' (randomDiTree 4)).run true [1, 2 ^ 63] = some (.ok [(0, 1), (0, 2), (2, 3)], []) := by decide +kernel
example : (pairsR' (randomDiTree 4)).run true [2 ^ 64 - 1, 2 ^ 63] = some (.ok [(0, 3), (3, 2), (2, 1)], []) := by decide +kernel

end ICPC.Props
