import Verif.Lemmas.Families3
import Verif.Props.GraphOps

/-!
# C52 to C54: families of graphs

Every theorem gives the vertices and the edges, by `Returns` (Props/GraphOps): the call succeeds, and all observations of the result agree
with the relation. For undirected graphs `ofRel` adds the other direction of every pair. The hypotheses `I64` say that the numbers of the
vertices are representable.
-/

namespace ICPC.Props

open ICPC ICPC.Gen Spec.EdgeMap Spec.Family

variable {E : Type} [Inhabited E] {dir : Bool}

omit [Inhabited E] in
/-- **C52, independent.** -/
theorem C52_independent (n : Nat) (hn : I64 n) : Returns (independent dir (n : Int) : Out (Graph E)) dir 0 n (fun _ _ => none) := by
  obtain ⟨g, h1, h2, -⟩ := new_good (E := E) dir i64_zero hn (by omega) (by simpa using hn)
  rw [show ((n : Int) - 0).toNat = n from by omega] at h2
  exact returns_of ⟨g, h1, h2⟩

/-- **C52, clique.** -/
theorem C52_clique (n : Nat) (hn : I64 n) : Returns (clique dir (n : Int) : Out (Graph E)) dir 0 n (ofRel dir fun i j => 0 ≤ i ∧ i < j ∧ j < n) :=
  returns_of (clique_good hn)

/-- **C52, bipartite.** -/
theorem C52_bipartite (n m : Nat) (h : I64 (n + m : Int)) : Returns (bipartite dir (n : Int) m : Out (Graph E)) dir 0 (n + m)
    (ofRel dir fun i j => 0 ≤ i ∧ i < n ∧ n ≤ j ∧ j < n + m) := returns_of (bipartite_good h)

/-- **C52, star.** -/
theorem C52_star (n : Nat) (hn : I64 (n + 1 : Int)) : Returns (star dir (n : Int) : Out (Graph E)) dir 0 (n + 1)
    (ofRel dir fun i j => i = 0 ∧ 1 ≤ j ∧ j ≤ n) := returns_of (star_good hn)

/-- **C52, path.** -/
theorem C52_path (n : Nat) (hn : I64 (n + 1 : Int)) : Returns (path dir (n : Int) : Out (Graph E)) dir 0 (n + 1)
    (ofRel dir fun i j => 0 ≤ i ∧ i < n ∧ j = i + 1) := returns_of (path_good hn)

/-- **C52, cycle.** -/
theorem C52_cycle (n : Nat) (h3 : 3 ≤ n) (hn : I64 n) : Returns (cycle (n : Int) : Out (Graph E)) false 0 n
    (ofRel false fun i j => (0 ≤ i ∧ i < n - 1 ∧ j = i + 1) ∨ (i = n - 1 ∧ j = 0)) := returns_of (cycle_good h3 hn)

/-- **C52, cycle.** There are no cycles of length 0 and 1; of length 2 only the one edge. -/
theorem C52_cycle_small : [0, 1, 2].map (fun n => do let g ← (cycle n : Out (Graph Int)); pure (g.nodeCount, g.edgeCount)) =
    [.error .throw, .error .throw, .ok (2, 1)] := by decide +kernel

/-- **C52, lolly.** -/
theorem C52_lolly (p c : Nat) (hn : I64 (p + 1 + c : Int)) : Returns (lolly (p : Int) c : Out (Graph E)) false 0 (max (p + 1) (p + c))
    (ofRel false fun i j => (0 ≤ i ∧ i < p ∧ j = i + 1) ∨ (p ≤ i ∧ i < j ∧ j < p + c)) := returns_of (lolly_good hn)

/-- **C52, broom.** -/
theorem C52_broom (p l : Nat) (hn : I64 (p + 1 + l : Int)) : Returns (broom (p : Int) l : Out (Graph E)) false 0 (p + l + 1)
    (ofRel false fun i j => (0 ≤ i ∧ i < p ∧ j = i + 1) ∨ (i = p ∧ p < j ∧ j ≤ p + l)) := returns_of (broom_good hn)

/-- **C52, grid.** Rows of `n` vertices: neighbours in a row, and vertices one below the other. -/
theorem C52_grid (n m : Nat) (hn : I64 n) (hm : I64 m) (hnm : I64 (n * m : Int)) : Returns (grid (n : Int) m : Out (Graph E)) false 0 (n * m)
    (ofRel false fun x y => 0 ≤ x ∧ y < n * m ∧ ((y = x + 1 ∧ y % n ≠ 0) ∨ y = x + n)) := returns_of (grid_good hn hm hnm)

/-- **C52, grid(n).** -/
theorem C52_gridSquare (n : Nat) (hn : I64 n) (hnn : I64 (n * n : Int)) : Returns (gridSquare (n : Int) : Out (Graph E)) false 0 (n * n)
    (ofRel false fun x y => 0 ≤ x ∧ y < n * n ∧ ((y = x + 1 ∧ y % n ≠ 0) ∨ y = x + n)) := C52_grid n n hn hn hnn

/-- **C52, hypercube.** Numbers are joined if they differ in exactly one bit. -/
theorem C52_hypercube (d : Nat) (hd : d < 63) : Returns (hypercube (d : Int) : Out (Graph E)) false 0 (2 ^ d) (ofRel false (CubeEdge d)) := by
  unfold hypercube
  rw [if_neg (by omega), Int.toNat_natCast]
  exact returns_of (hypercube_good d hd)

omit [Inhabited E] in
theorem ofSize_negative {n : Int} (hn : I64 n) (h : n < 0) : (Graph.ofSize dir n : Out (Graph E)) = .error .throw := by
  unfold Graph.ofSize Graph.new
  rw [sub_zero, chk_ok hn, ok_bind]
  simp [judgeAssert, show ¬ 0 ≤ n by omega]
  rfl

/-- **C52, sizes that no graph has.** Negative numbers of vertices throw. `path` and `hypercube` accept -1 and return the graph without
vertices. -/
theorem C52_negative (n : Int) (hn : I64 n) (h : n < 0) :
    (independent dir n : Out (Graph E)) = .error .throw ∧ (clique dir n : Out (Graph E)) = .error .throw ∧
    (n < -1 → (path dir n : Out (Graph E)) = .error .throw ∧ (Gen.star dir n : Out (Graph E)) = .error .throw ∧
      (hypercube n : Out (Graph E)) = .error .throw) ∧
    (n = -1 → Returns (path dir n : Out (Graph E)) dir 0 0 (fun _ _ => none) ∧ Returns (hypercube n : Out (Graph E)) false 0 0 (fun _ _ => none)) := by
  have hc : ∀ {k : Int}, I64 k → k < 0 → ∀ d, (clique d k : Out (Graph E)) = .error .throw := by
    intro k hk h d
    unfold clique
    rw [ofSize_negative hk h]
    rfl
  have h1 : I64 (n + 1) := by unfold I64 at *; omega
  refine ⟨ofSize_negative hn h, hc hn h _, fun h' => ⟨?_, ?_, ?_⟩, ?_⟩
  · unfold path
    rw [chk_ok h1, ok_bind, ofSize_negative h1 (by omega)]
    rfl
  · unfold Gen.star bipartite
    rw [add_comm, chk_ok h1, ok_bind, ofSize_negative h1 (by omega)]
    rfl
  · unfold hypercube
    rw [if_pos h, chk_ok h1, ok_bind, hc h1 (by omega)]
  · rintro rfl
    have e : (independent dir ((0 : ℕ) : Int) : Out (Graph E)) = path dir (-1) := rfl
    have e' : (independent false ((0 : ℕ) : Int) : Out (Graph E)) = hypercube (-1) := rfl
    rw [← e, ← e']
    exact ⟨C52_independent 0 i64_zero, C52_independent 0 i64_zero⟩

/-- **C52, completeTree.** The tree that is returned has height `level - 1` (and 1 for levels up to 2), not `level`; see
`C52_completeTree_refuted`. -/
theorem C52_completeTree_partial (c k : Nat) (hfit : I64 (treeSize c (k + 1) : Int)) :
    Returns (completeTree dir (k + 2 : Nat) c : Out (Graph E)) dir 0 (treeSize c (k + 1)) (ofRel dir (TreeEdge c (k + 1))) ∧
    (k = 0 → Returns (completeTree dir 1 c : Out (Graph E)) dir 0 (treeSize c 1) (ofRel dir (TreeEdge c 1))) := by
  refine ⟨by unfold completeTree; rw [Int.toNat_natCast]; exact returns_of (completeTree_good k hfit), ?_⟩
  rintro rfl
  exact returns_of (completeTree_good (dir := dir) 0 hfit)

/-- **C52, completeTree.** The documented number of vertices is `(children^(level+1) - 1) / (children - 1)`. From level 2 on, whenever the
function returns at all without overflow, it is a different one. -/
theorem C52_completeTree_refuted (c k : Nat) (hc : 2 ≤ c) (hfit : I64 (treeSize c (k + 1) : Int)) :
    ∃ g : Graph E, completeTree dir (k + 2 : Nat) c = .ok g ∧ (c - 1 : Int) * g.nodeCount = c ^ (k + 2) - 1 ∧
      g.nodeCount ≠ (c ^ (k + 3) - 1 : Int) / (c - 1) := by
  obtain ⟨g, h1, h2⟩ := completeTree_good (E := E) (dir := dir) k hfit
  have e : (c - 1 : Int) * g.nodeCount = c ^ (k + 2) - 1 := by
    rw [h2.nodeCount_eq]; exact treeSize_closed c (k + 1)
  refine ⟨g, h1, e, ?_⟩
  intro h
  have e2 : (c ^ (k + 3) - 1 : Int) / (c - 1) = treeSize c (k + 2) := by
    rw [← treeSize_closed c (k + 2)]
    exact Int.mul_ediv_cancel_left _ (by omega)
  rw [e2, h2.nodeCount_eq] at h
  have h : treeSize c (k + 1) = treeSize c (k + 2) := by exact_mod_cast h
  have h3 : treeSize c (k + 2) = 1 + c * treeSize c (k + 1) := rfl
  have h4 : 2 * treeSize c (k + 1) ≤ c * treeSize c (k + 1) := Nat.mul_le_mul_right _ hc
  omega

/-- **C52, booleanLattice.** For levels up to 30, the edges go from every set to the sets with one element less. -/
theorem C52_booleanLattice_partial (d : Nat) (hd : d ≤ 30) : Returns (booleanLattice dir (d : Int) : Out (Graph E)) dir 0 (2 ^ d)
    (ofRel dir (CoverEdge d)) := returns_of (booleanLattice_good hd)

/-- **C52, booleanLattice.** Documented is an edge from `i` to `j` iff `i | j == j`. There is no edge from 0 to 1 (but one from 1 to 0), and
none between 0 and 3. -/
theorem C52_booleanLattice_refuted : (do
    let g ← (booleanLattice true 2 : Out (Graph Int))
    let a ← g.hasEdge 0 1
    let b ← g.hasEdge 1 0
    let c ← g.hasEdge 0 3
    let d ← g.hasEdge 3 0
    pure [a, b, c, d]) = .ok [false, true, false, false] ∧ orI 0 1 = 1 ∧ orI 0 3 = 3 := by decide +kernel

/-- **C52, booleanLattice.** Level 31 throws, larger levels shift by too many bits. -/
theorem C52_booleanLattice_overflow : (booleanLattice dir 31 : Out (Graph E)) = .error .throw ∧
    ∀ d : Int, 32 ≤ d → (booleanLattice dir d : Out (Graph E)) = .error .ub := by
  refine ⟨by rfl, ?_⟩
  intro d hd
  unfold booleanLattice shlInt
  rw [if_neg (by omega)]
  rfl

/-- **C53.** What `wheel(n)` returns: `n + 2` vertices, the hub joined to `n` of them, and a path through all `n + 1` others. -/
theorem C53_wheel_partial (n : Nat) (hn : I64 (n + 2 : Int)) : Returns (wheel (n : Int) : Out (Graph E)) false 0 (n + 2)
    (ofRel false fun i j => (i = 0 ∧ 1 ≤ j ∧ j ≤ n) ∨ (1 ≤ i ∧ i ≤ n ∧ j = i + 1)) := returns_of (wheel_good hn)

/-- **C53.** It is never a wheel: there is a vertex too many, and the edge that closes the cycle is missing. -/
theorem C53_wheel_refuted (n : Nat) (h3 : 3 ≤ n) (hn : I64 (n + 2 : Int)) : ∃ g : Graph E, wheel (n : Int) = .ok g ∧
    g.nodeCount = n + 2 ∧ g.hasEdge 1 n = .ok false ∧ g.hasEdge n (n + 1) = .ok true := by
  obtain ⟨g, h1, h2, h4⟩ := C53_wheel_partial (E := E) n hn
  refine ⟨g, h1, by rw [h4.nodeCount]; push_cast; rfl, ?_, ?_⟩
  · rw [h4.has, if_pos ⟨⟨by omega, by push_cast; omega⟩, ⟨by omega, by push_cast; omega⟩⟩]
    refine congrArg Except.ok ?_
    rw [← Bool.not_eq_true, ofRel_isSome]
    simp only [true_and]
    omega
  · rw [h4.has, if_pos ⟨⟨by omega, by push_cast; omega⟩, ⟨by omega, by push_cast; omega⟩⟩]
    refine congrArg Except.ok ?_
    rw [ofRel_isSome]
    exact Or.inl (Or.inr ⟨by omega, by omega, rfl⟩)

/-- **C54.** For at most `2^30 + 1` vertices, the edges are those of the Rado graph, except for the edges between `i` and `2^i`; directed ones
go from the larger to the smaller vertex. -/
theorem C54_rado_partial (n : Nat) (hn : n ≤ 2 ^ 30 + 1) : Returns (rado dir (n : Int) : Out (Graph E)) dir 0 n
    (ofRel dir fun u v => RadoEdge n v u ∧ u ≠ 2 ^ v.toNat) := by
  obtain ⟨g, h1, h2⟩ := rado_good (E := E) (dir := dir) hn
  refine returns_of ⟨g, h1, ?_⟩
  rw [ofRel_congr (R' := RadoCode n)]
  · exact h2
  · intro u v
    unfold RadoEdge RadoCode
    constructor
    · rintro ⟨⟨x, y, rfl, rfl, h3, h4, h5⟩, h6⟩
      refine ⟨x, y, rfl, rfl, h4, ?_, h5⟩
      rw [Int.toNat_natCast] at h6
      have h7 : y ≠ 2 ^ x := by exact_mod_cast h6
      have := Nat.ge_two_pow_of_testBit h5
      omega
    · rintro ⟨x, y, rfl, rfl, h3, h4, h5⟩
      have : x < 2 ^ x := Nat.lt_two_pow_self
      refine ⟨⟨x, y, rfl, rfl, by omega, h3, h5⟩, ?_⟩
      rw [Int.toNat_natCast]
      have : y ≠ 2 ^ x := by omega
      exact_mod_cast this

/-- **C54.** For every `n ≥ 2`, the edge between 0 and 1 is missing, although bit 0 of 1 is set. -/
theorem C54_rado_refuted (n : Nat) (h2 : 2 ≤ n) (hn : n ≤ 2 ^ 30 + 1) : ∃ g : Graph E, rado dir (n : Int) = .ok g ∧
    g.hasEdge 0 1 = .ok false ∧ g.hasEdge 1 0 = .ok false ∧ RadoEdge n 0 1 := by
  obtain ⟨g, h1, -, h4⟩ := C54_rado_partial (E := E) (dir := dir) n hn
  have hno : ∀ u v : Int, (u = 0 ∧ v = 1) ∨ (u = 1 ∧ v = 0) → ¬ (RadoEdge n v u ∧ u ≠ 2 ^ v.toNat) := by
    rintro u v (⟨rfl, rfl⟩ | ⟨rfl, rfl⟩) ⟨⟨x, y, h5, h6, h7, -⟩, h8⟩
    · omega
    · exact h8 rfl
  refine ⟨g, h1, ?_, ?_, ⟨0, 1, rfl, rfl, by omega, by omega, rfl⟩⟩
  · rw [h4.has, if_pos ⟨⟨by omega, by omega⟩, ⟨by omega, by omega⟩⟩]
    refine congrArg Except.ok ?_
    rw [← Bool.not_eq_true, ofRel_isSome]
    rintro (h | ⟨-, h⟩)
    · exact hno 0 1 (Or.inl ⟨rfl, rfl⟩) h
    · exact hno 1 0 (Or.inr ⟨rfl, rfl⟩) h
  · rw [h4.has, if_pos ⟨⟨by omega, by omega⟩, ⟨by omega, by omega⟩⟩]
    refine congrArg Except.ok ?_
    rw [← Bool.not_eq_true, ofRel_isSome]
    rintro (h | ⟨-, h⟩)
    · exact hno 1 0 (Or.inr ⟨rfl, rfl⟩) h
    · exact hno 0 1 (Or.inl ⟨rfl, rfl⟩) h

/-- **C54.** From `2^30 + 2` vertices on, the shift overflows. -/
theorem C54_rado_overflow (n : Nat) (hn : 2 ^ 30 + 2 ≤ n) (hn' : I64 n) : (rado dir (n : Int) : Out (Graph E)) = .error .ub := rado_ub hn hn'

/-! ## Examples -/

private def show' (g : Out (Graph Int)) : Out (Int × List (Int × Int)) := do let g ← g; pure (g.nodeCount, g.getEdges.map fun e => (e.src, e.dst))

example : show' (clique true 4) = .ok (4, [(0, 1), (0, 2), (1, 2), (0, 3), (1, 3), (2, 3)]) := by decide +kernel
example : show' (bipartite true 2 3) = .ok (5, [(0, 2), (0, 3), (0, 4), (1, 2), (1, 3), (1, 4)]) := by decide +kernel
example : show' (star false 3) = .ok (4, [(0, 1), (0, 2), (0, 3)]) := by decide +kernel
example : show' (cycle 4) = .ok (4, [(0, 1), (1, 2), (2, 3), (3, 0)]) := by decide +kernel
example : show' (lolly 2 3) = .ok (5, [(0, 1), (1, 2), (2, 3), (2, 4), (3, 4)]) := by decide +kernel
example : show' (broom 2 2) = .ok (5, [(0, 1), (1, 2), (2, 3), (2, 4)]) := by decide +kernel
example : show' (grid 3 2) = .ok (6, [(0, 3), (1, 4), (2, 5), (0, 1), (3, 4), (1, 2), (4, 5)]) := by decide +kernel
example : show' (hypercube 2) = .ok (4, [(0, 2), (1, 3), (0, 1), (2, 3)]) := by decide +kernel
example : show' (completeTree true 3 2) = .ok (7, [(1, 2), (1, 3), (0, 1), (4, 5), (4, 6), (0, 4)]) := by decide +kernel
example : show' (booleanLattice true 2) = .ok (4, [(1, 0), (2, 0), (3, 2), (3, 1)]) := by decide +kernel
example : show' (wheel 3) = .ok (5, [(0, 1), (0, 2), (0, 3), (1, 2), (2, 3), (3, 4)]) := by decide +kernel
example : show' (rado true 8) = .ok (8, [(3, 0), (3, 1), (5, 0), (5, 2), (6, 1), (6, 2), (7, 0), (7, 1), (7, 2)]) := by decide +kernel
example : treeSize 2 2 = 7 ∧ TreeEdge 2 2 4 6 := by
  refine ⟨rfl, 1, by decide, Or.inr ⟨1, by decide, Or.inl ⟨rfl, rfl⟩⟩⟩
example : CubeEdge 3 5 7 := by rw [cubeEdge_iff]; exact ⟨5, 1, by decide⟩
example : RadoEdge 10 2 7 := ⟨2, 7, by decide⟩

end ICPC.Props
