import Verif.Lemmas.RandomGraph2
import Verif.Props.GraphOps

/-!
# C49 and C56: random graphs with a given number of edges

`allPairs dir n` are the possible edges of a graph with `n` vertices, `crossPairs dir n m` those between the two sides.
-/

namespace ICPC.Props

open ICPC ICPC.Gen Spec.EdgeMap

variable {E : Type} [Inhabited E] {dir : Bool}

section

attribute [local irreducible] distinct fromIndices SatOk

/-- `randomGraph` after the constructor and the computation of `lim`. -/
private theorem randomGraph_eq (n k : Nat) (hn : I64 n) (hl : I64 (n * (n - 1) : Int)) : ∃ res : Graph E, Graph.ofSize dir (n : Int) = .ok res ∧
    randomGraph dir (n : Int) k = fromIndices res (graphPair dir n) k (gl dir n) := by
  obtain ⟨res, h1, -⟩ := new_good (E := E) dir i64_zero hn (by omega) (by simpa using hn)
  refine ⟨res, h1, ?_⟩
  unfold randomGraph fromIndices
  rw [show (Graph.ofSize dir (n : Int) : Out (Graph E)) = .ok res from h1, graphLim_eq hn hl, Rand.lift_ok, Rand.bind_done_ok, Rand.lift_ok,
    Rand.bind_done_ok]

private theorem card_lim (n : Nat) : ((allPairs dir n).card : Int) = gl dir n := by
  have h : (Finset.Ico 0 (gl dir n)).image (gp dir n) = allPairs dir n := by
    ext p
    rw [Finset.mem_image]
    constructor
    · rintro ⟨x, hx, rfl⟩
      rw [Finset.mem_Ico] at hx
      exact gp_mem hx.1 hx.2
    · intro hp
      obtain ⟨x, h1, h2, h3⟩ := gp_surj hp
      exact ⟨x, Finset.mem_Ico.2 ⟨h1, h2⟩, h3⟩
  rw [← h, Finset.card_image_of_injOn, Int.card_Ico]
  · have := gl_nonneg (dir := dir) (n := n)
    omega
  · intro x hx y hy e
    rw [Finset.mem_coe, Finset.mem_Ico] at hx hy
    exact gp_inj hx.1 hx.2 hy.1 hy.2 e

private theorem card_limB (n m : Nat) : ((crossPairs dir n m).card : Int) = bl dir n m := by
  have h : (Finset.Ico 0 (bl dir n m)).image (bp dir n m) = crossPairs dir n m := by
    ext p
    rw [Finset.mem_image]
    constructor
    · rintro ⟨x, hx, rfl⟩
      rw [Finset.mem_Ico] at hx
      exact bp_mem hx.1 hx.2
    · intro hp
      obtain ⟨x, h1, h2, h3⟩ := bp_surj hp
      exact ⟨x, Finset.mem_Ico.2 ⟨h1, h2⟩, h3⟩
  rw [← h, Finset.card_image_of_injOn, Int.card_Ico]
  · have : 0 ≤ bl dir n m := by unfold bl; split <;> positivity
    omega
  · intro x hx y hy e
    rw [Finset.mem_coe, Finset.mem_Ico] at hx hy
    exact bp_inj hx.1 hx.2 hy.1 hy.2 e

/-- **C49.** For every random outcome, `randomGraph(n, m)` is a simple graph with vertices `[0, n)` and exactly `m` edges. -/
theorem C49_randomGraph (n k : Nat) (hn : I64 n) (hl : I64 (n * (n - 1) : Int)) (hk : k ≤ (allPairs dir n).card) :
    SatOk (randomGraph dir (n : Int) k : Rand (Graph E)) fun g => g.edgeCount = k ∧ ∃ S, S ⊆ allPairs dir n ∧ S.card = k ∧
      HasExactly g dir n S ∧ Good g dir 0 n (ofRel dir fun u v => (u, v) ∈ S) ∧ Agrees g dir 0 n (ofRel dir fun u v => (u, v) ∈ S) := by
  obtain ⟨res, h1, h2⟩ := randomGraph_eq (E := E) (dir := dir) n k hn hl
  have hc := card_lim (dir := dir) n
  rw [h2]
  have hk' : (k : Int) ≤ gl dir n := by omega
  have h := fromIndices_sat (E := E) (k := k) (P := allPairs dir n) hn (i64_of_le i64_zero hl gl_nonneg gl_le) hk' (Finset.Subset.refl _)
    (fun x hx0 hx => ⟨graphPair_eq hn hl hx0 hx, gp_mem hx0 hx⟩) (fun x y => gp_inj) h1
  refine SatOk.mono h ?_
  rintro g ⟨S, h3, h4, h5⟩
  exact ⟨by rw [h5.edgeCount_card S h3, h4], S, h3, h4, h5.hasExactly, h5, h5.agrees⟩

/-- **C49.** Every set of `m` edges is equally likely. -/
theorem C49_randomGraph_uniform (n k : Nat) (hn : I64 n) (hl : I64 (n * (n - 1) : Int)) (S : Finset (Int × Int)) (hS : S ⊆ allPairs dir n)
    (hc : S.card = k) :
    probEdges (randomGraph dir (n : Int) k : Rand (Graph E)) dir n S = 1 / (((allPairs dir n).card.choose k : Nat) : ℚ) := by
  obtain ⟨res, h1, h2⟩ := randomGraph_eq (E := E) (dir := dir) n k hn hl
  have hcl := card_lim (dir := dir) n
  have := Finset.card_le_card hS
  rw [h2]
  exact fromIndices_prob hn (i64_of_le i64_zero hl gl_nonneg gl_le) (by omega) (Finset.Subset.refl _)
    (fun x hx0 hx => ⟨graphPair_eq hn hl hx0 hx, gp_mem hx0 hx⟩) (fun x y => gp_inj) (fun p => gp_surj) h1 S hS hc

/-- **C49.** The number of possible edges. -/
theorem C49_number (n : Nat) : (allPairs true n).card = n * (n - 1) ∧ (allPairs false n).card = n.choose 2 := by
  have h1 := card_lim (dir := true) n
  have h2 := card_lim (dir := false) n
  have h3 := two_gl (n := n)
  have e : ((n * (n - 1) : Nat) : Int) = n * (n - 1) := by
    cases n with
    | zero => simp
    | succ n => push_cast; simp
  constructor
  · have : gl true n = n * (n - 1) := rfl
    omega
  · rw [Nat.choose_two_right]
    omega

/-- **C49.** With more edges than possible the call throws. -/
theorem C49_randomGraph_throws (n : Nat) (k : Int) (hn : I64 n) (hl : I64 (n * (n - 1) : Int)) (hk64 : I64 k) (hk : k < 0 ∨ (allPairs dir n).card < k) :
    (randomGraph dir (n : Int) k : Rand (Graph E)) = .done (.error .throw) := by
  obtain ⟨res, h1, -⟩ := new_good (E := E) dir i64_zero hn (by omega) (by simpa using hn)
  have hc := card_lim (dir := dir) n
  unfold randomGraph
  rw [show (Graph.ofSize dir (n : Int) : Out (Graph E)) = .ok res from h1, graphLim_eq hn hl, Rand.lift_ok, Rand.bind_done_ok, Rand.lift_ok,
    Rand.bind_done_ok, C04_distinct_throws_partial k 0 _ (by simpa using hk64) (by omega)]
  rfl

/-- **C49.** From 3037000501 vertices on, the product `n * (n - 1)` overflows, also for undirected graphs. -/
theorem C49_randomGraph_overflow (n : Nat) (k : Int) (hn : I64 n) (hl : ¬ I64 (n * (n - 1) : Int)) :
    (randomGraph dir (n : Int) k : Rand (Graph E)) = .done (.error .ub) := by
  obtain ⟨res, h1, -⟩ := new_good (E := E) dir i64_zero hn (by omega) (by simpa using hn)
  have h2 : I64 ((n : Int) - 1) := by unfold I64 at *; omega
  have h3 : graphLim dir (n : Int) = .error .ub := by
    unfold graphLim
    rw [chk_ok h2, ok_bind, chk, if_neg hl]
    rfl
  unfold randomGraph
  rw [show (Graph.ofSize dir (n : Int) : Out (Graph E)) = .ok res from h1, h3, Rand.lift_ok, Rand.bind_done_ok]
  rfl

/-- **C56.** For every random outcome, `randomBipartite(n, m, k)` is a simple graph with vertices `[0, n + m)` and exactly `k` edges, each
between the two sides. -/
theorem C56_randomBipartite (n m k : Nat) (hn : I64 (n + m : Int)) (hl : I64 ((crossPairs dir n m).card : Int)) (hk : k ≤ (crossPairs dir n m).card) :
    SatOk (randomBipartite dir (n : Int) m k : Rand (Graph E)) fun g => g.edgeCount = k ∧ ∃ S, S ⊆ crossPairs dir n m ∧ S.card = k ∧
      HasExactly g dir (n + m) S ∧ Good g dir 0 (n + m) (ofRel dir fun u v => (u, v) ∈ S) ∧
      Agrees g dir 0 (n + m) (ofRel dir fun u v => (u, v) ∈ S) := by
  have hc := card_limB (dir := dir) n m
  rw [hc] at hl
  have hn' : I64 ((n + m : Nat) : Int) := by rw [Nat.cast_add]; exact hn
  obtain ⟨res, h1, -⟩ := new_good (E := E) dir i64_zero hn' (by omega) (by simpa using hn')
  have e : randomBipartite dir (n : Int) m k = fromIndices res (bipPair dir n m) k (bl dir n m) := by
    unfold randomBipartite fromIndices
    rw [chk_ok hn, Rand.lift_ok, Rand.bind_done_ok, ← Nat.cast_add,
      show (Graph.ofSize dir ((n + m : Nat) : Int) : Out (Graph E)) = .ok res from h1, bipLim_eq hl, Rand.lift_ok, Rand.bind_done_ok,
      Rand.lift_ok, Rand.bind_done_ok]
  rw [e]
  refine SatOk.mono (fromIndices_sat (k := k) (n := n + m) hn' hl (by omega) crossPairs_sub
    (fun x hx0 hx => ⟨bipPair_eq hn hl hx0 hx, bp_mem hx0 hx⟩) (fun x y => bp_inj) h1) ?_
  rintro g ⟨S, h3, h4, h5⟩
  exact ⟨by rw [h5.edgeCount_card S (h3.trans crossPairs_sub), h4], S, h3, h4, h5.hasExactly, h5, h5.agrees⟩

/-- **C56.** Every set of `k` edges between the sides is equally likely. -/
theorem C56_randomBipartite_uniform (n m k : Nat) (hn : I64 (n + m : Int)) (hl : I64 ((crossPairs dir n m).card : Int)) (S : Finset (Int × Int))
    (hS : S ⊆ crossPairs dir n m) (hc : S.card = k) :
    probEdges (randomBipartite dir (n : Int) m k : Rand (Graph E)) dir (n + m) S = 1 / (((crossPairs dir n m).card.choose k : Nat) : ℚ) := by
  have hcl := card_limB (dir := dir) n m
  have hle := Finset.card_le_card hS
  rw [hcl] at hl
  have hn' : I64 ((n + m : Nat) : Int) := by rw [Nat.cast_add]; exact hn
  obtain ⟨res, h1, -⟩ := new_good (E := E) dir i64_zero hn' (by omega) (by simpa using hn')
  have e : randomBipartite dir (n : Int) m k = fromIndices res (bipPair dir n m) k (bl dir n m) := by
    unfold randomBipartite fromIndices
    rw [chk_ok hn, Rand.lift_ok, Rand.bind_done_ok, ← Nat.cast_add,
      show (Graph.ofSize dir ((n + m : Nat) : Int) : Out (Graph E)) = .ok res from h1, bipLim_eq hl, Rand.lift_ok, Rand.bind_done_ok,
      Rand.lift_ok, Rand.bind_done_ok]
  rw [e]
  exact fromIndices_prob hn' hl (by omega) crossPairs_sub
    (fun x hx0 hx => ⟨bipPair_eq hn hl hx0 hx, bp_mem hx0 hx⟩) (fun x y => bp_inj) (fun p => bp_surj) h1 S hS hc

/-- **C56.** The number of possible edges. -/
theorem C56_number (n m : Nat) : (crossPairs true n m).card = 2 * (n * m) ∧ (crossPairs false n m).card = n * m := by
  have h1 := card_limB (dir := true) n m
  have h2 := card_limB (dir := false) n m
  have e1 : bl true n m = ((n * m : Nat) : Int) * 2 := by push_cast; rfl
  have e2 : bl false n m = ((n * m : Nat) : Int) := by push_cast; rfl
  omega

end

/-! ## Examples -/

private def pairsOf (r : Rand (Graph Int)) : Rand (List (Int × Int)) := do let g ← r; pure (g.getEdges.map fun e => (e.src, e.dst))

example : (pairsOf (randomGraph false 5 10)).run true (List.replicate 10 1) =
    some (.ok [(3, 4), (1, 4), (1, 3), (1, 2), (2, 3), (2, 4), (0, 4), (0, 3), (0, 2), (0, 1)], []) := by decide +kernel
example : (pairsOf (randomGraph true 3 6)).run true (List.replicate 6 1) =
    some (.ok [(2, 0), (1, 2), (2, 1), (1, 0), (0, 2), (0, 1)], []) := by decide +kernel
example : (pairsOf (randomBipartite true 2 3 4)).run true [1, 2 ^ 60, 2 ^ 62, 2 ^ 63 + 5] =
    some (.ok [(0, 2), (4, 1), (0, 3), (0, 4)], []) := by decide +kernel
example : allPairs false 3 = {(0, 1), (0, 2), (1, 2)} := by decide
example : crossPairs true 1 2 = {(0, 1), (0, 2), (1, 0), (2, 0)} := by decide

end ICPC.Props
