import Verif.Lemmas.DegreeGraph2

/-!
# C51: `randomGraph(degree, averageFlips)`

The full property is false for sequences of zeros (with flips) and with negative numbers; without them it is proved.
-/

namespace ICPC.Props

open ICPC ICPC.Gen Spec Spec.EdgeMap

variable {E : Type} [Inhabited E]

/-- The graph has the degrees of the list. -/
private def Has (g : Graph E) (degree : List Int) : Prop := ∃ m, Agrees g false 0 degree.length m ∧
  ∀ i (h : i < degree.length), g.degree (i : Int) = .ok degree[i]

private theorem pre {degree : List Int} (h0 : ∀ d ∈ degree, 0 ≤ d) (hsum : degree.sum < 2 ^ 63) : ∀ d ∈ degree, I64 d := by
  intro d hd
  have h1 := h0 d hd
  have h2 := (le_sum degree h0).2 d hd
  unfold I64
  omega

omit [Inhabited E] in
private theorem has_of {degree : List Int} (h0 : ∀ d ∈ degree, 0 ≤ d) {g : Graph E} {m : Map E} (h : Good g false 0 degree.length m)
    (hd : ∀ u, In 0 degree.length u → (nb degree.length (bm m) u).card = (degree.getD u.toNat 0).toNat) : Has g degree := by
  refine ⟨m, h.agrees, fun i hi => ?_⟩
  have hin : In 0 degree.length (i : Int) := ⟨by omega, by omega⟩
  rw [h.degree hin, hd _ hin, Int.toNat_natCast, List.getD_eq_getElem _ _ hi]
  have := h0 _ (List.getElem_mem hi)
  rw [Int.toNat_of_nonneg this]

/-- **C51.** A sequence that is no degree sequence always throws. -/
theorem C51_throws_partial (degree : List Int) (averageFlips : Int) (hlen : I64 (degree.length : Int)) (h0 : ∀ d ∈ degree, 0 ≤ d)
    (hsum : degree.sum < 2 ^ 63) (hno : ¬ Graphic degree) : (degreeGraph degree averageFlips : Rand (Graph E)) = .done (.error .throw) := by
  rcases construct (E := E) degree hlen (pre h0 hsum) with ⟨g, m, h1, h2, h3⟩ | ⟨h1, -⟩
  · exfalso
    exact hno ((graphic_iff h0).2 ⟨bm m, h2.sim, h3⟩)
  · unfold degreeGraph
    rw [h1, Rand.lift_error, Rand.bind_done_error]

section
attribute [local irreducible] SatOk

/-- **C51.** Every outcome for a degree sequence has the degrees. `averageFlips * n` has to be representable, and there has to be an edge if
something is flipped. -/
theorem C51_degrees_partial (degree : List Int) (averageFlips : Int) (hlen : I64 (degree.length : Int)) (h0 : ∀ d ∈ degree, 0 ≤ d)
    (hsum : degree.sum < 2 ^ 63) (hflips : I64 (averageFlips * degree.length)) (hpos : averageFlips ≤ 0 ∨ ∃ d ∈ degree, 0 < d)
    (hyes : Graphic degree) : SatOk (degreeGraph degree averageFlips : Rand (Graph E)) fun g => ∃ m, Agrees g false 0 degree.length m ∧
      ∀ i (h : i < degree.length), g.degree (i : Int) = .ok degree[i] := by
  rcases construct (E := E) degree hlen (pre h0 hsum) with ⟨g, m, h1, h2, h3⟩ | ⟨-, h1⟩
  · unfold degreeGraph
    have hnc : g.nodeCount = (degree.length : Int) := h2.agrees.nodeCount
    rw [h1, Rand.lift_ok, Rand.bind_done_ok, hnc, chk_ok hflips, Rand.lift_ok, Rand.bind_done_ok]
    by_cases hf : averageFlips ≤ 0
    · have : (averageFlips * degree.length).toNat = 0 := by
        have : averageFlips * degree.length ≤ 0 := Int.mul_nonpos_of_nonpos_of_nonneg hf (by omega)
        omega
      rw [this]
      exact satOk_done (has_of h0 h2 h3)
    · obtain ⟨d, hd, hd0⟩ := hpos.resolve_left hf
      obtain ⟨i, hi, rfl⟩ := List.getElem_of_mem hd
      refine SatOk.mono (flips_ok (averageFlips * degree.length).toNat h2 ⟨(i : Int), ?_⟩ ?_) ?_
      · rw [h3 _ ⟨by omega, by omega⟩, Int.toNat_natCast, List.getD_eq_getElem _ _ hi]
        omega
      · have hs := sum_getD degree h0
        have : (∑ j ∈ Finset.range degree.length, (nb degree.length (bm m) (j : Int)).card : Nat) =
            ∑ j ∈ Finset.range degree.length, (degree.getD j 0).toNat := by
          refine Finset.sum_congr rfl fun j hj => ?_
          rw [h3 _ ⟨by omega, by have := Finset.mem_range.1 hj; omega⟩, Int.toNat_natCast]
        rw [this]
        have h6 : ((∑ j ∈ Finset.range degree.length, (degree.getD j 0).toNat : Nat) : Int) < 2 ^ 63 := by
          push_cast
          rw [hs]
          exact hsum
        exact_mod_cast h6
      · rintro g' ⟨m', e1, e2⟩
        exact has_of h0 e1 fun u hu => by rw [e2, h3 u hu]
  · exact absurd ((graphic_iff h0).1 hyes) h1

end

/-- **C51 is false** for sequences of zeros: they are degree sequences, but the first flip throws. -/
theorem C51_zeros_refuted (n : Nat) (averageFlips : Int) (hn : 0 < n) (hf : 0 < averageFlips) (hfit : I64 (averageFlips * n)) :
    Graphic (List.replicate n 0) ∧ (degreeGraph (List.replicate n 0) averageFlips : Rand (Graph E)) = .done (.error .throw) := by
  have h0 : ∀ d ∈ List.replicate n (0 : Int), 0 ≤ d := fun d hd => by rw [List.eq_of_mem_replicate hd]
  have hg : Graphic (List.replicate n 0) := by
    refine ⟨fun _ _ => False, fun _ _ h => h, fun _ h => h, fun i hi => ?_⟩
    simp
  have hI : I64 (n : Int) := by
    have : (n : Int) ≤ averageFlips * n := by nlinarith
    unfold I64 at *
    omega
  refine ⟨hg, ?_⟩
  have hlen : (List.replicate n (0 : Int)).length = n := List.length_replicate
  rcases construct (E := E) (List.replicate n 0) (by rw [hlen]; exact hI) (pre h0 (by simp)) with ⟨g, m, h1, h2, h3⟩ | ⟨-, h1⟩
  · unfold degreeGraph
    have hnc : g.nodeCount = (n : Int) := by rw [h2.agrees.nodeCount, hlen]
    rw [h1, Rand.lift_ok, Rand.bind_done_ok, hnc, chk_ok hfit, Rand.lift_ok, Rand.bind_done_ok]
    have hpos : 0 < averageFlips * n := Int.mul_pos hf (by omega)
    obtain ⟨k, hk⟩ : ∃ k, (averageFlips * n).toNat = k + 1 := ⟨(averageFlips * n).toNat - 1, by omega⟩
    rw [hk]
    unfold flips
    rw [flip_throw, Rand.bind_done_error]
    refine h2.edges_zero fun u hu => ?_
    rw [h3 u hu]
    simp
  · exact absurd ((graphic_iff h0).1 hg) h1

/-- **C51 is false** for negative numbers: they are taken for zeros. -/
theorem C51_negative_refuted : ¬ Graphic [-5, 1, 1] ∧ (do
    let g ← (degreeGraph [-5, 1, 1] 1 : Rand (Graph Int))
    pure g.getDegrees).run true [0, 0, 0, 0, 0, 0] = some (.ok [0, 1, 1], []) := by
  constructor
  · rintro ⟨adj, -, -, h⟩
    have := h 0 (by decide)
    simp only [List.getElem_cons_zero] at this
    omega
  · decide +kernel

/-! ## Examples -/

private def pairsR (r : Rand (Graph Int)) : Rand (List (Int × Int)) := do let g ← r; pure (g.getEdges.map fun e => (e.src, e.dst))

/-- Without flips. -/
example : (pairsR (degreeGraph [1, 2, 3, 2, 2] 0)).run true [] = some (.ok [(2, 4), (2, 3), (2, 1), (4, 3), (1, 0)], []) := by decide +kernel
/-- Two flips, the first of them changes something. -/
example : (pairsR (degreeGraph [1, 1, 1, 1] 0)).run true [] = some (.ok [(3, 2), (1, 0)], []) := by decide +kernel
example : (do let g ← (degreeGraph [1, 1, 1, 1] 0 : Rand (Graph Int)); let g ← flip g; pure (g.getEdges.map fun e : Edge Int => (e.src, e.dst))).run true
    [0, 2 ^ 63] = some (.ok [(3, 0), (1, 2)], []) := by decide +kernel
/-- Not a degree sequence: the sum is even, but there are not enough other vertices. -/
example : (pairsR (degreeGraph [3, 3, 1, 1] 10)).run true [] = some (.error .throw, []) := by decide +kernel
/-- The hypotheses are satisfiable. -/
example : Graphic [1, 2, 1] := by
  rw [graphic_iff (by simp)]
  refine ⟨fun u v => decide ((u = 1 ∧ (v = 0 ∨ v = 2)) ∨ (v = 1 ∧ (u = 0 ∨ u = 2))), ⟨?_, ?_⟩, ?_⟩
  · intro u v h
    rw [decide_eq_true_iff] at h ⊢
    tauto
  · intro u v h
    rw [decide_eq_true_iff] at h
    unfold In
    simp only [List.length_cons, List.length_nil]
    omega
  · rintro u ⟨h1, h2⟩
    simp only [List.length_cons, List.length_nil] at h2
    have : u = 0 ∨ u = 1 ∨ u = 2 := by omega
    rcases this with rfl | rfl | rfl <;> decide +kernel

end ICPC.Props
