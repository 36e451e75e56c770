import Verif.Model.RandomGraphP
import Verif.Props.RandomGraph

/-!
# C74: random graphs with a given edge probability
-/

namespace ICPC.Props

open ICPC ICPC.Gen Spec.EdgeMap

variable {E : Type} [Inhabited E] {dir : Bool}

/-- The number of sets of `k` elements with a given one. -/
theorem card_with {α : Type} [DecidableEq α] (P : Finset α) {p : α} (hp : p ∈ P) (k : Nat) :
    (((P.powersetCard k).filter fun S => p ∈ S).card : ℚ) = k / P.card * P.card.choose k := by
  cases k with
  | zero =>
    rw [Finset.powersetCard_zero, Finset.filter_singleton, if_neg (Finset.notMem_empty p)]
    simp
  | succ k =>
    have e : ((P.powersetCard (k + 1)).filter fun S => p ∈ S).card = ((P.erase p).powersetCard k).card := by
      refine Finset.card_nbij' (fun S => S.erase p) (fun S => insert p S) ?_ ?_ ?_ ?_
      · intro S hS
        simp only [Finset.coe_filter, Finset.mem_powersetCard, Set.mem_ofPred_eq] at hS
        simp only [Finset.mem_coe, Finset.mem_powersetCard]
        exact ⟨Finset.erase_subset_erase _ hS.1.1, by rw [Finset.card_erase_of_mem hS.2, hS.1.2]; rfl⟩
      · intro S hS
        simp only [Finset.mem_coe, Finset.mem_powersetCard] at hS
        simp only [Finset.coe_filter, Finset.mem_powersetCard, Set.mem_ofPred_eq]
        have hn : p ∉ S := fun h => by simpa using hS.1 h
        refine ⟨⟨?_, by rw [Finset.card_insert_of_notMem hn, hS.2]⟩, Finset.mem_insert_self _ _⟩
        exact Finset.insert_subset hp (hS.1.trans (Finset.erase_subset _ _))
      · intro S hS
        simp only [Finset.coe_filter, Set.mem_ofPred_eq] at hS
        exact Finset.insert_erase hS.2
      · intro S hS
        simp only [Finset.mem_coe, Finset.mem_powersetCard] at hS
        exact Finset.erase_insert fun h => by simpa using hS.1 h
    rw [e, Finset.card_powersetCard, Finset.card_erase_of_mem hp]
    obtain ⟨M, hM⟩ : ∃ M, P.card = M + 1 := ⟨P.card - 1, by have := Finset.card_pos.2 ⟨p, hp⟩; omega⟩
    rw [hM, Nat.add_sub_cancel]
    have h := Nat.add_one_mul_choose_eq M k
    have hq : ((M : ℚ) + 1) * M.choose k = (M + 1).choose (k + 1) * (k + 1) := by exact_mod_cast h
    push_cast
    have : (M : ℚ) + 1 ≠ 0 := by positivity
    field_simp
    linarith

section

variable {n : Nat} {P : Finset (Int × Int)} {r : Nat → Rand (Graph E)}

omit [Inhabited E] in
/-- The number of edges is drawn first, then the edges. -/
theorem drawn_count (hP : P ⊆ allPairs dir n)
    (hsat : ∀ k ≤ P.card, SatOk (r k) fun g => ∃ S, S ⊆ P ∧ S.card = k ∧ HasExactly g dir n S)
    (hunif : ∀ S ⊆ P, probEdges (r S.card) dir n S = 1 / ((P.card.choose S.card : Nat) : ℚ)) {b : Rand Int} {N : Nat} (hN : N ≤ P.card)
    (hb : SatOk b fun x => 0 ≤ x ∧ x ≤ N) {S : Finset (Int × Int)} (hS : S ⊆ P) :
    expect b (fun x => probEdges (r x.toNat) dir n S) = prob b S.card / ((P.card.choose S.card : Nat) : ℚ) := by
  classical
  rw [prob, div_eq_inv_mul, ← expect_smul]
  refine expect_congr_ok hb fun x hx => ?_
  by_cases h : x = S.card
  · rw [if_pos h, h, Int.toNat_natCast, hunif S hS]
    simp
  · rw [if_neg h, mul_zero, probEdges, expect_congr_ok (hsat x.toNat (by omega)) (h := fun _ => 0), expect_zero]
    rintro g ⟨T, h1, h2, h3⟩
    rw [if_neg]
    intro h4
    have := HasExactly.unique (h1.trans hP) (hS.trans hP) h3 h4
    subst this
    omega

open Classical in
/-- The probability that `(u, v)` is an edge. -/
noncomputable def probEdge {E : Type} (r : Rand (Graph E)) (u v : Int) : ℚ := expect r fun g => if g.hasEdge u v = .ok true then 1 else 0

omit [Inhabited E] in
theorem edge_given_count (hP : P ⊆ allPairs dir n) {k : Nat} (hk : k ≤ P.card)
    (hsat : SatOk (r k) fun g => ∃ S, S ⊆ P ∧ S.card = k ∧ HasExactly g dir n S)
    (hunif : ∀ S ⊆ P, S.card = k → probEdges (r k) dir n S = 1 / ((P.card.choose k : Nat) : ℚ)) {u v : Int} (huv : (u, v) ∈ P) :
    probEdge (r k) u v = k / P.card := by
  classical
  have huv' := mem_allPairs.1 (hP huv)
  have e : probEdge (r k) u v = expect (r k) fun g => ∑ S ∈ (P.powersetCard k).filter fun S => (u, v) ∈ S, if HasExactly g dir n S then 1 else 0 := by
    unfold probEdge
    refine expect_congr_ok hsat ?_
    rintro g ⟨T, h1, h2, h3⟩
    have hT : ∀ S ∈ (P.powersetCard k).filter fun S => (u, v) ∈ S, (if HasExactly g dir n S then (1 : ℚ) else 0) = if S = T then 1 else 0 := by
      intro S hS
      rw [Finset.mem_filter, Finset.mem_powersetCard] at hS
      refine if_congr ⟨fun h => HasExactly.unique (hS.1.1.trans hP) (h1.trans hP) h h3, ?_⟩ rfl rfl
      rintro rfl
      exact h3
    rw [Finset.sum_congr rfl hT, Finset.sum_ite_eq']
    refine if_congr ?_ rfl rfl
    rw [h3 u v huv'.1 huv'.2.1, Finset.mem_filter, Finset.mem_powersetCard]
    simp only [Except.ok.injEq, decide_eq_true_eq]
    constructor
    · rintro (h | ⟨h, h4⟩)
      · exact ⟨⟨h1, h2⟩, h⟩
      · have h5 := (mem_allPairs.1 (hP (h1 h4))).2.2.2 h
        have h6 := huv'.2.2.2 h
        simp only at h5 h6
        omega
    · rintro ⟨_, h⟩
      exact .inl h
  rw [e, expect_sum]
  have hs : ∀ S ∈ (P.powersetCard k).filter fun S => (u, v) ∈ S, expect (r k) (fun g => if HasExactly g dir n S then (1 : ℚ) else 0)
      = 1 / ((P.card.choose k : Nat) : ℚ) := by
    intro S hS
    rw [Finset.mem_filter, Finset.mem_powersetCard] at hS
    exact hunif S hS.1.1 hS.1.2
  rw [Finset.sum_congr rfl hs, Finset.sum_const, nsmul_eq_mul, card_with P huv]
  have : ((P.card.choose k : Nat) : ℚ) ≠ 0 := by
    have := Nat.choose_pos hk
    positivity
  field_simp

end

/-- The number of trials in `randomGraph(n, p)`. -/
theorem randomGraphP_eq (binomial : Int → Rand Int) {n : Nat} (hn : I64 n) (hl : I64 (n * (n - 1) : Int)) :
    randomGraphP (E := E) dir binomial n = binomial (n.choose 2 : Nat) >>= fun m => randomGraph dir n m := by
  have h1 : I64 ((n : Int) - 1) := by unfold I64 at *; omega
  have h2 : ((n : Int) * (n - 1)).tdiv 2 = (n.choose 2 : Nat) := by
    have e : gl false n = ((allPairs false n).card : Int) := by
      have h := graphLim_eq (dir := false) hn hl
      have h3 := two_gl (n := n)
      have := (C49_number n).2
      rw [this, Nat.choose_two_right]
      have e : ((n * (n - 1) : Nat) : Int) = n * (n - 1) := by
        cases n with
        | zero => simp
        | succ n => push_cast; simp
      omega
    rw [(C49_number n).2] at e
    rw [← e, Int.tdiv_eq_ediv_of_nonneg (le_trans gl_nonneg (gl_le (dir := true)))]
    unfold gl
    rw [if_neg (by simp)]
  unfold randomGraphP
  rw [chk_ok h1, Rand.lift_ok, Rand.bind_done_ok, chk_ok hl, Rand.lift_ok, Rand.bind_done_ok, h2]

section

attribute [local irreducible] randomGraph randomBipartite SatOk

/-- **C74**: whatever the law of `Random::binomial` is, as long as its results are in range: `randomGraph(n, p)` has exactly the edges `S` with the
probability that as many edges are drawn, divided by the number of sets of this size. -/
theorem C74_law (binomial : Int → Rand Int) (n : Nat) (hn : I64 n) (hl : I64 (n * (n - 1) : Int))
    (hb : SatOk (binomial (n.choose 2 : Nat)) fun x => 0 ≤ x ∧ x ≤ (n.choose 2 : Nat)) (S : Finset (Int × Int)) (hS : S ⊆ allPairs dir n) :
    probEdges (randomGraphP dir binomial n : Rand (Graph E)) dir n S
      = prob (binomial (n.choose 2 : Nat)) S.card / (((allPairs dir n).card.choose S.card : Nat) : ℚ) := by
  have hN : n.choose 2 ≤ (allPairs dir n).card := by
    cases dir with
    | false => rw [(C49_number n).2]
    | true =>
      rw [(C49_number n).1, Nat.choose_two_right]
      exact Nat.div_le_self _ _
  rw [← drawn_count (E := E) (r := fun k => randomGraph dir n k) (Finset.Subset.refl _)
    (fun k hk => SatOk.mono (C49_randomGraph n k hn hl hk) fun g ⟨_, T, h1, h2, h3, _⟩ => ⟨T, h1, h2, h3⟩)
    (fun S hS => C49_randomGraph_uniform n S.card hn hl S hS rfl) hN hb hS, randomGraphP_eq binomial hn hl, probEdges, expect_bind]
  refine expect_congr_ok hb fun x hx => ?_
  rw [Int.toNat_of_nonneg hx.1]
  rfl

/-- **C74**: the undirected `randomGraph(n, p)` is the graph of Erdős and Rényi: if `Random::binomial` has the binomial distribution (C73), every
edge exists independently with probability `p`. -/
theorem C74_erdosRenyi_partial (binomial : Int → Rand Int) (p : ℚ) (n : Nat) (hn : I64 n) (hl : I64 (n * (n - 1) : Int))
    (hb : SatOk (binomial (n.choose 2 : Nat)) fun x => 0 ≤ x ∧ x ≤ (n.choose 2 : Nat))
    (hlaw : ∀ k : Nat, k ≤ n.choose 2 →
      prob (binomial (n.choose 2 : Nat)) k = (n.choose 2).choose k * p ^ k * (1 - p) ^ (n.choose 2 - k))
    (S : Finset (Int × Int)) (hS : S ⊆ allPairs false n) :
    probEdges (randomGraphP false binomial n : Rand (Graph E)) false n S = ∏ e ∈ allPairs false n, if e ∈ S then p else 1 - p := by
  have hc := Finset.card_le_card hS
  have hc' : S.card ≤ n.choose 2 := by rw [← (C49_number n).2]; exact hc
  rw [C74_law binomial n hn hl hb S hS, hlaw _ hc', (C49_number n).2, Finset.prod_ite, Finset.prod_const, Finset.prod_const]
  have e1 : (allPairs false n).filter (· ∈ S) = S := by
    ext x
    simpa using fun h => hS h
  have e2 : ((allPairs false n).filter (· ∉ S)).card = n.choose 2 - S.card := by
    rw [← (C49_number n).2, ← Finset.card_sdiff_of_subset hS]
    congr 1
    ext x
    simp
  rw [e1, e2]
  have : (((n.choose 2).choose S.card : Nat) : ℚ) ≠ 0 := by
    have := Nat.choose_pos hc'
    positivity
  field_simp

/-- **C74**: the directed `randomGraph(n, p)` draws from half as many trials as there are edges: it never has more than half of the edges, and each
edge exists with half of the probability. -/
theorem C74_directed_refuted (binomial : Int → Rand Int) (n : Nat) (hn : I64 n) (hl : I64 (n * (n - 1) : Int))
    (hb : SatOk (binomial (n.choose 2 : Nat)) fun x => 0 ≤ x ∧ x ≤ (n.choose 2 : Nat)) :
    (SatOk (randomGraphP true binomial n : Rand (Graph E)) fun g => 2 * g.edgeCount ≤ n * (n - 1)) ∧
    ∀ p : ℚ, expect (binomial (n.choose 2 : Nat)) (fun x => (x : ℚ)) = n.choose 2 * p → ∀ u v, (u, v) ∈ allPairs true n →
      probEdge (randomGraphP true binomial n : Rand (Graph E)) u v = p / 2 := by
  have h2 : 2 * n.choose 2 = n * (n - 1) := by
    rw [Nat.choose_two_right]
    exact Nat.mul_div_cancel' (Nat.even_mul_pred_self n).two_dvd
  have hcard := (C49_number n).1
  have hsat : ∀ x : Int, 0 ≤ x ∧ x ≤ (n.choose 2 : Nat) → SatOk (randomGraph true (n : Int) x : Rand (Graph E)) fun g => g.edgeCount = x.toNat ∧
      ∃ S, S ⊆ allPairs true n ∧ S.card = x.toNat ∧ HasExactly g true n S := by
    intro x hx
    have h := C49_randomGraph (E := E) (dir := true) n x.toNat hn hl (by rw [hcard]; omega)
    rw [Int.toNat_of_nonneg hx.1] at h
    exact SatOk.mono h fun g ⟨h1, S, h3, h4, h5, _⟩ => ⟨by omega, S, h3, h4, h5⟩
  constructor
  · rw [randomGraphP_eq binomial hn hl]
    have h3 : ∀ x : Int, 0 ≤ x ∧ x ≤ (n.choose 2 : Nat) → SatOk (randomGraph true (n : Int) x : Rand (Graph E)) fun g => 2 * g.edgeCount ≤ n * (n - 1) := by
      intro x hx
      refine SatOk.mono (hsat x hx) fun g hg => ?_
      have e : ((n * (n - 1) : Nat) : Int) = n * (n - 1) := by
        cases n with
        | zero => simp
        | succ n => push_cast; simp
      have := hg.1
      omega
    unfold SatOk at h3 ⊢
    exact SatOk.bind hb h3
  · intro p hp u v huv
    rw [randomGraphP_eq binomial hn hl, probEdge, expect_bind]
    have h4 : expect (binomial (n.choose 2 : Nat)) (fun x => probEdge (randomGraph true (n : Int) x : Rand (Graph E)) u v)
        = expect (binomial (n.choose 2 : Nat)) fun x => (1 / ((n * (n - 1) : Nat) : ℚ)) * x := by
      refine expect_congr_ok hb fun x hx => ?_
      have := edge_given_count (E := E) (r := fun k => randomGraph true n k) (Finset.Subset.refl (allPairs true n)) (k := x.toNat) (by rw [hcard]; omega)
        (SatOk.mono (C49_randomGraph n x.toNat hn hl (by rw [hcard]; omega)) fun g ⟨_, T, h1, h2, h3, _⟩ => ⟨T, h1, h2, h3⟩)
        (fun S hS hk => C49_randomGraph_uniform n x.toNat hn hl S hS hk) huv
      rw [Int.toNat_of_nonneg hx.1, hcard] at this
      have e : ((x.toNat : Nat) : ℚ) = x := by
        have := Int.toNat_of_nonneg hx.1
        exact_mod_cast this
      rw [e] at this
      rw [one_div_mul_eq_div]
      exact this
    have h5 : (n.choose 2 : ℚ) ≠ 0 := by
      have := Finset.card_pos.2 ⟨_, huv⟩
      have h : 0 < n.choose 2 := by omega
      positivity
    have h6 : ((n * (n - 1) : Nat) : ℚ) = 2 * n.choose 2 := by rw [← h2]; push_cast; ring
    refine Eq.trans ?_ (h4.trans ?_)
    · rfl
    · rw [expect_smul, hp, h6]
      field_simp

/-- The number of trials in `randomBipartite(n, m, p)`. -/
theorem randomBipartiteP_eq (binomial : Int → Rand Int) {n m : Nat} (hl : I64 ((n * m : Nat) : Int)) :
    randomBipartiteP (E := E) dir binomial n m = binomial (n * m : Nat) >>= fun k => randomBipartite dir n m k := by
  unfold randomBipartiteP
  rw [← Nat.cast_mul, chk_ok hl, Rand.lift_ok, Rand.bind_done_ok]

/-- **C74**: the same for `randomBipartite(n, m, p)`. -/
theorem C74_bipartite_law (binomial : Int → Rand Int) (n m : Nat) (hn : I64 (n + m : Int)) (hl : I64 ((crossPairs dir n m).card : Int))
    (hb : SatOk (binomial (n * m : Nat)) fun x => 0 ≤ x ∧ x ≤ (n * m : Nat)) (S : Finset (Int × Int)) (hS : S ⊆ crossPairs dir n m) :
    probEdges (randomBipartiteP dir binomial n m : Rand (Graph E)) dir (n + m) S
      = prob (binomial (n * m : Nat)) S.card / (((crossPairs dir n m).card.choose S.card : Nat) : ℚ) := by
  have hN : n * m ≤ (crossPairs dir n m).card := by
    cases dir with
    | false => rw [(C56_number n m).2]
    | true =>
      rw [(C56_number n m).1]
      omega
  have hl' : I64 ((n * m : Nat) : Int) := i64_of_le i64_zero hl (by positivity) (by exact_mod_cast hN)
  rw [← drawn_count (E := E) (r := fun k => randomBipartite dir n m k) crossPairs_sub
    (fun k hk => SatOk.mono (C56_randomBipartite n m k hn hl hk) fun g ⟨_, T, h1, h2, h3, _⟩ => ⟨T, h1, h2, h3⟩)
    (fun S hS => C56_randomBipartite_uniform n m S.card hn hl S hS rfl) hN hb hS, randomBipartiteP_eq binomial hl', probEdges, expect_bind]
  refine expect_congr_ok hb fun x hx => ?_
  rw [Int.toNat_of_nonneg hx.1]
  rfl

/-- **C74**: in the undirected `randomBipartite(n, m, p)` every edge between the sides exists independently with probability `p`, if
`Random::binomial` has the binomial distribution. -/
theorem C74_bipartite_partial (binomial : Int → Rand Int) (p : ℚ) (n m : Nat) (hn : I64 (n + m : Int)) (hl : I64 ((n * m : Nat) : Int))
    (hb : SatOk (binomial (n * m : Nat)) fun x => 0 ≤ x ∧ x ≤ (n * m : Nat))
    (hlaw : ∀ k : Nat, k ≤ n * m → prob (binomial (n * m : Nat)) k = (n * m).choose k * p ^ k * (1 - p) ^ (n * m - k))
    (S : Finset (Int × Int)) (hS : S ⊆ crossPairs false n m) :
    probEdges (randomBipartiteP false binomial n m : Rand (Graph E)) false (n + m) S
      = ∏ e ∈ crossPairs false n m, if e ∈ S then p else 1 - p := by
  have hc := Finset.card_le_card hS
  have hc' : S.card ≤ n * m := by rw [← (C56_number n m).2]; exact hc
  rw [C74_bipartite_law binomial n m hn (by rw [(C56_number n m).2]; exact hl) hb S hS, hlaw _ hc', (C56_number n m).2, Finset.prod_ite,
    Finset.prod_const, Finset.prod_const]
  have e1 : (crossPairs false n m).filter (· ∈ S) = S := by
    ext x
    simpa using fun h => hS h
  have e2 : ((crossPairs false n m).filter (· ∉ S)).card = n * m - S.card := by
    rw [← (C56_number n m).2, ← Finset.card_sdiff_of_subset hS]
    congr 1
    ext x
    simp
  rw [e1, e2]
  have : (((n * m).choose S.card : Nat) : ℚ) ≠ 0 := by
    have := Nat.choose_pos hc'
    positivity
  field_simp

/-- **C74**: the directed `randomBipartite(n, m, p)` has each edge with half of the probability, too. -/
theorem C74_bipartite_directed_refuted (binomial : Int → Rand Int) (n m : Nat) (hn : I64 (n + m : Int)) (hl : I64 ((crossPairs true n m).card : Int))
    (hb : SatOk (binomial (n * m : Nat)) fun x => 0 ≤ x ∧ x ≤ (n * m : Nat)) (p : ℚ)
    (hp : expect (binomial (n * m : Nat)) (fun x => (x : ℚ)) = (n * m : Nat) * p) {u v : Int} (huv : (u, v) ∈ crossPairs true n m) :
    probEdge (randomBipartiteP true binomial n m : Rand (Graph E)) u v = p / 2 := by
  have hcard := (C56_number n m).1
  have hl' : I64 ((n * m : Nat) : Int) := i64_of_le i64_zero hl (by positivity) (by rw [hcard]; push_cast; nlinarith [Nat.zero_le (n * m)])
  rw [randomBipartiteP_eq binomial hl', probEdge, expect_bind]
  have h4 : expect (binomial (n * m : Nat)) (fun x => probEdge (randomBipartite true (n : Int) m x : Rand (Graph E)) u v)
      = expect (binomial (n * m : Nat)) fun x => (1 / ((2 * (n * m) : Nat) : ℚ)) * x := by
    refine expect_congr_ok hb fun x hx => ?_
    have := edge_given_count (E := E) (r := fun k => randomBipartite true n m k) (crossPairs_sub (dir := true) (n := n) (m := m)) (k := x.toNat)
      (by rw [hcard]; omega)
      (SatOk.mono (C56_randomBipartite n m x.toNat hn hl (by rw [hcard]; omega)) fun g ⟨_, T, h1, h2, h3, _⟩ => ⟨T, h1, h2, h3⟩)
      (fun S hS hk => C56_randomBipartite_uniform n m x.toNat hn hl S hS hk) huv
    rw [Int.toNat_of_nonneg hx.1, hcard] at this
    have e : ((x.toNat : Nat) : ℚ) = x := by
      have := Int.toNat_of_nonneg hx.1
      exact_mod_cast this
    rw [e] at this
    rw [one_div_mul_eq_div]
    exact this
  have h5 : ((n * m : Nat) : ℚ) ≠ 0 := by
    have := Finset.card_pos.2 ⟨_, huv⟩
    have h : 0 < n * m := by omega
    positivity
  have h6 : ((2 * (n * m) : Nat) : ℚ) = 2 * (n * m : Nat) := by push_cast; ring
  refine Eq.trans ?_ (h4.trans ?_)
  · rfl
  · rw [expect_smul, hp, h6]
    field_simp

end

/-- From 3037000501 vertices on, the product `n * (n - 1)` overflows. -/
theorem C74_overflow (binomial : Int → Rand Int) (n : Nat) (hn : I64 n) (hl : ¬I64 (n * (n - 1) : Int)) :
    (randomGraphP dir binomial n : Rand (Graph E)) = .done (.error .ub) := by
  have h1 : I64 ((n : Int) - 1) := by unfold I64 at *; omega
  unfold randomGraphP
  rw [chk_ok h1, Rand.lift_ok, Rand.bind_done_ok, chk, if_neg hl]
  rfl

/-! ## Example -/

/-- A binomial distribution: the sum of `t` coins. -/
private def coins : Nat → Rand Int
  | 0 => pure 0
  | t + 1 => .coin fun b => do
    let x ← coins t
    pure (if b then x + 1 else x)

private def fair (t : Int) : Rand Int := coins t.toNat

private theorem fair_range : SatOk (fair ((3 : Nat).choose 2 : Nat)) fun x => 0 ≤ x ∧ x ≤ ((3 : Nat).choose 2 : Nat) := by
  show SatOk (coins 3) fun x => 0 ≤ x ∧ x ≤ 3
  intro a b c
  cases a <;> cases b <;> cases c <;> exact ⟨_, rfl, by decide⟩

/-- With fair coins every graph with three vertices has probability 1/8. -/
example (S : Finset (Int × Int)) (hS : S ⊆ allPairs false 3) :
    probEdges (randomGraphP false fair (3 : Nat) : Rand (Graph Int)) false 3 S = 1 / 8 := by
  rw [C74_erdosRenyi_partial fair (1 / 2) 3 (by unfold I64; omega) (by unfold I64; omega) fair_range ?_ S hS]
  · rw [show (1 : ℚ) - 1 / 2 = 1 / 2 by norm_num]
    simp only [ite_self, Finset.prod_const, (C49_number 3).2]
    rw [show (3 : Nat).choose 2 = 3 from rfl]
    norm_num
  · decide +kernel

/-- With fair coins, a directed graph with three vertices has each edge with probability 1/4. -/
example : probEdge (randomGraphP true fair (3 : Nat) : Rand (Graph Int)) 2 0 = 1 / 4 := by
  have := (C74_directed_refuted (E := Int) fair 3 (by unfold I64; omega) (by unfold I64; omega) fair_range).2 (1 / 2) (by decide +kernel) 2 0
    (by decide)
  rw [this]
  norm_num

end ICPC.Props
