import Verif.Model.RandomGraphP
import Verif.Lemmas.RandomGraph
import Mathlib.Algebra.Order.Floor.Ring
import Mathlib.Data.Rat.Floor
import Mathlib.Algebra.Order.BigOperators.Group.LocallyFinite

/-!
# C75: `randomGrowingGraph`
-/

namespace ICPC.Props

open ICPC ICPC.Gen Spec.EdgeMap

variable {E : Type} [Inhabited E] {n : Nat}

/-- The number of neighbours of `i` that are smaller than `i`. -/
def smaller (S : Finset (Int × Int)) (i : Int) : Nat := (S.filter fun p => p.2 = i).card

/-- The edges from `i` to `t`. -/
private def nbrs (t : List Int) (i : Int) : Finset (Int × Int) := t.toFinset.image fun j => (j, i)

private theorem mem_nbrs {t : List Int} {i : Int} {p : Int × Int} : p ∈ nbrs t i ↔ p.1 ∈ t ∧ p.2 = i := by
  unfold nbrs
  simp only [Finset.mem_image, List.mem_toFinset]
  constructor
  · rintro ⟨j, hj, rfl⟩
    exact ⟨hj, rfl⟩
  · rintro ⟨h1, rfl⟩
    exact ⟨p.1, h1, rfl⟩

private theorem grow_step {g : Graph E} {S0 : Finset (Int × Int)} (h : Good g false 0 n (ofRel false fun u v => (u, v) ∈ S0)) {i : Int}
    (hi : i < n) (t : List Int) (ht : ∀ y ∈ t, 0 ≤ y ∧ y < i) :
    ∃ g', addPairs g (t.map fun j => (i, j)) = .ok g' ∧ Good g' false 0 n (ofRel false fun u v => (u, v) ∈ S0 ∪ nbrs t i) := by
  obtain ⟨g', h1, m', h2, h3, h4⟩ := h.addPairs (t.map fun j => (i, j)) (by
    intro p hp
    obtain ⟨j, hj, rfl⟩ := List.mem_map.1 hp
    have := ht j hj
    exact ⟨⟨by simp only; omega, by simp only; omega⟩, ⟨by simp only; omega, by simp only; omega⟩, by simp only; omega⟩)
  refine ⟨g', h1, ?_⟩
  have e : m' = ofRel false fun u v => (u, v) ∈ S0 ∪ nbrs t i := by
    refine map_ext ?_ ?_ ofRel_default
    · intro u v
      rw [h3, ofRel_isSome, ofRel_isSome]
      simp only [true_and, Finset.mem_union, mem_nbrs, List.mem_map]
      constructor
      · rintro ((h | h) | ⟨p, ⟨j, hj, rfl⟩, h⟩)
        · exact .inl (.inl h)
        · exact .inr (.inl h)
        · rcases h with ⟨h5, h6⟩ | ⟨_, h5, h6⟩
          · simp only at h5 h6
            subst h5 h6
            exact .inr (.inr ⟨hj, rfl⟩)
          · simp only at h5 h6
            subst h5 h6
            exact .inl (.inr ⟨hj, rfl⟩)
      · rintro ((h | ⟨h5, h6⟩) | (h | ⟨h5, h6⟩))
        · exact .inl (.inl h)
        · exact .inr ⟨_, ⟨u, h5, rfl⟩, .inr ⟨rfl, h6.symm, rfl⟩⟩
        · exact .inl (.inr h)
        · exact .inr ⟨_, ⟨v, h5, rfl⟩, .inl ⟨h6.symm, rfl⟩⟩
    · intro u v d hd
      rcases h4 u v d hd with h | h
      · exact ofRel_default u v d h
      · exact h
  rw [e] at h2
  exact h2

section

attribute [local irreducible] distinct

private theorem grow_sat {degree : Int → Rand Int} (hn : I64 n) {D : Int → Int → Prop}
    (hd : ∀ i : Int, 0 ≤ i → i < n → SatOk (degree i) fun d => 0 ≤ d ∧ d ≤ i ∧ D i d) (fuel : Nat) (i : Int) (hi : 0 ≤ i) (hfuel : i + fuel = n)
    (S0 : Finset (Int × Int)) (hS0 : S0 ⊆ allPairs false n) (hS1 : ∀ p ∈ S0, p.2 < i) (hD : ∀ j : Int, 0 ≤ j → j < i → D j (smaller S0 j)) (g : Graph E)
    (hg : Good g false 0 n (ofRel false fun u v => (u, v) ∈ S0)) :
    SatOk (growLoop degree n fuel i g) fun g' => ∃ S, S ⊆ allPairs false n ∧ (∀ j : Int, 0 ≤ j → j < n → D j (smaller S j)) ∧
      Good g' false 0 n (ofRel false fun u v => (u, v) ∈ S) := by
  induction fuel generalizing i S0 g with
  | zero => exact satOk_done ⟨S0, hS0, fun j h1 h2 => hD j h1 (by omega), hg⟩
  | succ fuel ih =>
    unfold growLoop
    rw [if_pos (by omega)]
    refine SatOk.bind (hd i hi (by omega)) ?_
    rintro d ⟨d1, d2, d3⟩
    have hI : I64 i := i64_of_le i64_zero hn hi (by omega)
    refine SatOk.bind (distinct_nodup i64_zero hI d1 (by omega)) ?_
    rintro t ⟨h1, h2, h3⟩
    obtain ⟨g', h4, h5⟩ := grow_step hg (by omega) t h3
    rw [h4, Rand.lift_ok, Rand.bind_done_ok]
    refine ih (i + 1) (by omega) (by push_cast at hfuel; omega) (S0 ∪ nbrs t i) ?_ ?_ ?_ g' h5
    · intro p hp
      rcases Finset.mem_union.1 hp with hp | hp
      · exact hS0 hp
      · rw [mem_nbrs] at hp
        have := h3 _ hp.1
        rw [mem_allPairs]
        unfold In
        omega
    · intro p hp
      rcases Finset.mem_union.1 hp with hp | hp
      · have := hS1 p hp
        omega
      · rw [mem_nbrs] at hp
        omega
    · intro j hj0 hj
      unfold smaller
      rw [Finset.filter_union]
      rcases lt_or_eq_of_le (show j ≤ i by omega) with hlt | rfl
      · have e : (nbrs t i).filter (fun p => p.2 = j) = ∅ := by
          rw [Finset.filter_eq_empty_iff]
          intro p hp
          rw [mem_nbrs] at hp
          omega
        rw [e, Finset.union_empty]
        exact hD j hj0 hlt
      · have e : S0.filter (fun p => p.2 = j) = ∅ := by
          rw [Finset.filter_eq_empty_iff]
          intro p hp
          have := hS1 p hp
          omega
        have e2 : (nbrs t j).filter (fun p => p.2 = j) = nbrs t j := by
          rw [Finset.filter_eq_self]
          intro p hp
          rw [mem_nbrs] at hp
          exact hp.2
        rw [e, e2, Finset.empty_union]
        unfold nbrs
        rw [Finset.card_image_of_injective _ (fun a b h => (Prod.mk.inj h).1), List.toFinset_card_of_nodup h2, h1, Int.toNat_of_nonneg d1]
        exact d3

private theorem split_filter {S S0 : Finset (Int × Int)} {i : Int} (hS1 : ∀ p ∈ S0, p.2 < i) (t : List Int) :
    (S.filter fun p => p.2 < i + 1) = S0 ∪ nbrs t i ↔ (S.filter fun p => p.2 < i) = S0 ∧ t.toFinset = (S.filter fun p => p.2 = i).image Prod.fst := by
  constructor
  · intro h
    constructor
    · ext p
      have := congrArg (p ∈ ·) h
      simp only [Finset.mem_filter, Finset.mem_union, mem_nbrs, eq_iff_iff] at this
      rw [Finset.mem_filter]
      constructor
      · rintro ⟨h1, h2⟩
        rcases this.1 ⟨h1, by omega⟩ with h3 | h3
        · exact h3
        · omega
      · intro h1
        exact ⟨(this.2 (.inl h1)).1, hS1 p h1⟩
    · ext j
      have := congrArg ((j, i) ∈ ·) h
      simp only [Finset.mem_filter, Finset.mem_union, mem_nbrs, eq_iff_iff, and_true] at this
      simp only [List.mem_toFinset, Finset.mem_image, Finset.mem_filter]
      constructor
      · intro h1
        exact ⟨(j, i), ⟨(this.2 (.inr h1)).1, rfl⟩, rfl⟩
      · rintro ⟨p, ⟨h1, rfl⟩, rfl⟩
        rcases this.1 ⟨h1, by omega⟩ with h3 | h3
        · have := hS1 _ h3
          simp only at this
          omega
        · exact h3
  · rintro ⟨rfl, h⟩
    ext p
    have := congrArg (p.1 ∈ ·) h
    simp only [List.mem_toFinset, Finset.mem_image, Finset.mem_filter, eq_iff_iff] at this
    simp only [Finset.mem_filter, Finset.mem_union, mem_nbrs]
    rw [this]
    constructor
    · rintro ⟨h1, h2⟩
      rcases lt_or_eq_of_le (show p.2 ≤ i by omega) with h3 | h3
      · exact .inl ⟨h1, h3⟩
      · exact .inr ⟨⟨p, ⟨h1, h3⟩, rfl⟩, h3⟩
    · rintro (⟨h1, h2⟩ | ⟨⟨q, ⟨h1, h2⟩, h3⟩, h4⟩)
      · exact ⟨h1, by omega⟩
      · have : q = p := Prod.ext h3 (h2.trans h4.symm)
        subst this
        exact ⟨h1, by omega⟩

private theorem grow_prob {degree : Int → Rand Int} (hn : I64 n)
    (hd : ∀ i : Int, 0 ≤ i → i < n → SatOk (degree i) fun d => 0 ≤ d ∧ d ≤ i) (S : Finset (Int × Int)) (hS : S ⊆ allPairs false n) (fuel : Nat)
    (i : Nat) (hfuel : i + fuel = n) (S0 : Finset (Int × Int)) (hS0 : S0 ⊆ allPairs false n) (hS1 : ∀ p ∈ S0, p.2 < i) (g : Graph E)
    (hg : Good g false 0 n (ofRel false fun u v => (u, v) ∈ S0)) :
    probEdges (growLoop degree n fuel i g) false n S
      = if (S.filter fun p => p.2 < (i : Int)) = S0 then
          ∏ j ∈ Finset.Ico i n, prob (degree j) (smaller S j) / ((j.choose (smaller S j) : Nat) : ℚ) else 0 := by
  classical
  induction fuel generalizing i S0 g with
  | zero =>
    have hi : i = n := by omega
    subst hi
    have e : (S.filter fun p => p.2 < (i : Int)) = S := by
      rw [Finset.filter_eq_self]
      intro p hp
      exact (mem_allPairs.1 (hS hp)).2.1.2.trans_eq (by simp)
    rw [e, Finset.Ico_self, Finset.prod_empty]
    show (if HasExactly g false i S then (1 : ℚ) else 0) = _
    refine if_congr ⟨fun h => HasExactly.unique hS hS0 h hg.hasExactly, ?_⟩ rfl rfl
    rintro rfl
    exact hg.hasExactly
  | succ fuel ih =>
    have hi : (i : Int) < n := by omega
    have hI : I64 (i : Int) := i64_of_le i64_zero hn (by omega) (by omega)
    unfold growLoop
    rw [if_pos hi, probEdges, expect_bind]
    have hin := hd i (by omega) hi
    set N := (S.filter fun p => p.2 = (i : Int)).image Prod.fst with hN
    have hNc : N.card = smaller S i := by
      rw [hN, Finset.card_image_of_injOn]
      · rfl
      · intro a ha b hb hab
        simp only [Finset.coe_filter, Set.mem_ofPred_eq] at ha hb
        exact Prod.ext hab (ha.2.trans hb.2.symm)
    have hNI : N ⊆ Finset.Ico 0 (i : Int) := by
      intro x hx
      rw [hN, Finset.mem_image] at hx
      obtain ⟨p, hp, rfl⟩ := hx
      rw [Finset.mem_filter] at hp
      have h1 := mem_allPairs.1 (hS hp.1)
      have h2 := h1.2.2.2 rfl
      have h3 := h1.1.1
      rw [Finset.mem_Ico]
      omega
    have step : ∀ d : Int, 0 ≤ d ∧ d ≤ i → expect (distinct d 0 (i : Int) >>= fun neighbours =>
        Rand.lift (addPairs g (neighbours.map fun j => ((i : Int), j))) >>= fun res => growLoop degree n fuel (i + 1) res)
          (fun g => if HasExactly g false n S then 1 else 0)
        = (if (S.filter fun p => p.2 < (i : Int)) = S0 then
          ∏ j ∈ Finset.Ico (i + 1) n, prob (degree j) (smaller S j) / ((j.choose (smaller S j) : Nat) : ℚ) else 0)
          / ((i.choose (smaller S i) : Nat) : ℚ) * (if d = smaller S i then 1 else 0) := by
      rintro d ⟨d1, d2⟩
      have hdn := distinct_nodup (count := d) (lower := 0) (upper := (i : Int)) i64_zero hI d1 (by omega)
      rw [expect_bind]
      have h1 : ∀ t : List Int, (t.length = d.toNat ∧ t.Nodup ∧ ∀ y ∈ t, 0 ≤ y ∧ y < (i : Int)) →
          expect (Rand.lift (addPairs g (t.map fun j => ((i : Int), j))) >>= fun res => growLoop degree n fuel (i + 1) res)
            (fun g => if HasExactly g false n S then 1 else 0)
          = (if (S.filter fun p => p.2 < (i : Int)) = S0 then
            ∏ j ∈ Finset.Ico (i + 1) n, prob (degree j) (smaller S j) / ((j.choose (smaller S j) : Nat) : ℚ) else 0) *
            (if t.toFinset = N then 1 else 0) := by
        rintro t ⟨h1, h2, h3⟩
        obtain ⟨g', h4, h5⟩ := grow_step hg hi t h3
        rw [h4, Rand.lift_ok, Rand.bind_done_ok]
        have := ih (i + 1) (by omega) (S0 ∪ nbrs t i) ?_ ?_ g' h5
        · rw [probEdges] at this
          push_cast at this
          rw [this]
          simp only [split_filter hS1 t, ← hN]
          by_cases c1 : (S.filter fun p => p.2 < (i : Int)) = S0 <;> by_cases c2 : t.toFinset = N <;> simp [c1, c2]
        · intro p hp
          rcases Finset.mem_union.1 hp with hp | hp
          · exact hS0 hp
          · rw [mem_nbrs] at hp
            have := h3 _ hp.1
            rw [mem_allPairs]
            unfold In
            omega
        · intro p hp
          rcases Finset.mem_union.1 hp with hp | hp
          · have := hS1 p hp
            push_cast
            omega
          · rw [mem_nbrs] at hp
            push_cast
            omega
      rw [expect_congr_ok hdn h1, expect_smul]
      by_cases hc : d = smaller S i
      · have := distinct_set (count := d) (lower := 0) (upper := (i : Int)) i64_zero hI d1 (by omega) N hNI (by rw [hNc, hc]; simp)
        rw [this, if_pos hc, hc]
        simp only [Int.sub_zero, Int.toNat_natCast]
        ring
      · rw [if_neg hc, mul_zero]
        refine mul_eq_zero_of_right _ ?_
        rw [expect_congr_ok hdn (h := fun _ => 0), expect_zero]
        rintro t ⟨h1, h2, h3⟩
        rw [if_neg]
        intro h
        apply hc
        rw [← hNc, ← h, List.toFinset_card_of_nodup h2, h1]
        omega
    rw [expect_congr_ok hin step, expect_smul]
    rw [show expect (degree i) (fun d => if d = (smaller S i : Int) then (1 : ℚ) else 0) = prob (degree i) (smaller S i) from rfl]
    rw [Finset.prod_eq_prod_Ico_succ_bot (by omega : i < n)]
    split
    · ring
    · ring

section

attribute [local irreducible] SatOk

/-- **C75**: `randomGrowingGraph` always returns a simple graph with vertices `[0, n)`, and every vertex has as many smaller neighbours as was
drawn for it. -/
theorem C75_growing (degree : Int → Rand Int) (hn : I64 n) (D : Int → Int → Prop)
    (hd : ∀ i : Int, 0 ≤ i → i < n → SatOk (degree i) fun d => 0 ≤ d ∧ d ≤ i ∧ D i d) :
    SatOk (randomGrowingGraph degree n : Rand (Graph E)) fun g => ∃ S, S ⊆ allPairs false n ∧ (∀ i : Int, 0 ≤ i → i < n → D i (smaller S i)) ∧
      HasExactly g false n S ∧ g.edgeCount = S.card ∧ Agrees g false 0 n (ofRel false fun u v => (u, v) ∈ S) := by
  obtain ⟨g, res, h1, h2, h3⟩ := newPairs (E := E) (dir := false) hn [] (R := fun u v => (u, v) ∈ (∅ : Finset (Int × Int))) (by simp) (by simp)
  unfold randomGrowingGraph
  rw [h1, Rand.lift_ok, Rand.bind_done_ok, Int.toNat_natCast]
  cases h2
  refine SatOk.mono (grow_sat hn hd n 0 le_rfl (by omega) ∅ (by simp) (by simp) (fun j h1 h2 => by omega) g h3) ?_
  rintro g ⟨S, h4, h5, h6⟩
  exact ⟨S, h4, h5, h6.hasExactly, h6.edgeCount_card S h4, h6.agrees⟩

end

/-- **C75**: the numbers of smaller neighbours are independent with the law of `degree`, and given these numbers all graphs are equally likely. -/
theorem C75_law_partial (degree : Int → Rand Int) (hn : I64 n) (hd : ∀ i : Int, 0 ≤ i → i < n → SatOk (degree i) fun d => 0 ≤ d ∧ d ≤ i)
    (S : Finset (Int × Int)) (hS : S ⊆ allPairs false n) :
    probEdges (randomGrowingGraph degree n : Rand (Graph E)) false n S
      = ∏ i ∈ Finset.range n, prob (degree i) (smaller S i) / ((i.choose (smaller S i) : Nat) : ℚ) := by
  obtain ⟨g, res, h1, h2, h3⟩ := newPairs (E := E) (dir := false) hn [] (R := fun u v => (u, v) ∈ (∅ : Finset (Int × Int))) (by simp) (by simp)
  unfold randomGrowingGraph
  rw [h1, Rand.lift_ok, Rand.bind_done_ok, Int.toNat_natCast]
  cases h2
  have := grow_prob hn hd S hS n 0 (by omega) ∅ (by simp) (by simp) g h3
  rw [Nat.cast_zero] at this
  rw [this, if_pos, Finset.range_eq_Ico]
  rw [Finset.filter_eq_empty_iff]
  intro p hp
  have := (mem_allPairs.1 (hS hp)).2.1.1
  omega

end

/-- **C75**: `Integer deg = p * Random::real(0, i+1)` is a possible number of smaller neighbours (in exact arithmetic). -/
theorem C75_degree (p x : ℚ) (i : Nat) (hp0 : 0 ≤ p) (hp1 : p ≤ 1) (hx0 : 0 ≤ x) (hx : x < i + 1) : 0 ≤ ⌊p * x⌋ ∧ ⌊p * x⌋ ≤ i := by
  constructor
  · exact Int.floor_nonneg.2 (mul_nonneg hp0 hx0)
  · have : p * x < i + 1 := lt_of_le_of_lt (mul_le_of_le_one_left hx0 hp1) hx
    have : ⌊p * x⌋ < (i : Int) + 1 := Int.floor_lt.2 (by push_cast; exact this)
    omega

/-- Vertices with a uniform number of smaller neighbours. -/
example : probEdges (randomGrowingGraph (fun i => integer 0 (i + 1)) (3 : Nat) : Rand (Graph Int)) false 3 {(0, 1), (1, 2)} = 1 / 12 := by
  have hd : ∀ i : Int, 0 ≤ i → i < (3 : Nat) → SatOk (integer 0 (i + 1)) fun d => 0 ≤ d ∧ d ≤ i := by
    intro i h1 h2
    rw [integer_eq i64_zero (by unfold I64; omega) (by omega)]
    refine ⟨i64_zero, by unfold I64; omega, by omega, fun v h3 h4 => ⟨v, rfl, by omega⟩⟩
  rw [C75_law_partial _ (by unfold I64; omega) hd _ (by decide)]
  decide +kernel

end ICPC.Props
