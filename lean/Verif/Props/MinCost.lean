import Verif.Lemmas.McTransport

/-!
# C99: cheapest flows in the network of `mcmfWorstcase`
-/

namespace ICPC.Props

open ICPC ICPC.Gen Spec.EdgeMap Spec.Flow ICPC.Mc

/-- What `findEdge` says about the cost. -/
def costOf (g : Graph (Int × Int)) (u v : Int) : Int :=
  match g.findEdge u v with
  | .ok (some e) => e.data.2
  | _ => 0

theorem Holds.cost {g : Graph (Int × Int)} {N L : Nat} {R : Int → Int → Int × Int → Prop} (h : Holds g N R L) {u v : Int} {d : Int × Int}
    (hu : u ∈ vertices N) (hv : v ∈ vertices N) (hd : R u v d) : costOf g u v = d.2 := by
  obtain ⟨m, h1, h2, -⟩ := h
  unfold costOf
  rw [h1.agrees.find, if_pos ⟨mem_vertices.1 hu, mem_vertices.1 hv⟩, (h2 u v d).2 hd]
  rfl

theorem Holds.cost_zero {g : Graph (Int × Int)} {N L : Nat} {R : Int → Int → Int × Int → Prop} (h : Holds g N R L) {u v : Int}
    (hu : u ∈ vertices N) (hv : v ∈ vertices N) (hd : ∀ d, ¬R u v d) : costOf g u v = 0 := by
  obtain ⟨m, h1, h2, -⟩ := h
  unfold costOf
  rw [h1.agrees.find, if_pos ⟨mem_vertices.1 hu, mem_vertices.1 hv⟩]
  cases hc : m u v with
  | none => rfl
  | some d => exact absurd ((h2 u v d).1 hc) (hd d)

/-- Source, first side, second side, sink. -/
theorem sum_vertices (n : Nat) (h : Int → Int) :
    ∑ w ∈ vertices (2 * n + 2), h w = h 0 + ∑ i ∈ Finset.range n, h (i + 1) + ∑ j ∈ Finset.range n, h (n + 1 + j) + h (2 * n + 1) := by
  have h1 : ∑ w ∈ vertices (2 * n + 2), h w = ∑ k ∈ Finset.range (2 * n + 2), h k := by
    refine (Finset.sum_nbij (fun k : Nat => (k : Int)) (fun k hk => ?_) (fun a _ b _ e => by simpa using e) (fun w hw => ?_) fun _ _ => rfl).symm
    · have := Finset.mem_range.1 hk
      rw [mem_vertices]; unfold In; push_cast; omega
    · rw [Finset.mem_coe, mem_vertices] at hw; unfold In at hw
      exact ⟨w.toNat, by rw [Finset.mem_coe, Finset.mem_range]; omega, by show (w.toNat : Int) = w; omega⟩
  rw [h1, Finset.sum_range_succ, Finset.sum_range_succ', show 2 * n = n + n by ring, Finset.sum_range_add]
  push_cast
  rw [show (n : Int) + n + 1 = 2 * n + 1 by ring, add_comm _ (h 0), ← add_assoc]
  congr 2
  refine Finset.sum_congr rfl fun j _ => ?_
  congr 1
  ring

section

variable {g : Graph (Int × Int)} {n L : Nat} (h : Holds g (2 * n + 2) (McEdge n) L)

theorem mem_mc (n : Nat) (x : Int) : x ∈ vertices (2 * n + 2) ↔ 0 ≤ x ∧ x < 2 * n + 2 := by
  rw [mem_vertices]; unfold In; push_cast; omega

include h in
theorem mc_nonneg : (∀ u ∈ vertices (2 * n + 2), ∀ v ∈ vertices (2 * n + 2), 0 ≤ capacityOf g u v) ∧
    ∀ u ∈ vertices (2 * n + 2), ∀ v ∈ vertices (2 * n + 2), 0 ≤ costOf g u v := by
  refine ⟨fun u hu v hv => ?_, fun u hu v hv => ?_⟩ <;> by_cases he : ∃ d, McEdge n u v d
  · obtain ⟨d, hd⟩ := he
    rw [h.cap hu hv hd]
    rcases hd with ⟨h1, h2, h3, rfl⟩ | ⟨h1, h2, rfl⟩ | ⟨h1, h2, h3, h4, h5, rfl⟩ | ⟨h1, h2, h3, rfl⟩
    · exact sup_nonneg (by omega)
    · positivity
    · positivity
    · exact dem_nonneg _
  · rw [h.cap_zero hu hv fun d hd => he ⟨d, hd⟩]
  · obtain ⟨d, hd⟩ := he
    rw [h.cost hu hv hd]
    rcases hd with ⟨h1, h2, h3, rfl⟩ | ⟨h1, h2, rfl⟩ | ⟨h1, h2, h3, h4, h5, rfl⟩ | ⟨h1, h2, h3, rfl⟩
    · exact le_refl _
    · exact le_refl _
    · have : (1 : Int) ≤ 2 ^ (max (u - 1) (v - n - 1)).toNat := one_le_pow₀ (by norm_num)
      show 0 ≤ 2 ^ (max (u - 1) (v - n - 1)).toNat - 1
      omega
    · exact le_refl _
  · rw [h.cost_zero hu hv fun d hd => he ⟨d, hd⟩]

/-- The costs, with nothing said about pairs without an edge. -/
theorem mc_costs (f : Int → Int → Int) (hn : 2 ≤ n) (h : Holds g (2 * n + 2) (McEdge n) L) (hz : ∀ i : Nat, i < n → i ≠ 0 → f (i + 1) (n + 1 + i) = 0) :
    flowCost (vertices (2 * n + 2)) (costOf g) f = price n fun i j => f (i + 1) (n + 1 + j) := by
  have mem := mem_mc n
  have zero : ∀ u v : Int, 0 ≤ u → u < 2 * n + 2 → 0 ≤ v → v < 2 * n + 2 → ¬(1 ≤ u ∧ u ≤ n ∧ n + 1 ≤ v ∧ v ≤ 2 * n) → costOf g u v = 0 := by
    intro u v h1 h2 h3 h4 h5
    by_cases he : ∃ d, McEdge n u v d
    · obtain ⟨d, hd⟩ := he
      rw [h.cost ((mem u).2 ⟨h1, h2⟩) ((mem v).2 ⟨h3, h4⟩) hd]
      rcases hd with ⟨-, -, -, rfl⟩ | ⟨h6, h7, rfl⟩ | ⟨h6, h7, h8, h9, -⟩ | ⟨-, -, -, rfl⟩
      · rfl
      · rfl
      · omega
      · rfl
    · exact h.cost_zero ((mem u).2 ⟨h1, h2⟩) ((mem v).2 ⟨h3, h4⟩) fun d hd => he ⟨d, hd⟩
  have row : ∀ u : Int, 0 ≤ u → u < 2 * n + 2 → ¬(1 ≤ u ∧ u ≤ n) → ∑ v ∈ vertices (2 * n + 2), f u v * costOf g u v = 0 := by
    intro u h1 h2 h3
    refine Finset.sum_eq_zero fun v hv => ?_
    have := (mem v).1 hv
    rw [zero u v h1 h2 this.1 this.2 (by omega), mul_zero]
  unfold flowCost
  rw [sum_vertices n fun u => ∑ v ∈ vertices (2 * n + 2), f u v * costOf g u v, row 0 (by omega) (by omega) (by omega),
    row (2 * n + 1) (by omega) (by omega) (by omega), Finset.sum_eq_zero (f := fun j : Nat => ∑ v ∈ vertices (2 * n + 2), f (n + 1 + j) v * costOf g (n + 1 + j) v)
      (fun j hj => by have := Finset.mem_range.1 hj; exact row _ (by omega) (by omega) (by omega)), zero_add, add_zero, add_zero]
  unfold price
  refine Finset.sum_congr rfl fun i hi => ?_
  have hi := Finset.mem_range.1 hi
  rw [sum_vertices n fun v => f (i + 1) v * costOf g (i + 1) v, zero _ 0 (by omega) (by omega) (by omega) (by omega) (by omega),
    zero _ (2 * n + 1) (by omega) (by omega) (by omega) (by omega) (by omega),
    Finset.sum_eq_zero (f := fun i' : Nat => f (i + 1) (i' + 1) * costOf g (i + 1) (i' + 1))
      (fun j hj => by have := Finset.mem_range.1 hj; rw [zero _ _ (by omega) (by omega) (by omega) (by omega) (by omega), mul_zero])]
  simp only [mul_zero, zero_add, add_zero]
  refine Finset.sum_congr rfl fun j hj => ?_
  have hj := Finset.mem_range.1 hj
  by_cases hij : i = j
  · subst hij
    by_cases h0 : i = 0
    · subst h0
      rw [h.cost ((mem _).2 (by constructor <;> norm_num; omega)) ((mem _).2 (by constructor <;> push_cast <;> omega))
        (d := (5 * 2 ^ (n : Int).toNat / 4, 0)) (Or.inr (Or.inl ⟨by simp, by simp, rfl⟩))]
      simp
    · rw [hz i hi h0, zero_mul, zero_mul]
  · rw [h.cost ((mem _).2 (by omega)) ((mem _).2 (by omega)) (Or.inr (Or.inr (Or.inl ⟨by omega, by omega, by omega, by omega, by omega, rfl⟩)))]
    show _ * (2 ^ (max ((i : Int) + 1 - 1) (n + 1 + j - n - 1)).toNat - 1) = _ * (2 ^ max i j - 1)
    rw [show (max ((i : Int) + 1 - 1) (n + 1 + j - n - 1)).toNat = max i j by omega]

include h in
/-- Every flow is a plan. -/
theorem mc_plan (hn : 2 ≤ n) {f : Int → Int → Int} (hf : IsFlow (vertices (2 * n + 2)) (capacityOf g) 0 (2 * n + 1) f) :
    Plan n (fun i j => f (i + 1) (n + 1 + j)) ∧ value (vertices (2 * n + 2)) 0 f = total n (fun i j => f (i + 1) (n + 1 + j)) ∧
      flowCost (vertices (2 * n + 2)) (costOf g) f = price n fun i j => f (i + 1) (n + 1 + j) := by
  have mem := mem_mc n
  have zero : ∀ u v : Int, 0 ≤ u → u < 2 * n + 2 → 0 ≤ v → v < 2 * n + 2 → (∀ d, ¬McEdge n u v d) → f u v = 0 := by
    intro u v h1 h2 h3 h4 h5
    have a := hf.nonneg u ((mem u).2 ⟨h1, h2⟩) v ((mem v).2 ⟨h3, h4⟩)
    have b := hf.le_cap u ((mem u).2 ⟨h1, h2⟩) v ((mem v).2 ⟨h3, h4⟩)
    rw [h.cap_zero ((mem u).2 ⟨h1, h2⟩) ((mem v).2 ⟨h3, h4⟩) h5] at b
    omega
  have no : ∀ u v : Int, ¬((u = 0 ∧ 1 ≤ v ∧ v ≤ n) ∨ (1 ≤ u ∧ u ≤ n ∧ n + 1 ≤ v ∧ v ≤ 2 * n ∧ (u ≠ v - n ∨ u = 1)) ∨ (n + 1 ≤ u ∧ u ≤ 2 * n ∧ v = 2 * n + 1)) →
      ∀ d, ¬McEdge n u v d := by
    intro u v hn' d hd
    rcases hd with ⟨h1, h2, h3, -⟩ | ⟨h1, h2, -⟩ | ⟨h1, h2, h3, h4, h5, -⟩ | ⟨h1, h2, h3, -⟩ <;> omega
  have hdiag : ∀ i : Nat, i < n → i ≠ 0 → f (i + 1) (n + 1 + i) = 0 := fun i hi h0 =>
    zero _ _ (by omega) (by omega) (by omega) (by omega) (no _ _ (by omega))
  have hrow : ∀ i : Nat, i < n → f 0 (i + 1) = ∑ j ∈ Finset.range n, f (i + 1) (n + 1 + j) := by
    intro i hi
    have hc := hf.conserve (i + 1) ((mem _).2 (by omega)) (by omega) (by omega)
    rw [sum_vertices n fun u => f u (i + 1), sum_vertices n fun u => f (i + 1) u] at hc
    rw [Finset.sum_eq_zero (f := fun i' : Nat => f (i' + 1) (i + 1)), Finset.sum_eq_zero (f := fun j : Nat => f (n + 1 + j) (i + 1)),
      Finset.sum_eq_zero (f := fun i' : Nat => f (i + 1) (i' + 1)), zero (2 * n + 1) (i + 1), zero (i + 1) 0, zero (i + 1) (2 * n + 1)] at hc
    · omega
    all_goals first | omega | exact no _ _ (by omega) | skip
    all_goals
      intro j hj
      have := Finset.mem_range.1 hj
      exact zero _ _ (by omega) (by omega) (by omega) (by omega) (no _ _ (by omega))
  have hcol : ∀ j : Nat, j < n → ∑ i ∈ Finset.range n, f (i + 1) (n + 1 + j) = f (n + 1 + j) (2 * n + 1) := by
    intro j hj
    have hc := hf.conserve (n + 1 + j) ((mem _).2 (by omega)) (by omega) (by omega)
    rw [sum_vertices n fun u => f u (n + 1 + j), sum_vertices n fun u => f (n + 1 + j) u] at hc
    rw [Finset.sum_eq_zero (f := fun j' : Nat => f (n + 1 + j') (n + 1 + j)), Finset.sum_eq_zero (f := fun i : Nat => f (n + 1 + j) (i + 1)),
      Finset.sum_eq_zero (f := fun j' : Nat => f (n + 1 + j) (n + 1 + j')), zero (2 * n + 1) (n + 1 + j), zero (n + 1 + j) 0, zero 0 (n + 1 + j)] at hc
    · omega
    all_goals first | omega | exact no _ _ (by omega) | skip
    all_goals
      intro i hi
      have := Finset.mem_range.1 hi
      exact zero _ _ (by omega) (by omega) (by omega) (by omega) (no _ _ (by omega))
  refine ⟨⟨fun i hi j hj => hf.nonneg _ ((mem _).2 (by omega)) _ ((mem _).2 (by omega)), hdiag, fun i hi => ?_, fun j hj => ?_⟩, ?_, mc_costs f hn h hdiag⟩
  · rw [← hrow i hi]
    have := hf.le_cap 0 ((mem _).2 (by omega)) (i + 1) ((mem _).2 (by omega))
    rw [h.cap ((mem _).2 (by omega)) ((mem _).2 (by omega)) (Or.inl ⟨rfl, by omega, by omega, rfl⟩)] at this
    rwa [show (i : Int) + 1 - 1 = i by ring] at this
  · rw [hcol j hj]
    have := hf.le_cap (n + 1 + j) ((mem _).2 (by omega)) (2 * n + 1) ((mem _).2 (by omega))
    rw [h.cap ((mem _).2 (by omega)) ((mem _).2 (by omega)) (Or.inr (Or.inr (Or.inr ⟨by omega, by omega, rfl, rfl⟩)))] at this
    rwa [show (n : Int) + 1 + j - n - 1 = j by ring] at this
  · unfold value
    rw [sum_vertices n fun v => f 0 v, sum_vertices n fun v => f v 0, Finset.sum_eq_zero (f := fun i : Nat => f (i + 1) 0),
      Finset.sum_eq_zero (f := fun j : Nat => f (n + 1 + j) 0), Finset.sum_eq_zero (f := fun j : Nat => f 0 (n + 1 + j)), zero (2 * n + 1) 0, zero 0 (2 * n + 1)]
    · unfold total
      rw [Finset.sum_congr rfl fun i hi => hrow i (Finset.mem_range.1 hi)]
      ring
    all_goals first | omega | exact no _ _ (by omega) | skip
    all_goals
      intro i hi
      have := Finset.mem_range.1 hi
      exact zero _ _ (by omega) (by omega) (by omega) (by omega) (no _ _ (by omega))

/-- The flow of a plan. -/
def planFlow (n : Nat) (x : Nat → Nat → Int) (u v : Int) : Int :=
  if u = 0 then if 1 ≤ v ∧ v ≤ n then ∑ j ∈ Finset.range n, x (v - 1).toNat j else 0
  else if u ≤ n then if n + 1 ≤ v ∧ v ≤ 2 * n then x (u - 1).toNat (v - n - 1).toNat else 0
  else if u ≤ 2 * n ∧ v = 2 * n + 1 then ∑ i ∈ Finset.range n, x i (u - n - 1).toNat else 0

include h in
theorem plan_flow (hn : 2 ≤ n) {x : Nat → Nat → Int} (hx : Plan n x) :
    IsFlow (vertices (2 * n + 2)) (capacityOf g) 0 (2 * n + 1) (planFlow n x) ∧ (∀ i < n, ∀ j < n, planFlow n x (i + 1) (n + 1 + j) = x i j) := by
  have mem := mem_mc n
  have inner : ∀ i < n, ∀ j < n, planFlow n x (i + 1) (n + 1 + j) = x i j := by
    intro i hi j hj
    unfold planFlow
    rw [if_neg (by omega), if_pos (by omega), if_pos (by omega)]
    congr 1 <;> omega
  have first : ∀ i : Nat, i < n → planFlow n x 0 (i + 1) = ∑ j ∈ Finset.range n, x i j := by
    intro i hi
    unfold planFlow
    rw [if_pos rfl, if_pos (by omega), show ((i : Int) + 1 - 1).toNat = i by omega]
  have last : ∀ j : Nat, j < n → planFlow n x (n + 1 + j) (2 * n + 1) = ∑ i ∈ Finset.range n, x i j := by
    intro j hj
    unfold planFlow
    rw [if_neg (by omega), if_neg (by omega), if_pos (by omega), show ((n : Int) + 1 + j - n - 1).toNat = j by omega]
  have zero : ∀ u v : Int, 0 ≤ u → ¬(u = 0 ∧ 1 ≤ v ∧ v ≤ n) → ¬(1 ≤ u ∧ u ≤ n ∧ n + 1 ≤ v ∧ v ≤ 2 * n) → ¬(n + 1 ≤ u ∧ u ≤ 2 * n ∧ v = 2 * n + 1) →
      planFlow n x u v = 0 := by
    intro u v h0 h1 h2 h3
    unfold planFlow
    split_ifs <;> first | rfl | omega
  have caps := (mc_nonneg h).1
  have bound : ∀ u ∈ vertices (2 * n + 2), ∀ v ∈ vertices (2 * n + 2), 0 ≤ planFlow n x u v ∧ planFlow n x u v ≤ capacityOf g u v := by
    intro u hu v hv
    have hu' := (mem u).1 hu
    have hv' := (mem v).1 hv
    by_cases h1 : u = 0 ∧ 1 ≤ v ∧ v ≤ n
    · obtain ⟨rfl, h1, h2⟩ := h1
      obtain ⟨i, rfl⟩ : ∃ i : Nat, v = i + 1 := ⟨(v - 1).toNat, by omega⟩
      rw [first i (by omega), h.cap hu hv (Or.inl ⟨rfl, by omega, by omega, rfl⟩)]
      refine ⟨Finset.sum_nonneg fun j hj => hx.nonneg i (by omega) j (Finset.mem_range.1 hj), ?_⟩
      have := hx.row i (by omega)
      rwa [show (i : Int) + 1 - 1 = i by ring]
    by_cases h2 : 1 ≤ u ∧ u ≤ n ∧ n + 1 ≤ v ∧ v ≤ 2 * n
    · obtain ⟨i, rfl⟩ : ∃ i : Nat, u = i + 1 := ⟨(u - 1).toNat, by omega⟩
      obtain ⟨j, rfl⟩ : ∃ j : Nat, v = n + 1 + j := ⟨(v - n - 1).toNat, by omega⟩
      rw [inner i (by omega) j (by omega)]
      have hnn := hx.nonneg i (by omega) j (by omega)
      refine ⟨hnn, ?_⟩
      have hle : x i j ≤ 5 * 2 ^ n / 4 := by
        refine le_trans ?_ ((hx.row i (by omega)).trans (sup_le n (by omega) (by omega)))
        exact Finset.single_le_sum (f := fun j => x i j) (fun j hj => hx.nonneg i (by omega) j (Finset.mem_range.1 hj)) (Finset.mem_range.2 (by omega))
      by_cases hij : i = j
      · subst hij
        by_cases h0 : i = 0
        · subst h0
          rw [h.cap hu hv (d := (5 * 2 ^ (n : Int).toNat / 4, 0)) (Or.inr (Or.inl ⟨by simp, by simp, rfl⟩))]
          simpa using hle
        · rw [hx.diag i (by omega) h0]
          exact caps _ hu _ hv
      · rw [h.cap hu hv (Or.inr (Or.inr (Or.inl ⟨by omega, by omega, by omega, by omega, by omega, rfl⟩)))]
        simpa using hle
    by_cases h3 : n + 1 ≤ u ∧ u ≤ 2 * n ∧ v = 2 * n + 1
    · obtain ⟨h3, h4, rfl⟩ := h3
      obtain ⟨j, rfl⟩ : ∃ j : Nat, u = n + 1 + j := ⟨(u - n - 1).toNat, by omega⟩
      rw [last j (by omega), h.cap hu hv (Or.inr (Or.inr (Or.inr ⟨by omega, by omega, rfl, rfl⟩)))]
      refine ⟨Finset.sum_nonneg fun i hi => hx.nonneg i (Finset.mem_range.1 hi) j (by omega), ?_⟩
      have := hx.col j (by omega)
      rwa [show (n : Int) + 1 + j - n - 1 = j by ring]
    rw [zero u v hu'.1 h1 h2 h3]
    exact ⟨le_refl _, caps u hu v hv⟩
  refine ⟨⟨fun u hu v hv => (bound u hu v hv).1, fun u hu v hv => (bound u hu v hv).2, fun v hv h0 h1 => ?_⟩, inner⟩
  have hv' := (mem v).1 hv
  rw [sum_vertices n fun u => planFlow n x u v, sum_vertices n fun u => planFlow n x v u]
  by_cases hside : v ≤ n
  · obtain ⟨i, rfl⟩ : ∃ i : Nat, v = i + 1 := ⟨(v - 1).toNat, by omega⟩
    rw [Finset.sum_eq_zero (f := fun i' : Nat => planFlow n x (i' + 1) (i + 1)), Finset.sum_eq_zero (f := fun j : Nat => planFlow n x (n + 1 + j) (i + 1)),
      Finset.sum_eq_zero (f := fun i' : Nat => planFlow n x (i + 1) (i' + 1)), zero (2 * n + 1) (i + 1), zero (i + 1) 0, zero (i + 1) (2 * n + 1),
      first i (by omega), Finset.sum_congr rfl fun j hj => inner i (by omega) j (Finset.mem_range.1 hj)]
    · ring
    all_goals first | omega | skip
    all_goals
      intro j hj
      have := Finset.mem_range.1 hj
      exact zero _ _ (by omega) (by omega) (by omega) (by omega)
  · obtain ⟨j, rfl⟩ : ∃ j : Nat, v = n + 1 + j := ⟨(v - n - 1).toNat, by omega⟩
    rw [Finset.sum_eq_zero (f := fun j' : Nat => planFlow n x (n + 1 + j') (n + 1 + j)), Finset.sum_eq_zero (f := fun i : Nat => planFlow n x (n + 1 + j) (i + 1)),
      Finset.sum_eq_zero (f := fun j' : Nat => planFlow n x (n + 1 + j) (n + 1 + j')), zero (2 * n + 1) (n + 1 + j), zero (n + 1 + j) 0, zero 0 (n + 1 + j),
      last j (by omega), Finset.sum_congr rfl fun i hi => inner i (Finset.mem_range.1 hi) j (by omega)]
    · ring
    all_goals first | omega | skip
    all_goals
      intro i hi
      have := Finset.mem_range.1 hi
      exact zero _ _ (by omega) (by omega) (by omega) (by omega)

end

theorem total_congr {n : Nat} {x y : Nat → Nat → Int} (h : ∀ i < n, ∀ j < n, x i j = y i j) : total n x = total n y ∧ price n x = price n y :=
  ⟨Finset.sum_congr rfl fun i hi => Finset.sum_congr rfl fun j hj => h i (Finset.mem_range.1 hi) j (Finset.mem_range.1 hj),
    Finset.sum_congr rfl fun i hi => Finset.sum_congr rfl fun j hj => by rw [h i (Finset.mem_range.1 hi) j (Finset.mem_range.1 hj)]⟩

section

variable {g : Graph (Int × Int)} {k L : Nat} (h : Holds g (2 * (k + 2) + 2) (McEdge (k + 2 : Nat)) L)

include h

theorem mc_dual : ∀ l < 2 ^ (k + 2), ∀ f, IsFlow (vertices (2 * (k + 2) + 2)) (capacityOf g) 0 (2 * (k + 2 : Nat) + 1) f →
    l * value (vertices (2 * (k + 2) + 2)) 0 f - level l ≤ flowCost (vertices (2 * (k + 2) + 2)) (costOf g) f := by
  intro l hl f hf
  obtain ⟨h1, h2, h3⟩ := mc_plan h (by omega) hf
  rw [h2, h3]
  exact dual k _ h1 l hl

theorem mc_primal : ∀ l < 2 ^ (k + 2), ∃ f, IsFlow (vertices (2 * (k + 2) + 2)) (capacityOf g) 0 (2 * (k + 2 : Nat) + 1) f ∧
    value (vertices (2 * (k + 2) + 2)) 0 f = bend l ∧ flowCost (vertices (2 * (k + 2) + 2)) (costOf g) f = l * bend l - level l := by
  intro l hl
  obtain ⟨x, h1, h2, h3⟩ := primal k l hl
  obtain ⟨h4, h5⟩ := plan_flow h (by omega) h1
  obtain ⟨-, h6, h7⟩ := mc_plan h (by omega) h4
  obtain ⟨h8, h9⟩ := total_congr h5
  exact ⟨_, h4, by rw [h6, h8, h2], by rw [h7, h9, h3]⟩

end

/-- **C99**: successive shortest paths need exponentially many rounds on `mcmfWorstcase(n)`.  However they choose among the cheapest
paths and however much they push, the flow after `k < 2^n` rounds is at most `k + k / 4`; so they take at least `2^n - 1` rounds until the
flow is largest, and at most `5 * 2^(n-2) - 2`; and some run does get there. -/
theorem C99_rounds (n : Nat) (h0 : 2 ≤ n) (hn : n ≤ 60) : ∃ g, mcmfWorstcase n = .ok g ∧
    (∀ k f, Rounds (vertices (2 * n + 2)) (capacityOf g) (costOf g) 0 (2 * n + 1) k f → k < 2 ^ n → value (vertices (2 * n + 2)) 0 f ≤ (k + k / 4 : Nat)) ∧
    (∀ k f, Rounds (vertices (2 * n + 2)) (capacityOf g) (costOf g) 0 (2 * n + 1) k f → value (vertices (2 * n + 2)) 0 f = 5 * 2 ^ (n - 2) - 2 →
      2 ^ n - 1 ≤ k ∧ k ≤ 5 * 2 ^ (n - 2) - 2) ∧
    ∃ k f, Rounds (vertices (2 * n + 2)) (capacityOf g) (costOf g) 0 (2 * n + 1) k f ∧ value (vertices (2 * n + 2)) 0 f = 5 * 2 ^ (n - 2) - 2 := by
  obtain ⟨g, h1, h2⟩ := mcmfWorstcase_ok n (by omega) hn
  obtain ⟨k, rfl⟩ : ∃ k, n = k + 2 := ⟨n - 2, by omega⟩
  have hs := (mem_mc (k + 2) 0).2 (by omega)
  have ht := (mem_mc (k + 2) (2 * (k + 2 : Nat) + 1)).2 (by omega)
  obtain ⟨c1, c2⟩ := mc_nonneg h2
  have hst : (0 : Int) ≠ 2 * (k + 2 : Nat) + 1 := by omega
  have key : ∀ m f, Rounds (vertices (2 * (k + 2) + 2)) (capacityOf g) (costOf g) 0 (2 * (k + 2 : Nat) + 1) m f → m < 2 ^ (k + 2) →
      value (vertices (2 * (k + 2) + 2)) 0 f ≤ bend m := fun m f hr hm =>
    rounds_le hs ht hst c1 c2 bend_lt level_succ (by decide) (mc_dual h2) (mc_primal h2) hr hm
  have hmax := C76_mcmf_flow (k + 2) h0 hn
  obtain ⟨g', e1, e2⟩ := hmax
  rw [h1] at e1
  cases e1
  refine ⟨g, h1, key, fun m f hr hv => ⟨?_, ?_⟩, rounds_reach hs hst c1 c2 e2⟩
  · by_contra hlt
    have hb := key m f hr (by omega)
    have hm : bend m < bend (2 ^ (k + 2) - 1) := by unfold bend; omega
    have hsym := bend_symm k 0 (by positivity)
    rw [show bend 0 = 0 from rfl, zero_add, Nat.sub_zero] at hsym
    rw [show k + 2 - 2 = k by omega] at hv
    omega
  · have := rounds_value hs hst c1 c2 hr
    rw [hv, show k + 2 - 2 = k by omega] at this
    rw [show k + 2 - 2 = k by omega]
    have hp : 1 ≤ 2 ^ k := Nat.one_le_two_pow
    zify [show 2 ≤ 5 * 2 ^ k by omega]
    exact this

/-- **C99**: in every network without negative costs the flows of the algorithm have the smallest cost for their value. -/
theorem C99_smallest {V : Finset Int} {cap cost f : Int → Int → Int} {s t : Int} {k : Nat} (hs : s ∈ V) (ht : t ∈ V) (hst : s ≠ t)
    (hcap : ∀ u ∈ V, ∀ v ∈ V, 0 ≤ cap u v) (hcost : ∀ u ∈ V, ∀ v ∈ V, 0 ≤ cost u v) (h : Rounds V cap cost s t k f) :
    MinCost V cap cost s t (value V s f) (flowCost V cost f) :=
  rounds_minCost hs ht hst hcap hcost h

/-- **C99**: the smallest cost of a largest flow of `mcmfWorstcase(n)`. -/
theorem C99_cost (n : Nat) (h0 : 2 ≤ n) (hn : n ≤ 60) : ∃ g, mcmfWorstcase n = .ok g ∧
    MinCost (vertices (2 * n + 2)) (capacityOf g) (costOf g) 0 (2 * n + 1) (5 * 2 ^ (n - 2) - 2) ((5 * 2 ^ (n - 2) - 2) * (2 ^ (n - 1) - 1)) := by
  obtain ⟨g, h1, h2⟩ := mcmfWorstcase_ok n (by omega) hn
  obtain ⟨k, rfl⟩ : ∃ k, n = k + 2 := ⟨n - 2, by omega⟩
  have hp : 1 ≤ 2 ^ (k + 2) := Nat.one_le_two_pow
  have hsym := bend_symm k 0 (by positivity)
  rw [show bend 0 = 0 from rfl, zero_add, Nat.sub_zero] at hsym
  have e : ((2 ^ (k + 2) - 1 : Nat) : Int) * (5 * 2 ^ k - 2) - level (2 ^ (k + 2) - 1) = (5 * 2 ^ k - 2) * (2 ^ (k + 1) - 1) := by
    rw [level_last]
    push_cast [hp]
    ring
  refine ⟨g, h1, ?_⟩
  rw [show k + 2 - 2 = k by omega, show k + 2 - 1 = k + 1 by omega]
  refine ⟨?_, fun f hf hv => ?_⟩
  · obtain ⟨f, h3, h4, h5⟩ := mc_primal h2 (2 ^ (k + 2) - 1) (by omega)
    exact ⟨f, h3, h4.trans hsym, by rw [h5, hsym, e]⟩
  · have := mc_dual h2 (2 ^ (k + 2) - 1) (by omega) f hf
    rwa [hv, e] at this

/-- **C99**: that cost is a 64 bit number only for `n ≤ 31`; the function accepts `n ≤ 60`. -/
theorem C99_cost_overflow (n : Nat) (h0 : 2 ≤ n) : (2 : Int) ^ 63 ≤ (5 * 2 ^ (n - 2) - 2) * (2 ^ (n - 1) - 1) ↔ 32 ≤ n := by
  constructor
  · intro h
    by_contra hlt
    have h1 : (2 : Int) ^ (n - 2) ≤ 2 ^ 29 := pow_le_pow_right₀ (by norm_num) (by omega)
    have h2 : (2 : Int) ^ (n - 1) ≤ 2 ^ 30 := pow_le_pow_right₀ (by norm_num) (by omega)
    have h3 : (1 : Int) ≤ 2 ^ (n - 1) := one_le_pow₀ (by norm_num)
    have h4 : (1 : Int) ≤ 2 ^ (n - 2) := one_le_pow₀ (by norm_num)
    norm_num at h h1 h2
    nlinarith
  · intro h
    have h1 : (2 : Int) ^ 30 ≤ 2 ^ (n - 2) := pow_le_pow_right₀ (by norm_num) (by omega)
    have h2 : (2 : Int) ^ 31 ≤ 2 ^ (n - 1) := pow_le_pow_right₀ (by norm_num) (by omega)
    norm_num at h1 h2 ⊢
    nlinarith

/-- With `n = 3`: at least 7 rounds for a flow of 8, which costs 24. -/
example : ∃ g, mcmfWorstcase 3 = .ok g ∧
    ∀ k f, Rounds (vertices 8) (capacityOf g) (costOf g) 0 7 k f → value (vertices 8) 0 f = 8 → 7 ≤ k ∧ k ≤ 8 := by
  obtain ⟨g, h1, -, h2, -⟩ := C99_rounds 3 (by norm_num) (by norm_num)
  exact ⟨g, h1, by simpa using h2⟩

example : ∃ g, mcmfWorstcase 3 = .ok g ∧ MinCost (vertices 8) (capacityOf g) (costOf g) 0 7 8 24 := by
  have := C99_cost 3 (by norm_num) (by norm_num)
  norm_num at this
  exact this

end ICPC.Props
