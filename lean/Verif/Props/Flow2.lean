import Verif.Props.Flow

/-!
# C76: the network for minimum cost flows
-/

namespace ICPC.Props

open ICPC ICPC.Gen Spec.EdgeMap Spec.Flow

/-- Capacity from the source to vertex `i + 1`. -/
def sup (i : Int) : Int := if i < 2 then 2 * i + 1 else 5 * 2 ^ (i - 2).toNat

/-- Capacity from vertex `n + 1 + i` to the sink. -/
def dem (i : Int) : Int := if i < 2 then 2 else 5 * 2 ^ (i - 2).toNat

/-- The network: a source 0, vertices `1..n`, vertices `n+1..2n`, a sink `2n+1`, with capacity and cost. -/
def McEdge (n u v : Int) (d : Int × Int) : Prop :=
  (u = 0 ∧ 1 ≤ v ∧ v ≤ n ∧ d = (sup (v - 1), 0)) ∨
  (u = 1 ∧ v = n + 1 ∧ d = (5 * 2 ^ n.toNat / 4, 0)) ∨
  (1 ≤ u ∧ u ≤ n ∧ n + 1 ≤ v ∧ v ≤ 2 * n ∧ u ≠ v - n ∧ d = (5 * 2 ^ n.toNat / 4, 2 ^ (max (u - 1) (v - n - 1)).toNat - 1)) ∨
  (n + 1 ≤ u ∧ u ≤ 2 * n ∧ v = 2 * n + 1 ∧ d = (dem (u - n - 1), 0))

/-- The graph has exactly the edges `R`, of which there are `L`. -/
def Holds {E : Type} (g : Graph E) (N : Nat) (R : Int → Int → E → Prop) (L : Nat) : Prop :=
  ∃ m, Good g true 0 N m ∧ (∀ u v d, m u v = some d ↔ R u v d) ∧ g.edges.length = L

section

variable {E : Type} {g : Graph E} {N L : Nat} {R R' : Int → Int → E → Prop}

theorem Holds.congr (h : Holds g N R L) (hR : ∀ u v d, R u v d ↔ R' u v d) : Holds g N R' L := by
  obtain ⟨m, h1, h2, h3⟩ := h
  exact ⟨m, h1, fun u v d => (h2 u v d).trans (hR u v d), h3⟩

theorem Holds.add (h : Holds g N R L) {u v : Int} (d : E) (hu : In 0 N u) (hv : In 0 N v) (hne : u ≠ v) (hR : ∀ d, ¬R u v d) :
    ∃ g', g.add u v d = .ok g' ∧ Holds g' N (fun x y e => R x y e ∨ (x = u ∧ y = v ∧ e = d)) (L + 1) := by
  obtain ⟨m, h1, h2, h3⟩ := h
  have hn : m u v = none := by
    cases he : m u v with
    | none => rfl
    | some c => exact absurd ((h2 u v c).1 he) (hR c)
  obtain ⟨g', a1, a2, a3, -⟩ := add_new h1 d hu hv hne hn
  refine ⟨g', a1, _, a2, fun x y e => ?_, by omega⟩
  by_cases hxy : x = u ∧ y = v
  · rw [if_pos hxy, hxy.1, hxy.2]
    simp only [Option.some.injEq, true_and]
    constructor
    · exact fun h => Or.inr h.symm
    · rintro (h | h)
      · exact absurd h (hR e)
      · exact h.symm
  · rw [if_neg hxy, h2]
    tauto

end

theorem shl64_ok {a k : Int} (h0 : 0 ≤ k) (hk : k < 64) (h : I64 (a * 2 ^ k.toNat)) : shl64 a k = .ok (a * 2 ^ k.toNat) := by
  unfold shl64
  rw [if_pos ⟨h0, hk⟩, chk_ok h]

theorem pow_le60 {k : Int} (hk : k ≤ 60) : (2 : Int) ^ k.toNat ≤ 2 ^ 60 := pow_le_pow_right₀ (by norm_num) (by omega)

theorem supply_ok {i : Int} (h1 : i < 60) : supply i = .ok (sup i) := by
  unfold supply sup
  split
  · rfl
  · have := pow_le60 (k := i - 2) (by omega)
    have : (0 : Int) < 2 ^ (i - 2).toNat := by positivity
    rw [shl64_ok (by omega) (by omega) (by unfold I64; omega)]

theorem demand_ok {i : Int} (h1 : i < 60) : demand i = .ok (dem i) := by
  unfold demand dem
  split
  · rfl
  · have := pow_le60 (k := i - 2) (by omega)
    have : (0 : Int) < 2 ^ (i - 2).toNat := by positivity
    rw [shl64_ok (by omega) (by omega) (by unfold I64; omega)]

variable {N L : Nat} {R : Int → Int → Int × Int → Prop}

theorem sourceLoop_ok : ∀ (k : Nat) (i : Int) (g : Graph (Int × Int)) (R : Int → Int → Int × Int → Prop) (L : Nat), Holds g N R L → 0 ≤ i → i + k ≤ 60 →
    i + k < N → (∀ v d, i + 1 ≤ v → ¬R 0 v d) →
    ∃ g', sourceLoop k i g = .ok g' ∧ Holds g' N (fun x y e => R x y e ∨ (x = 0 ∧ i + 1 ≤ y ∧ y ≤ i + k ∧ e = (sup (y - 1), 0))) (L + k) := by
  intro k
  induction k with
  | zero =>
    intro i g R L h h0 _ _ _
    exact ⟨g, rfl, h.congr fun u v d => ⟨Or.inl, fun h => h.resolve_right (by push_cast; omega)⟩⟩
  | succ k ih =>
    intro i g R L h h0 h1 h2 hR
    push_cast at h1 h2
    obtain ⟨g1, a1, b1⟩ := h.add (sup i, (0 : Int)) (u := 0) (v := i + 1) (by unfold In; omega) (by unfold In; omega) (by omega) (fun d => hR _ d le_rfl)
    obtain ⟨g', a2, b2⟩ := ih (i + 1) g1 _ _ b1 (by omega) (by omega) (by omega) (fun v d hv => by
      rintro (h | ⟨-, h, -⟩)
      · exact hR v d (by omega) h
      · omega)
    refine ⟨g', ?_, ?_⟩
    · unfold sourceLoop
      rw [supply_ok (by omega), ok_bind, a1, ok_bind, a2]
    · rw [show L + (k + 1) = L + 1 + k by omega]
      refine b2.congr fun u v d => ?_
      push_cast
      constructor
      · rintro ((h | ⟨h3, h4, h5⟩) | ⟨h3, h4, h5, h6⟩)
        · exact Or.inl h
        · exact Or.inr ⟨h3, by omega, by omega, by rw [h5, h4]; congr 2; omega⟩
        · exact Or.inr ⟨h3, by omega, by omega, h6⟩
      · rintro (h | ⟨h3, h4, h5, h6⟩)
        · exact Or.inl (Or.inl h)
        · rcases (show v = i + 1 ∨ i + 1 + 1 ≤ v by omega) with h | h
          · exact Or.inl (Or.inr ⟨h3, h, by rw [h6, h]; congr 2; omega⟩)
          · exact Or.inr ⟨h3, h, by omega, h6⟩

theorem middleInner_ok (n : Nat) (inf i : Int) (hi : 0 ≤ i) (hin : i < n) (hn : n ≤ 60) (hN : 2 * n + 1 < N) : ∀ (k : Nat) (j : Int) (g : Graph (Int × Int))
    (R : Int → Int → Int × Int → Prop) (L : Nat), Holds g N R L → 0 ≤ j → j + k = n → (∀ v d, n + 1 + j ≤ v → v ≠ i + 1 + n → ¬R (i + 1) v d) →
    ∃ g', middleInner n inf i k j g = .ok g' ∧ Holds g' N (fun x y e => R x y e ∨
      (x = i + 1 ∧ n + 1 + j ≤ y ∧ y ≤ 2 * n ∧ y ≠ i + 1 + n ∧ e = (inf, 2 ^ (max i (y - n - 1)).toNat - 1))) (L + k - if j ≤ i then 1 else 0) := by
  intro k
  induction k with
  | zero =>
    intro j g R L h h0 h1 _
    rw [if_neg (by omega)]
    exact ⟨g, rfl, h.congr fun u v d => ⟨Or.inl, fun h => h.resolve_right (by push_cast at h1; omega)⟩⟩
  | succ k ih =>
    intro j g R L h h0 h1 hR
    push_cast at h1
    unfold middleInner
    by_cases he : i = j
    · subst he
      obtain ⟨g', a2, b2⟩ := ih (i + 1) g R L h (by omega) (by omega) (fun v d hv => hR v d (by omega))
      rw [if_pos rfl]
      refine ⟨g', a2, ?_⟩
      rw [if_neg (by omega)] at b2
      rw [if_pos le_rfl, show L + (k + 1) - 1 = L + k - 0 by omega]
      refine b2.congr fun u v d => or_congr_right ?_
      constructor
      · rintro ⟨h1, h2, h3, h4, h5⟩; exact ⟨h1, by omega, h3, h4, h5⟩
      · rintro ⟨h1, h2, h3, h4, h5⟩; exact ⟨h1, by omega, h3, h4, h5⟩
    · have hp := pow_le60 (k := max i j) (by omega)
      have hp0 : (0 : Int) < 2 ^ (max i j).toNat := by positivity
      obtain ⟨g1, a1, b1⟩ := h.add (inf, (2 : Int) ^ (max i j).toNat - 1) (u := i + 1) (v := j + 1 + n) (by unfold In; omega) (by unfold In; omega) (by omega)
        (fun d => hR _ d (by omega) (by omega))
      obtain ⟨g', a2, b2⟩ := ih (j + 1) g1 _ _ b1 (by omega) (by omega) (fun v d hv hne => by
        rintro (h | ⟨-, h, -⟩)
        · exact hR v d (by omega) hne h
        · omega)
      refine ⟨g', ?_, ?_⟩
      · rw [if_neg he, shl64_ok (by omega) (by omega) (by unfold I64; omega), ok_bind, one_mul, a1, ok_bind, a2]
      · have e : L + (k + 1) - (if j ≤ i then 1 else 0) = L + 1 + k - (if j + 1 ≤ i then 1 else 0) := by
          split <;> split <;> omega
        rw [e]
        refine b2.congr fun u v d => ?_
        constructor
        · rintro ((h | ⟨h3, h4, h5⟩) | ⟨h3, h4, h5, h6, h7⟩)
          · exact Or.inl h
          · exact Or.inr ⟨h3, by omega, by omega, by omega, by rw [h5, show v - n - 1 = j by omega]⟩
          · exact Or.inr ⟨h3, by omega, by omega, h6, h7⟩
        · rintro (h | ⟨h3, h4, h5, h6, h7⟩)
          · exact Or.inl (Or.inl h)
          · rcases (show v = j + 1 + n ∨ n + 1 + (j + 1) ≤ v by omega) with h | h
            · exact Or.inl (Or.inr ⟨h3, h, by rw [h7, show v - n - 1 = j by omega]⟩)
            · exact Or.inr ⟨h3, h, h5, h6, h7⟩

theorem middleLoop_ok (n : Nat) (inf : Int) (hn : n ≤ 60) (hN : 2 * n + 1 < N) : ∀ (k : Nat) (i : Int) (g : Graph (Int × Int))
    (R : Int → Int → Int × Int → Prop) (L : Nat), Holds g N R L → 0 ≤ i → i + k = n → (∀ u v d, i + 1 ≤ u → v ≠ u + n → ¬R u v d) →
    ∃ g', middleLoop n inf k i g = .ok g' ∧ Holds g' N (fun x y e => R x y e ∨
      (i + 1 ≤ x ∧ x ≤ n ∧ n + 1 ≤ y ∧ y ≤ 2 * n ∧ x ≠ y - n ∧ e = (inf, 2 ^ (max (x - 1) (y - n - 1)).toNat - 1))) (L + k * (n - 1)) := by
  intro k
  induction k with
  | zero =>
    intro i g R L h h0 h1 _
    rw [zero_mul]
    exact ⟨g, rfl, h.congr fun u v d => ⟨Or.inl, fun h => h.resolve_right (by push_cast at h1; omega)⟩⟩
  | succ k ih =>
    intro i g R L h h0 h1 hR
    push_cast at h1
    obtain ⟨g1, a1, b1⟩ := middleInner_ok (N := N) n inf i h0 (by omega) hn hN n 0 g R L h le_rfl (by omega) (fun v d _ hv => hR _ v d le_rfl (by omega))
    rw [if_pos h0] at b1
    obtain ⟨g', a2, b2⟩ := ih (i + 1) g1 _ _ b1 (by omega) (by omega) (fun u v d hu hv => by
      rintro (h | ⟨h, -⟩)
      · exact hR u v d (by omega) hv h
      · omega)
    refine ⟨g', ?_, ?_⟩
    · unfold middleLoop
      rw [Int.toNat_natCast, a1, ok_bind, a2]
    · rw [show L + (k + 1) * (n - 1) = L + n - 1 + k * (n - 1) by rw [Nat.succ_mul]; omega]
      refine b2.congr fun u v d => ?_
      constructor
      · rintro ((h | ⟨h3, h4, h5, h6, h7⟩) | ⟨h3, h4, h5, h6, h7⟩)
        · exact Or.inl h
        · exact Or.inr ⟨by omega, by omega, by omega, by omega, by omega, by rw [h7, show u - 1 = i by omega]⟩
        · exact Or.inr ⟨by omega, h4, h5, h6, h7⟩
      · rintro (h | ⟨h3, h4, h5, h6, h7, h8⟩)
        · exact Or.inl (Or.inl h)
        · rcases (show u = i + 1 ∨ i + 1 + 1 ≤ u by omega) with h | h
          · exact Or.inl (Or.inr ⟨h, by omega, by omega, by omega, by rw [h8, show u - 1 = i by omega]⟩)
          · exact Or.inr ⟨h, h4, h5, h6, h7, h8⟩

theorem sinkLoop_ok (n : Nat) (hn : n ≤ 60) (hN : 2 * n + 1 < N) : ∀ (k : Nat) (i : Int) (g : Graph (Int × Int)) (R : Int → Int → Int × Int → Prop) (L : Nat),
    Holds g N R L → 0 ≤ i → i + k = n → (∀ u d, ¬R u (2 * n + 1) d) →
    ∃ g', sinkLoop n k i g = .ok g' ∧
      Holds g' N (fun x y e => R x y e ∨ (i + 1 + n ≤ x ∧ x ≤ 2 * n ∧ y = 2 * n + 1 ∧ e = (dem (x - n - 1), 0))) (L + k) := by
  suffices H : ∀ (k : Nat) (i : Int) (g : Graph (Int × Int)) (R : Int → Int → Int × Int → Prop) (L : Nat),
    Holds g N R L → 0 ≤ i → i + k = n → (∀ u d, i + 1 + n ≤ u → ¬R u (2 * n + 1) d) →
    ∃ g', sinkLoop n k i g = .ok g' ∧
      Holds g' N (fun x y e => R x y e ∨ (i + 1 + n ≤ x ∧ x ≤ 2 * n ∧ y = 2 * n + 1 ∧ e = (dem (x - n - 1), 0))) (L + k) from
    fun k i g R L h h0 h1 hR => H k i g R L h h0 h1 fun u d _ => hR u d
  intro k
  induction k with
  | zero =>
    intro i g R L h h0 h1 _
    exact ⟨g, rfl, h.congr fun u v d => ⟨Or.inl, fun h => h.resolve_right (by push_cast at h1; omega)⟩⟩
  | succ k ih =>
    intro i g R L h h0 h1 hR
    push_cast at h1
    obtain ⟨g1, a1, b1⟩ := h.add (dem i, (0 : Int)) (u := i + 1 + n) (v := 2 * n + 1) (by unfold In; omega) (by unfold In; omega) (by omega)
      (fun d => hR _ d le_rfl)
    obtain ⟨g', a2, b2⟩ := ih (i + 1) g1 _ _ b1 (by omega) (by omega) (fun v d hv => by
      rintro (h | ⟨h, -⟩)
      · exact hR v d (by omega) h
      · omega)
    refine ⟨g', ?_, ?_⟩
    · unfold sinkLoop
      rw [demand_ok (by omega), ok_bind, a1, ok_bind, a2]
    · rw [show L + (k + 1) = L + 1 + k by omega]
      refine b2.congr fun u v d => ?_
      constructor
      · rintro ((h | ⟨h3, h4, h5⟩) | ⟨h3, h4, h5, h6⟩)
        · exact Or.inl h
        · exact Or.inr ⟨by omega, by omega, h4, by rw [h5, show u - n - 1 = i by omega]⟩
        · exact Or.inr ⟨by omega, h4, h5, h6⟩
      · rintro (h | ⟨h3, h4, h5, h6⟩)
        · exact Or.inl (Or.inl h)
        · rcases (show u = i + 1 + n ∨ i + 1 + 1 + n ≤ u by omega) with h | h
          · exact Or.inl (Or.inr ⟨h, h5, by rw [h6, show u - n - 1 = i by omega]⟩)
          · exact Or.inr ⟨h, h4, h5, h6⟩

theorem mcmfWorstcase_ok (n : Nat) (h0 : 0 < n) (hn : n ≤ 60) : ∃ g, mcmfWorstcase n = .ok g ∧ Holds g (2 * n + 2) (McEdge n) (n * n + n + 1) := by
  obtain ⟨res, h1, h2, h3⟩ := new_good (E := Int × Int) true (l := 0) (r := ((2 * n + 2 : Nat) : Int)) i64_zero (by unfold I64; omega) (by omega)
    (by unfold I64; omega)
  rw [show (((2 * n + 2 : Nat) : Int) - 0).toNat = 2 * n + 2 by omega] at h2
  have hh : Holds res (2 * n + 2) (fun _ _ _ => False) 0 := ⟨_, h2, fun u v d => by simp, by rw [h3]; rfl⟩
  obtain ⟨g1, a1, b1⟩ := sourceLoop_ok n 0 res _ 0 hh le_rfl (by omega) (by push_cast; omega) (fun _ _ _ h => h)
  obtain ⟨g2, a2, b2⟩ := b1.add ((5 * 2 ^ n / 4 : Int), (0 : Int)) (u := 1) (v := n + 1) (by unfold In; omega) (by unfold In; omega) (by omega)
    (fun d => by rintro (h | ⟨h, -⟩) <;> omega)
  obtain ⟨g3, a3, b3⟩ := middleLoop_ok n (5 * 2 ^ n / 4) hn (by omega) n 0 g2 _ _ b2 le_rfl (by omega) (fun u v d hu hv => by
    rintro ((h | ⟨h, -⟩) | ⟨h3, h4, -⟩) <;> omega)
  obtain ⟨g4, a4, b4⟩ := sinkLoop_ok n hn (by omega) n 0 g3 _ _ b3 le_rfl (by omega) (fun u d => by
    rintro (((h | ⟨h, h4, h5, -⟩) | ⟨h3, h4, -⟩) | ⟨h3, h4, h5, h6, -⟩) <;> omega)
  refine ⟨g4, ?_, ?_⟩
  · have hp : (2 : Int) ^ n ≤ 2 ^ 60 := pow_le_pow_right₀ (by norm_num) hn
    have hp0 : (0 : Int) < 2 ^ n := by positivity
    unfold mcmfWorstcase
    rw [decide_eq_true (by omega), judgeAssert_true, ok_bind, show (2 * (n : Int) + 2) = ((2 * n + 2 : Nat) : Int) by push_cast; rfl]
    unfold Graph.ofSize
    rw [h1, ok_bind, shl64_ok (by omega) (by omega) (by rw [Int.toNat_natCast]; unfold I64; omega), ok_bind, Int.toNat_natCast, one_mul,
      chk_ok (by unfold I64; omega), ok_bind, Int.tdiv_eq_ediv_of_nonneg (by positivity)]
    rw [a1, ok_bind, a2, ok_bind, a3, ok_bind, a4]
  · have e : 0 + n + 1 + n * (n - 1) + n = n * n + n + 1 := by
      obtain ⟨k, rfl⟩ : ∃ k, n = k + 1 := ⟨n - 1, by omega⟩
      simp only [Nat.add_sub_cancel]
      ring
    rw [e] at b4
    refine b4.congr fun u v d => ?_
    unfold McEdge
    rw [Int.toNat_natCast, false_or]
    constructor
    · rintro (((⟨h3, h4, h5, h6⟩ | h) | ⟨h3, h4, h5, h6⟩) | ⟨h3, h4, h5, h6⟩)
      · exact Or.inl ⟨h3, by omega, by omega, h6⟩
      · exact Or.inr (Or.inl h)
      · exact Or.inr (Or.inr (Or.inl ⟨by omega, by omega, by omega, h6⟩))
      · exact Or.inr (Or.inr (Or.inr ⟨by omega, by omega, by omega, h6⟩))
    · rintro (⟨h3, h4, h5, h6⟩ | h | ⟨h3, h4, h5, h6⟩ | ⟨h3, h4, h5, h6⟩)
      · exact Or.inl (Or.inl (Or.inl ⟨h3, by omega, by omega, h6⟩))
      · exact Or.inl (Or.inl (Or.inr h))
      · exact Or.inl (Or.inr ⟨by omega, by omega, by omega, h6⟩)
      · exact Or.inr ⟨by omega, by omega, by omega, h6⟩

/-! ## The largest flow -/

/-- What `findEdge` says about the capacity. -/
def capacityOf (g : Graph (Int × Int)) (u v : Int) : Int :=
  match g.findEdge u v with
  | .ok (some e) => e.data.1
  | _ => 0

theorem Holds.cap {g : Graph (Int × Int)} (h : Holds g N R L) {u v : Int} {d : Int × Int} (hu : u ∈ vertices N) (hv : v ∈ vertices N) (hd : R u v d) :
    capacityOf g u v = d.1 := by
  obtain ⟨m, h1, h2, -⟩ := h
  unfold capacityOf
  rw [h1.agrees.find, if_pos ⟨mem_vertices.1 hu, mem_vertices.1 hv⟩, (h2 u v d).2 hd]
  rfl

theorem Holds.cap_zero {g : Graph (Int × Int)} (h : Holds g N R L) {u v : Int} (hu : u ∈ vertices N) (hv : v ∈ vertices N) (hd : ∀ d, ¬R u v d) :
    capacityOf g u v = 0 := by
  obtain ⟨m, h1, h2, -⟩ := h
  unfold capacityOf
  rw [h1.agrees.find, if_pos ⟨mem_vertices.1 hu, mem_vertices.1 hv⟩]
  cases hc : m u v with
  | none => rfl
  | some d => exact absurd ((h2 u v d).1 hc) (hd d)

theorem sup_nonneg {i : Int} (hi : 0 ≤ i) : 0 ≤ sup i := by
  unfold sup
  split
  · omega
  · positivity

theorem dem_nonneg (i : Int) : 0 ≤ dem i := by
  unfold dem
  split
  · omega
  · positivity

theorem sup_le (n : Nat) {i : Int} (hi : 0 ≤ i) (hn : i < n) : sup i ≤ 5 * 2 ^ n / 4 := by
  rw [Int.le_ediv_iff_mul_le (by norm_num)]
  unfold sup
  split
  · rcases (show i = 0 ∨ i = 1 by omega) with rfl | rfl
    · have : (2 : Int) ^ 1 ≤ 2 ^ n := pow_le_pow_right₀ (by norm_num) (by omega)
      omega
    · have : (2 : Int) ^ 2 ≤ 2 ^ n := pow_le_pow_right₀ (by norm_num) (by omega)
      omega
  · have : (2 : Int) ^ (i - 2).toNat * 2 ^ 2 ≤ 2 ^ n := by
      rw [← pow_add]
      exact pow_le_pow_right₀ (by norm_num) (by omega)
    omega

theorem dem_le (n : Nat) {i : Int} (hi : 0 ≤ i) (hn : i < n) : dem i ≤ 5 * 2 ^ n / 4 := by
  rw [Int.le_ediv_iff_mul_le (by norm_num)]
  unfold dem
  split
  · have : (2 : Int) ^ 1 ≤ 2 ^ n := pow_le_pow_right₀ (by norm_num) (by omega)
    omega
  · have : (2 : Int) ^ (i - 2).toNat * 2 ^ 2 ≤ 2 ^ n := by
      rw [← pow_add]
      exact pow_le_pow_right₀ (by norm_num) (by omega)
    omega

/-- The capacities of the first `k` vertices. -/
noncomputable def supSum (k : Nat) : Int := ∑ v ∈ Finset.Ico 1 ((k : Int) + 1), sup (v - 1)

noncomputable def demSum (n k : Nat) : Int := ∑ v ∈ Finset.Ico ((n : Int) + 1) (n + k + 1), dem (v - n - 1)

theorem sum_Ico_succ {a b : Int} (h : a ≤ b) (f : Int → Int) : ∑ v ∈ Finset.Ico a (b + 1), f v = (∑ v ∈ Finset.Ico a b, f v) + f b := by
  have : Finset.Ico a (b + 1) = insert b (Finset.Ico a b) := by
    ext x; simp only [Finset.mem_Ico, Finset.mem_insert]; omega
  rw [this, Finset.sum_insert (by simp), add_comm]

theorem supSum_succ (k : Nat) : supSum (k + 1) = supSum k + sup k := by
  unfold supSum
  push_cast
  rw [sum_Ico_succ (by omega)]
  congr 2
  omega

theorem demSum_succ (n k : Nat) : demSum n (k + 1) = demSum n k + dem k := by
  unfold demSum
  push_cast
  rw [show (n : Int) + (k + 1) + 1 = n + k + 1 + 1 by ring, sum_Ico_succ (by omega)]
  congr 2
  omega

theorem supSum_eq (k : Nat) : supSum (k + 2) = 5 * 2 ^ k - 1 := by
  induction k with
  | zero =>
    rw [supSum_succ, supSum_succ]
    simp [supSum, sup]
  | succ k ih =>
    rw [supSum_succ, ih, sup, if_neg (by push_cast; omega), show (((k + 2 : Nat) : Int) - 2).toNat = k by omega, pow_succ]
    ring

theorem demSum_eq (n k : Nat) : demSum n (k + 2) = 5 * 2 ^ k - 1 := by
  induction k with
  | zero =>
    rw [demSum_succ, demSum_succ]
    simp [demSum, dem]
  | succ k ih =>
    rw [demSum_succ, ih, dem, if_neg (by push_cast; omega), show (((k + 2 : Nat) : Int) - 2).toNat = k by omega, pow_succ]
    ring

theorem supSum_one : supSum 1 = 1 := by rw [supSum_succ]; simp [supSum, sup]

theorem demSum_one (n : Nat) : demSum n 1 = 2 := by rw [demSum_succ]; simp [demSum, dem]

theorem demSum_le (n : Nat) (hn : 2 ≤ n) : demSum n (n - 1) ≤ sup (n - 1) := by
  rcases (show n = 2 ∨ ∃ k, n = k + 3 by rcases n with _ | _ | _ | k <;> simp_all) with rfl | ⟨k, rfl⟩
  · rw [demSum_one]; decide
  · rw [show k + 3 - 1 = k + 2 by omega, demSum_eq, sup, if_neg (by push_cast; omega), show (((k + 3 : Nat) : Int) - 1 - 2).toNat = k by omega]
    omega

theorem supSum_le (n : Nat) (hn : 2 ≤ n) : supSum (n - 1) ≤ dem (n - 1) := by
  rcases (show n = 2 ∨ ∃ k, n = k + 3 by rcases n with _ | _ | _ | k <;> simp_all) with rfl | ⟨k, rfl⟩
  · rw [supSum_one]; decide
  · rw [show k + 3 - 1 = k + 2 by omega, supSum_eq, dem, if_neg (by push_cast; omega), show (((k + 3 : Nat) : Int) - 1 - 2).toNat = k by omega]
    omega

theorem sums_eq (n : Nat) (hn : 2 ≤ n) : supSum (n - 1) + demSum n (n - 1) = 5 * 2 ^ (n - 2) - 2 := by
  rcases (show n = 2 ∨ ∃ k, n = k + 3 by rcases n with _ | _ | _ | k <;> simp_all) with rfl | ⟨k, rfl⟩
  · rw [supSum_one, demSum_one]; decide
  · rw [show k + 3 - 1 = k + 2 by omega, demSum_eq, supSum_eq, show k + 3 - 2 = k + 1 by omega, pow_succ]
    ring

/-- The largest flow: everything of the first `n-1` vertices goes to the last one of the other side and vice versa. -/
noncomputable def mcFlow (n : Nat) (u v : Int) : Int :=
  if u = 0 then if 1 ≤ v ∧ v < n then sup (v - 1) else if v = n then demSum n (n - 1) else 0
  else if u < n then if v = 2 * n then sup (u - 1) else 0
  else if u = n then if n + 1 ≤ v ∧ v < 2 * n then dem (v - n - 1) else 0
  else if v ≠ 2 * n + 1 then 0
  else if u < 2 * n then dem (u - n - 1) else if u = 2 * n then supSum (n - 1) else 0

theorem sum_part {V : Finset Int} {a b : Int} (f : Int → Int) (h : ∀ x, a ≤ x → x < b → x ∈ V) (h0 : ∀ x ∈ V, ¬(a ≤ x ∧ x < b) → f x = 0) :
    ∑ x ∈ V, f x = ∑ x ∈ Finset.Ico a b, f x := by
  refine (Finset.sum_subset (fun x hx => ?_) fun x hx hn => h0 x hx ?_).symm
  · rw [Finset.mem_Ico] at hx; exact h x hx.1 hx.2
  · rw [Finset.mem_Ico] at hn; exact hn

theorem sum_one {V : Finset Int} {a : Int} (f : Int → Int) (h : a ∈ V) (h0 : ∀ x ∈ V, x ≠ a → f x = 0) : ∑ x ∈ V, f x = f a :=
  Finset.sum_eq_single a h0 fun h' => absurd h h'

theorem mc_flow {g : Graph (Int × Int)} (n : Nat) (hn : 2 ≤ n) (h : Holds g (2 * n + 2) (McEdge n) L) :
    IsFlow (vertices (2 * n + 2)) (capacityOf g) 0 (2 * n + 1) (mcFlow n) := by
  have mem : ∀ x : Int, x ∈ vertices (2 * n + 2) ↔ 0 ≤ x ∧ x < 2 * n + 2 := by
    intro x; rw [mem_vertices]; unfold In; push_cast; omega
  have hd := demSum_le n hn
  have hs := supSum_le n hn
  have hd0 : 0 ≤ demSum n (n - 1) := Finset.sum_nonneg fun v _ => dem_nonneg _
  have hs0 : 0 ≤ supSum (n - 1) := Finset.sum_nonneg fun v hv => sup_nonneg (by rw [Finset.mem_Ico] at hv; omega)
  have nn : ∀ u v : Int, 0 ≤ u → 0 ≤ mcFlow n u v := by
    intro u v hu
    unfold mcFlow
    split_ifs <;> first | exact le_rfl | exact hd0 | exact hs0 | exact dem_nonneg _ | (exact sup_nonneg (by omega))
  have cnn : ∀ u ∈ vertices (2 * n + 2), ∀ v ∈ vertices (2 * n + 2), 0 ≤ capacityOf g u v := by
    intro u hu v hv
    by_cases he : ∃ d, McEdge n u v d
    · obtain ⟨d, hd⟩ := he
      rw [h.cap hu hv hd]
      have hp : (0 : Int) ≤ 5 * 2 ^ n / 4 := by positivity
      rcases hd with ⟨-, h1, -, rfl⟩ | ⟨-, -, rfl⟩ | ⟨-, -, -, -, -, rfl⟩ | ⟨-, -, -, rfl⟩
      · exact sup_nonneg (by omega)
      · simpa using hp
      · simpa using hp
      · exact dem_nonneg _
    · rw [h.cap_zero hu hv (by simpa using he)]
  refine ⟨fun u hu v _ => nn u v ((mem u).1 hu).1, ?_, ?_⟩
  · intro u hu v hv
    have hu' := (mem u).1 hu
    have hv' := (mem v).1 hv
    unfold mcFlow
    split_ifs with h1 h2 h3 h4 h5 h6 h7 h8 h9 h10
    · rw [h.cap hu hv (Or.inl ⟨h1, h2.1, by omega, rfl⟩)]
    · rw [h.cap hu hv (Or.inl ⟨h1, by omega, by omega, rfl⟩), h3]
      exact hd
    · exact cnn u hu v hv
    · rw [h.cap hu hv (Or.inr (Or.inr (Or.inl ⟨by omega, by omega, by omega, by omega, by omega, rfl⟩))), Int.toNat_natCast]
      exact sup_le n (by omega) (by omega)
    · exact cnn u hu v hv
    · rw [h.cap hu hv (Or.inr (Or.inr (Or.inl ⟨by omega, by omega, by omega, by omega, by omega, rfl⟩))), Int.toNat_natCast]
      exact dem_le n (by omega) (by omega)
    · exact cnn u hu v hv
    · exact cnn u hu v hv
    · rw [h.cap hu hv (Or.inr (Or.inr (Or.inr ⟨by omega, by omega, by omega, rfl⟩)))]
    · rw [h.cap hu hv (Or.inr (Or.inr (Or.inr ⟨by omega, by omega, by omega, rfl⟩))), h10]
      convert hs using 2
      omega
    · exact cnn u hu v hv
  · intro v hv hv0 hvt
    have hv' := (mem v).1 hv
    have zero : ∀ u w : Int, 0 ≤ u → ¬(u = 0 ∧ 1 ≤ w ∧ w ≤ n) → ¬(0 < u ∧ u < n ∧ w = 2 * n) → ¬(u = n ∧ n + 1 ≤ w ∧ w < 2 * n) →
        ¬(n < u ∧ u ≤ 2 * n ∧ w = 2 * n + 1) → mcFlow n u w = 0 := by
      intro u w h0 h1 h2 h3 h4
      unfold mcFlow
      split_ifs <;> first | rfl | omega
    rcases (show v < n ∨ v = n ∨ (n < v ∧ v < 2 * n) ∨ v = 2 * n by omega) with c | c | c | c
    · rw [sum_one (fun u => mcFlow n u v) ((mem 0).2 (by omega)) fun u hu hne => zero u v ((mem u).1 hu).1 (by omega) (by omega) (by omega) (by omega),
        sum_one (fun u => mcFlow n v u) ((mem (2 * n)).2 (by omega)) fun u hu hne => zero v u (by omega) (by omega) (by omega) (by omega) (by omega)]
      unfold mcFlow
      rw [if_pos rfl, if_pos (by omega), if_neg (by omega), if_pos (by omega), if_pos rfl]
    · subst c
      rw [sum_one (fun u => mcFlow n u n) ((mem 0).2 (by omega)) fun u hu hne => zero u n ((mem u).1 hu).1 (by omega) (by omega) (by omega) (by omega),
        sum_part (a := n + 1) (b := 2 * n) (fun u => mcFlow n n u) (fun x h1 h2 => (mem x).2 (by omega)) fun x hx hne => zero n x (by omega) (by omega) (by omega)
          (by omega) (by omega)]
      rw [show mcFlow n 0 n = demSum n (n - 1) by unfold mcFlow; rw [if_pos rfl, if_neg (by omega), if_pos rfl], demSum,
        show (n : Int) + ((n - 1 : Nat) : Int) + 1 = 2 * n by omega]
      refine Finset.sum_congr rfl fun x hx => ?_
      rw [Finset.mem_Ico] at hx
      unfold mcFlow
      rw [if_neg (by omega), if_neg (by omega), if_pos rfl, if_pos (by omega)]
    · rw [sum_one (fun u => mcFlow n u v) ((mem n).2 (by omega)) fun u hu hne => zero u v ((mem u).1 hu).1 (by omega) (by omega) (by omega) (by omega),
        sum_one (fun u => mcFlow n v u) ((mem (2 * n + 1)).2 (by omega)) fun u hu hne => zero v u (by omega) (by omega) (by omega) (by omega) (by omega)]
      unfold mcFlow
      rw [if_neg (by omega), if_neg (by omega), if_pos rfl, if_pos (by omega), if_neg (by omega), if_neg (by omega), if_neg (by omega), if_neg (by simp),
        if_pos (by omega)]
    · subst c
      rw [sum_part (a := 1) (b := n) (fun u => mcFlow n u (2 * n)) (fun x h1 h2 => (mem x).2 (by omega)) fun x hx hne => zero x (2 * n) ((mem x).1 hx).1
          (by omega) (by omega) (by omega) (by omega),
        sum_one (fun u => mcFlow n (2 * n) u) ((mem (2 * n + 1)).2 (by omega)) fun u hu hne => zero (2 * n) u (by omega) (by omega) (by omega) (by omega) (by omega)]
      rw [show mcFlow n (2 * n) (2 * n + 1) = supSum (n - 1) by
          unfold mcFlow
          rw [if_neg (by omega), if_neg (by omega), if_neg (by omega), if_neg (by simp), if_neg (by omega), if_pos rfl], supSum,
        show ((n - 1 : Nat) : Int) + 1 = n by omega]
      refine Finset.sum_congr rfl fun x hx => ?_
      rw [Finset.mem_Ico] at hx
      unfold mcFlow
      rw [if_neg (by omega), if_pos (by omega), if_pos rfl]

theorem mc_value (n : Nat) (hn : 2 ≤ n) : value (vertices (2 * n + 2)) 0 (mcFlow n) = 5 * 2 ^ (n - 2) - 2 := by
  have mem : ∀ x : Int, x ∈ vertices (2 * n + 2) ↔ 0 ≤ x ∧ x < 2 * n + 2 := by
    intro x; rw [mem_vertices]; unfold In; push_cast; omega
  unfold value
  rw [Finset.sum_eq_zero (f := fun v => mcFlow n v 0), sub_zero, sum_part (a := 1) (b := n + 1) _ (fun x h1 h2 => (mem x).2 (by omega)), sum_Ico_succ (by omega)]
  · rw [← sums_eq n hn]
    congr 1
    · unfold supSum
      rw [show ((n - 1 : Nat) : Int) + 1 = n by omega]
      refine Finset.sum_congr rfl fun x hx => ?_
      rw [Finset.mem_Ico] at hx
      unfold mcFlow
      rw [if_pos rfl, if_pos (by omega)]
    · unfold mcFlow
      rw [if_pos rfl, if_neg (by omega), if_pos rfl]
  · intro x hx hne
    unfold mcFlow
    rw [if_pos rfl, if_neg (by omega), if_neg (by omega)]
  · intro x hx
    have := (mem x).1 hx
    unfold mcFlow
    split_ifs <;> first | rfl | omega

theorem mc_cut {g : Graph (Int × Int)} (n : Nat) (hn : 2 ≤ n) (h : Holds g (2 * n + 2) (McEdge n) L) {f : Int → Int → Int}
    (hf : IsFlow (vertices (2 * n + 2)) (capacityOf g) 0 (2 * n + 1) f) : value (vertices (2 * n + 2)) 0 f ≤ 5 * 2 ^ (n - 2) - 2 := by
  have mem : ∀ x : Int, x ∈ vertices (2 * n + 2) ↔ 0 ≤ x ∧ x < 2 * n + 2 := by
    intro x; rw [mem_vertices]; unfold In; push_cast; omega
  have memS : ∀ x : Int, x ∈ insert (0 : Int) (Finset.Ico (n : Int) (2 * n)) ↔ x = 0 ∨ (n ≤ x ∧ x < 2 * n) := by
    intro x; rw [Finset.mem_insert, Finset.mem_Ico]
  refine (value_le_cut hf (S := insert 0 (Finset.Ico (n : Int) (2 * n))) (fun x hx => (mem x).2 (by rw [memS] at hx; omega)) (by simp) (by
    rw [memS]; omega)).trans (le_of_eq ?_)
  rw [← sums_eq n hn, Finset.sum_insert (by rw [Finset.mem_Ico]; omega)]
  have memD : ∀ x : Int, x ∈ vertices (2 * n + 2) \ insert (0 : Int) (Finset.Ico (n : Int) (2 * n)) ↔ (1 ≤ x ∧ x < n) ∨ x = 2 * n ∨ x = 2 * n + 1 := by
    intro x; rw [Finset.mem_sdiff, mem, memS]; omega
  congr 1
  · rw [sum_part (a := 1) (b := n) _ (fun x h1 h2 => (memD x).2 (by omega)), supSum, show ((n - 1 : Nat) : Int) + 1 = n by omega]
    · refine Finset.sum_congr rfl fun x hx => ?_
      rw [Finset.mem_Ico] at hx
      rw [h.cap ((mem 0).2 (by omega)) ((mem x).2 (by omega)) (Or.inl ⟨rfl, by omega, by omega, rfl⟩)]
    · intro x hx hne
      rw [memD] at hx
      refine h.cap_zero ((mem 0).2 (by omega)) ((mem x).2 (by omega)) fun d hd => ?_
      rcases hd with ⟨-, h1, h2, -⟩ | ⟨h1, -⟩ | ⟨h1, -⟩ | ⟨h1, -⟩ <;> omega
  · have e : Finset.Ico (n : Int) (2 * n) = insert (n : Int) (Finset.Ico ((n : Int) + 1) (2 * n)) := by
      ext x; simp only [Finset.mem_Ico, Finset.mem_insert]; omega
    have h2n : (n : Int) + ((n - 1 : Nat) : Int) + 1 = 2 * n := by omega
    have hz : ∑ v ∈ vertices (2 * n + 2) \ insert (0 : Int) (Finset.Ico (n : Int) (2 * n)), capacityOf g n v = 0 := by
      refine Finset.sum_eq_zero fun v hv => ?_
      rw [memD] at hv
      refine h.cap_zero ((mem n).2 (by omega)) ((mem v).2 (by omega)) fun d hd => ?_
      rcases hd with ⟨h1, -⟩ | ⟨h1, -⟩ | ⟨h1, h2, h3, h4, h5, -⟩ | ⟨h1, -⟩ <;> omega
    have hd : ∀ u : Int, n + 1 ≤ u → u < 2 * n →
        ∑ v ∈ vertices (2 * n + 2) \ insert (0 : Int) (Finset.Ico (n : Int) (2 * n)), capacityOf g u v = dem (u - n - 1) := by
      intro u hu1 hu2
      rw [sum_one _ ((memD (2 * n + 1)).2 (by omega))]
      · rw [h.cap ((mem u).2 (by omega)) ((mem _).2 (by omega)) (Or.inr (Or.inr (Or.inr ⟨by omega, by omega, rfl, rfl⟩)))]
      · intro v hv hne
        rw [memD] at hv
        refine h.cap_zero ((mem u).2 (by omega)) ((mem v).2 (by omega)) fun d hd => ?_
        rcases hd with ⟨h1, -⟩ | ⟨h1, -⟩ | ⟨h1, h2, -⟩ | ⟨h1, h2, h3, -⟩ <;> omega
    generalize vertices (2 * n + 2) \ insert (0 : Int) (Finset.Ico (n : Int) (2 * n)) = D at hz hd ⊢
    rw [e, Finset.sum_insert (by rw [Finset.mem_Ico]; omega), hz, zero_add, demSum, h2n]
    refine Finset.sum_congr rfl fun u hu => ?_
    rw [Finset.mem_Ico] at hu
    exact hd u hu.1 hu.2

/-- **C76**: `mcmfWorstcase(n)` has `2n+2` vertices and exactly the `n^2+n+1` edges of the construction, and nothing overflows. -/
theorem C76_mcmfWorstcase (n : Nat) (h0 : 0 < n) (hn : n ≤ 60) : ∃ g m, mcmfWorstcase n = .ok g ∧ Agrees g true 0 (2 * n + 2) m ∧
    (∀ u v d, m u v = some d ↔ McEdge n u v d) ∧ g.nodeCount = 2 * n + 2 ∧ g.edgeCount = n ^ 2 + n + 1 := by
  obtain ⟨g, h1, m, h2, h3, h4⟩ := mcmfWorstcase_ok n h0 hn
  refine ⟨g, m, h1, h2.agrees, h3, by rw [h2.agrees.nodeCount]; push_cast; rfl, ?_⟩
  unfold Graph.edgeCount
  rw [h4]
  push_cast
  ring

/-- **C76**: the largest flow from 0 to `2n+1` is `5 * 2^(n-2) - 2` for `n ≥ 2`. -/
theorem C76_mcmf_flow (n : Nat) (h0 : 2 ≤ n) (hn : n ≤ 60) :
    ∃ g, mcmfWorstcase n = .ok g ∧ MaxFlow (vertices (2 * n + 2)) (capacityOf g) 0 (2 * n + 1) (5 * 2 ^ (n - 2) - 2) := by
  obtain ⟨g, h1, h2⟩ := mcmfWorstcase_ok n (by omega) hn
  exact ⟨g, h1, ⟨mcFlow n, mc_flow n h0 h2, mc_value n h0⟩, fun f hf => mc_cut n h0 h2 hf⟩

/-- **C76**: other arguments are rejected. -/
theorem C76_mcmf_throws (n : Int) (h : ¬(0 < n ∧ n ≤ 60)) : mcmfWorstcase n = .error .throw := by
  unfold mcmfWorstcase
  rw [decide_eq_false h]
  rfl

/-- Three layers: flow 4 and not 8; the network for `n = 3` has flow 8. -/
example : (∃ g, ffWorstcase 3 = .ok g ∧ MaxFlow (vertices 6) (capOf g) 0 5 4) ∧
    ∃ g, mcmfWorstcase 3 = .ok g ∧ MaxFlow (vertices 8) (capacityOf g) 0 7 8 := by
  have h1 := C76_ff_flow 3 (by norm_num) (by norm_num)
  have h2 := C76_mcmf_flow 3 (by norm_num) (by norm_num)
  norm_num at h1 h2
  exact ⟨h1, h2⟩

/-- The edges in the order in which they are stored. -/
example : (ffWorstcase 2).map (fun g => g.getEdges.map fun e => (e.src, e.dst, e.data))
    = .ok [(1, 2, 1), (0, 1, 1), (0, 2, 1), (1, 3, 1), (2, 3, 1)] := by decide +kernel

end ICPC.Props
