import Verif.Lemmas.Pruefer

/-!
# Random trees
-/

namespace ICPC.Gen

open ICPC Spec.EdgeMap Spec.Tree ICPC.Gen.Tree Relation

variable {E : Type} [Inhabited E] {n : Nat} {V : Finset Int} {S A : Finset (Int × Int)}

/-! ## Random codes -/

theorem randomCode_sat (hn : I64 n) (h1 : 1 ≤ n) : ∀ k, SatOk (randomCode n k) fun c => c.length = k ∧ ∀ x ∈ c, 0 ≤ x ∧ x < n
  | 0 => satOk_done ⟨rfl, by simp⟩
  | k + 1 => by
    rw [randomCode]
    refine sat_integer_bind i64_zero hn (by omega) ?_
    intro x hx0 hx
    refine SatOk.bind (randomCode_sat hn h1 k) ?_
    rintro c ⟨h2, h3⟩
    refine satOk_done ⟨by rw [List.length_cons, h2], ?_⟩
    intro z hz
    rcases List.mem_cons.1 hz with rfl | hz
    · exact ⟨hx0, hx⟩
    · exact h3 z hz

theorem randomCode_prob (hn : I64 n) : ∀ (k : Nat) (c : List Int), c.length = k → (∀ x ∈ c, 0 ≤ x ∧ x < n) →
    prob (randomCode n k) c = 1 / (n : ℚ) ^ k
  | 0, c, hc, _ => by
    rw [List.length_eq_zero_iff.1 hc]
    show (if ([] : List Int) = [] then (1 : ℚ) else 0) = _
    simp
  | k + 1, [], hc, _ => by simp at hc
  | k + 1, x :: c, hc, hv => by
    rw [randomCode]
    obtain ⟨hx0, hx⟩ := hv x List.mem_cons_self
    rw [prob_integer_unique (v := x) (q := 1 / (n : ℚ) ^ k) i64_zero hn hx0 hx]
    · rw [sub_zero, pow_succ, Int.cast_natCast, div_div]
    · rw [prob_bind_cons, if_pos rfl]
      exact randomCode_prob hn k c (by simpa using hc) (fun y hy => hv y (List.mem_cons_of_mem _ hy))
    · intro w _ _ hw
      rw [prob_bind_cons, if_neg hw]

/-! ## Undirected trees -/

theorem verts_card : (verts n).card = n := by unfold verts; rw [Int.card_Ico]; omega

theorem tree_sub (h : IsTree (verts n) S) : S ⊆ allPairs false n := by
  intro p hp
  obtain ⟨h1, h2, h3⟩ := h.valid p hp
  have h1 := Finset.mem_Ico.1 h1
  have h2 := Finset.mem_Ico.1 h2
  rw [mem_allPairs]
  unfold In
  rw [zero_add]
  exact ⟨h1, h2, h3.ne, fun _ => h3⟩

/-- Trees with one or two vertices. -/
theorem small_tree (h1 : 1 ≤ n) (h2 : n ≤ 2) : IsTree (verts n) S ↔ S = if n = 2 then {(0, 1)} else ∅ := by
  have hn : n = 1 ∨ n = 2 := by omega
  rcases hn with rfl | rfl
  · rw [if_neg (by omega)]
    constructor
    · intro h
      have := h.count
      rw [verts_card] at this
      exact Finset.card_eq_zero.1 (by omega)
    · rintro rfl
      refine ⟨by simp, ?_, by rw [verts_card]; rfl⟩
      intro u hu v hv
      have hu := Finset.mem_Ico.1 hu
      have hv := Finset.mem_Ico.1 hv
      have : u = v := by omega
      rw [this]
  · have hV : verts 2 = {0, 1} := by decide
    rw [if_pos rfl, hV]
    constructor
    · intro h
      obtain ⟨c, hc⟩ := exists_dec 0 h (by decide)
      have hlen := hc.mem.2
      have : c = [] := List.length_eq_zero_iff.1 (by
        have : ({0, 1} : Finset Int).card = 2 := by decide
        omega)
      subst this
      have hcnt := h.count
      obtain ⟨p, rfl⟩ := Finset.card_eq_one.1 (by
        have : ({0, 1} : Finset Int).card = 2 := by decide
        omega : S.card = 1)
      have hv := h.valid p (Finset.mem_singleton_self _)
      obtain ⟨a, b⟩ := p
      simp only [Finset.mem_insert, Finset.mem_singleton] at hv
      congr 1
      rw [Prod.mk.injEq]
      omega
    · rintro rfl
      exact (Dec.base (by omega : (0 : Int) < 1)).tree

theorem clique_small (h1 : 1 ≤ n) (h2 : n ≤ 2) : ∃ g : Graph E, clique false (n : Int) = .ok g ∧
    Good g false 0 n (ofRel false fun u v => (u, v) ∈ (if n = 2 then {((0 : Int), (1 : Int))} else ∅ : Finset (Int × Int))) := by
  obtain ⟨g, e1, e2⟩ := clique_good (E := E) (dir := false) (n := n) (by unfold I64; omega)
  refine ⟨g, e1, ?_⟩
  rw [ofRel_congr (R' := fun i j => 0 ≤ i ∧ i < j ∧ j < n)]
  · exact e2
  · intro u v
    have hn : n = 1 ∨ n = 2 := by omega
    rcases hn with rfl | rfl
    · rw [if_neg (by omega)]
      simp only [Finset.notMem_empty, false_iff]
      omega
    · rw [if_pos rfl, Finset.mem_singleton, Prod.mk.injEq]
      push_cast
      omega

/-- What `randomTree` returns. -/
theorem randomTree_sat (hn : I64 n) (h1 : 1 ≤ n) : SatOk (randomTree (n : Int) : Rand (Graph E)) fun g => ∃ S, IsTree (verts n) S ∧
    Good g false 0 n (ofRel false fun u v => (u, v) ∈ S) := by
  unfold randomTree
  by_cases h2 : (n : Int) ≤ 2
  · rw [if_pos h2]
    obtain ⟨g, e1, e2⟩ := clique_small (E := E) h1 (by omega)
    rw [e1]
    exact satOk_done ⟨_, (small_tree h1 (by omega)).2 rfl, e2⟩
  · rw [if_neg h2]
    refine SatOk.bind (randomCode_sat hn h1 _) ?_
    rintro c ⟨h3, h4⟩
    have hlen : c.length + 2 = n := by omega
    obtain ⟨g, S, e1, e2, e3⟩ := pruefer_good (E := E) c (by rw [show (c.length + 2 : Int) = n from by omega]; exact hn)
      (fun x hx => by have := h4 x hx; omega)
    rw [hlen] at e2 e3
    rw [e1]
    exact satOk_done ⟨S, e2.tree, e3⟩

open Classical in
/-- Every tree is equally likely. -/
theorem randomTree_prob (hn : I64 n) (h1 : 1 ≤ n) (h : IsTree (verts n) S) :
    probEdges (randomTree (n : Int) : Rand (Graph E)) false n S = 1 / (n : ℚ) ^ (n - 2) := by
  unfold probEdges randomTree
  by_cases h2 : (n : Int) ≤ 2
  · rw [if_pos h2]
    obtain ⟨g, e1, e2⟩ := clique_small (E := E) h1 (by omega)
    rw [e1]
    show (if HasExactly g false n S then (1 : ℚ) else 0) = _
    rw [← (small_tree h1 (by omega)).1 h] at e2
    rw [if_pos e2.hasExactly, show n - 2 = 0 from by omega]
    simp
  · rw [if_neg h2]
    obtain ⟨c0, hc0⟩ := exists_dec (n - 2) h (by rw [verts_card]; omega)
    have hlen0 := hc0.mem.2
    rw [verts_card] at hlen0
    have hp := randomCode_prob hn (n - 2) c0 (by omega) (fun x hx => Finset.mem_Ico.1 (hc0.mem.1 x hx))
    rw [expect_bind, ← hp, show ((n : Int) - 2).toNat = n - 2 from by omega]
    unfold prob
    refine expect_congr_ok (randomCode_sat hn h1 _) ?_
    rintro c ⟨h3, h4⟩
    have hlen : c.length + 2 = n := by omega
    obtain ⟨g, S', e1, e2, e3⟩ := pruefer_good (E := E) c (by rw [show (c.length + 2 : Int) = n from by omega]; exact hn)
      (fun x hx => by have := h4 x hx; omega)
    rw [hlen] at e2 e3
    rw [e1]
    show (if HasExactly g false n S then (1 : ℚ) else 0) = _
    refine if_congr ?_ rfl rfl
    constructor
    · intro hex
      have hS := HasExactly.unique (tree_sub h) (tree_sub e2.tree) hex e3.hasExactly
      subst hS
      exact e2.inj hc0
    · rintro rfl
      have hS : S' = S := dec_fun e2 hc0
      subst hS
      exact e3.hasExactly

/-! ## Directed trees -/

/-- Every vertex but the root has a parent. -/
structure Parents (V : Finset Int) (S : Finset (Int × Int)) (r : Int) (par : Int → Int) (rank : Int → Nat) : Prop where
  root : r ∈ V ∧ rank r = 0
  parent : ∀ v ∈ V, v ≠ r → par v ∈ V ∧ rank v = rank (par v) + 1
  bound : ∀ v ∈ V, rank v < V.card
  edges : ∀ u v, Adj S u v ↔ (u ∈ V ∧ u ≠ r ∧ v = par u) ∨ (v ∈ V ∧ v ≠ r ∧ u = par v)

theorem adj_erase {x y : Int} (hp : sortPair (x, y) ∈ S) (u v : Int) :
    Adj S u v ↔ Adj (S.erase (sortPair (x, y))) u v ∨ (u = x ∧ v = y) ∨ (u = y ∧ v = x) := by
  constructor
  · intro h
    by_cases h1 : (u = x ∧ v = y) ∨ (u = y ∧ v = x)
    · exact Or.inr h1
    · refine Or.inl ?_
      have hne : ∀ a b : Int, ¬ ((a = x ∧ b = y) ∨ (a = y ∧ b = x)) → (a, b) ≠ sortPair (x, y) := by
        intro a b hab e
        rcases sortPair_cases x y with e' | e' <;> rw [e'] at e <;> cases e
        · exact hab (Or.inl ⟨rfl, rfl⟩)
        · exact hab (Or.inr ⟨rfl, rfl⟩)
      rcases h with h | h
      · exact Or.inl (Finset.mem_erase.2 ⟨hne u v h1, h⟩)
      · exact Or.inr (Finset.mem_erase.2 ⟨hne v u (by tauto), h⟩)
  · rintro (h | ⟨rfl, rfl⟩ | ⟨rfl, rfl⟩)
    · exact Or.imp Finset.mem_of_mem_erase Finset.mem_of_mem_erase h
    · exact adj_sortPair hp
    · exact adj_symm (adj_sortPair hp)

theorem exists_parents (k : Nat) (h : IsTree V S) (hk : V.card = k + 1) {r : Int} (hr : r ∈ V) : ∃ par rank, Parents V S r par rank := by
  classical
  induction k generalizing V S r with
  | zero =>
    obtain ⟨a, rfl⟩ := Finset.card_eq_one.1 hk
    have : r = a := Finset.mem_singleton.1 hr
    subst this
    have hS : S = ∅ := Finset.card_eq_zero.1 (by have := h.count; omega)
    subst hS
    refine ⟨id, fun _ => 0, ⟨hr, rfl⟩, ?_, ?_, ?_⟩
    · intro v hv hne; exact absurd (Finset.mem_singleton.1 hv) hne
    · intro v hv; simp
    · intro u v
      unfold Adj
      simp only [Finset.notMem_empty, or_self, false_iff, Finset.mem_singleton]
      tauto
  | succ k ih =>
    obtain ⟨y, hy, hdy⟩ := exists_leaf h (by omega)
    obtain ⟨x, hx, hxy, hp, hu⟩ := leaf_edge h hdy
    have ht := remove_leaf h hy hxy hp hu
    have hcard : (V.erase y).card = k + 1 := by rw [Finset.card_erase_of_mem hy]; omega
    have hxe : x ∈ V.erase y := Finset.mem_erase.2 ⟨hxy, hx⟩
    by_cases hry : r = y
    · subst hry
      obtain ⟨par, rank, h1, h2, h3, h4⟩ := ih ht hcard hxe
      refine ⟨fun v => if v = x then r else par v, fun v => if v = r then 0 else rank v + 1, ⟨hr, if_pos rfl⟩, ?_, ?_, ?_⟩
      · intro v hv hne
        have hve : v ∈ V.erase r := Finset.mem_erase.2 ⟨hne, hv⟩
        by_cases hvx : v = x
        · subst hvx
          rw [if_pos rfl, if_neg hne, if_pos rfl]
          exact ⟨hr, by rw [h1.2]⟩
        · obtain ⟨p1, p2⟩ := h2 v hve hvx
          obtain ⟨p3, p4⟩ := Finset.mem_erase.1 p1
          rw [if_neg hvx, if_neg hne, if_neg p3]
          exact ⟨p4, by rw [p2]⟩
      · intro v hv
        by_cases hvr : v = r
        · rw [if_pos hvr]; omega
        · rw [if_neg hvr]
          have := h3 v (Finset.mem_erase.2 ⟨hvr, hv⟩)
          omega
      · intro u v
        rw [adj_erase hp, h4]
        simp only [Finset.mem_erase]
        constructor
        · rintro ((⟨⟨a1, a2⟩, a3, rfl⟩ | ⟨⟨a1, a2⟩, a3, rfl⟩) | ⟨rfl, rfl⟩ | ⟨rfl, rfl⟩)
          · exact Or.inl ⟨a2, a1, by rw [if_neg a3]⟩
          · exact Or.inr ⟨a2, a1, by rw [if_neg a3]⟩
          · exact Or.inl ⟨hx, hxy, by rw [if_pos rfl]⟩
          · exact Or.inr ⟨hx, hxy, by rw [if_pos rfl]⟩
        · rintro (⟨a1, a2, rfl⟩ | ⟨a1, a2, rfl⟩)
          · by_cases hux : u = x
            · rw [if_pos hux]; exact Or.inr (Or.inl ⟨hux, rfl⟩)
            · rw [if_neg hux]; exact Or.inl (Or.inl ⟨⟨a2, a1⟩, hux, rfl⟩)
          · by_cases hvx : v = x
            · rw [if_pos hvx]; exact Or.inr (Or.inr ⟨rfl, hvx⟩)
            · rw [if_neg hvx]; exact Or.inl (Or.inr ⟨⟨a2, a1⟩, hvx, rfl⟩)
    · obtain ⟨par, rank, h1, h2, h3, h4⟩ := ih ht hcard (Finset.mem_erase.2 ⟨hry, hr⟩)
      refine ⟨fun v => if v = y then x else par v, fun v => if v = y then rank x + 1 else rank v, ⟨hr, by rw [if_neg hry]; exact h1.2⟩,
        ?_, ?_, ?_⟩
      · intro v hv hne
        by_cases hvy : v = y
        · rw [if_pos hvy, if_pos hvy, if_neg hxy]
          exact ⟨hx, rfl⟩
        · obtain ⟨p1, p2⟩ := h2 v (Finset.mem_erase.2 ⟨hvy, hv⟩) hne
          obtain ⟨p3, p4⟩ := Finset.mem_erase.1 p1
          rw [if_neg hvy, if_neg hvy, if_neg p3]
          exact ⟨p4, p2⟩
      · intro v hv
        by_cases hvy : v = y
        · rw [if_pos hvy]
          have := h3 x hxe
          omega
        · rw [if_neg hvy]
          have := h3 v (Finset.mem_erase.2 ⟨hvy, hv⟩)
          omega
      · intro u v
        rw [adj_erase hp, h4]
        simp only [Finset.mem_erase]
        constructor
        · rintro ((⟨⟨a1, a2⟩, a3, rfl⟩ | ⟨⟨a1, a2⟩, a3, rfl⟩) | ⟨rfl, rfl⟩ | ⟨rfl, rfl⟩)
          · exact Or.inl ⟨a2, a3, by rw [if_neg a1]⟩
          · exact Or.inr ⟨a2, a3, by rw [if_neg a1]⟩
          · exact Or.inr ⟨hy, fun e => hry e.symm, by rw [if_pos rfl]⟩
          · exact Or.inl ⟨hy, fun e => hry e.symm, by rw [if_pos rfl]⟩
        · rintro (⟨a1, a2, rfl⟩ | ⟨a1, a2, rfl⟩)
          · by_cases huy : u = y
            · rw [if_pos huy]; exact Or.inr (Or.inr ⟨huy, rfl⟩)
            · rw [if_neg huy]; exact Or.inl (Or.inl ⟨⟨huy, a1⟩, a2, rfl⟩)
          · by_cases hvy : v = y
            · rw [if_pos hvy]; exact Or.inr (Or.inl ⟨rfl, hvy⟩)
            · rw [if_neg hvy]; exact Or.inl (Or.inr ⟨⟨hvy, a1⟩, a2, rfl⟩)

end ICPC.Gen
