import Verif.Model.Families
import Verif.Lemmas.GraphOps4
import Mathlib.Tactic.NormNum

/-!
# Families of graphs
-/

namespace ICPC.Gen

open ICPC ICPC.Spec.EdgeMap ICPC.Props

variable {E : Type} [Inhabited E] {g : Graph E} {dir : Bool} {lo : Int} {n : Nat} {m : Map E}

theorem ofRel_isSome {R : Int → Int → Prop} (u v : Int) : (ofRel dir R u v : Option E).isSome ↔ R u v ∨ (dir = false ∧ R v u) := by
  unfold ofRel
  split <;> simp_all

theorem ofRel_congr {R R' : Int → Int → Prop} (h : ∀ u v, R u v ↔ R' u v) : (ofRel dir R : Map E) = ofRel dir R' := by
  have : R = R' := by funext u v; exact propext (h u v)
  rw [this]

/-- Maps with default data are equal if they have the same edges. -/
theorem map_ext {m m' : Map E} (h : ∀ u v, (m u v).isSome ↔ (m' u v).isSome) (hd : ∀ u v d, m u v = some d → d = default)
    (hd' : ∀ u v d, m' u v = some d → d = default) : m = m' := by
  funext u v
  have := h u v
  cases h1 : m u v with
  | none =>
    cases h2 : m' u v with
    | none => rfl
    | some d' => rw [h1, h2] at this; simp at this
  | some d =>
    cases h2 : m' u v with
    | none => rw [h1, h2] at this; simp at this
    | some d' => rw [hd u v d h1, hd' u v d' h2]

theorem ofRel_default {R : Int → Int → Prop} (u v : Int) (d : E) (h : ofRel dir R u v = some d) : d = default := by
  unfold ofRel at h
  split at h
  · exact (Option.some.inj h).symm
  · cases h

theorem Good.addPairs (h : Good g dir lo n m) (ps : List (Int × Int)) (hv : ∀ p ∈ ps, In lo n p.1 ∧ In lo n p.2 ∧ p.1 ≠ p.2) :
    ∃ g', addPairs g ps = .ok g' ∧ ∃ m', Good g' dir lo n m' ∧ (∀ u v, (m' u v).isSome ↔ (m u v).isSome ∨ ∃ p ∈ ps, Same dir u v p.1 p.2) ∧
      ∀ u v d, m' u v = some d → m u v = some d ∨ d = default := by
  obtain ⟨g', h1, h2⟩ := h.addAll (ps.map fun p => ⟨p.1, p.2, default⟩) (by
    intro e he
    obtain ⟨p, hp, rfl⟩ := List.mem_map.1 he
    exact hv p hp)
  refine ⟨g', ?_, _, h2, ?_, ?_⟩
  · rw [List.foldlM_map] at h1
    exact h1
  · intro u v
    rw [putAll_isSome]
    simp
  · intro u v d hd
    rcases putAll_some u v d hd with hh | ⟨e, he, hd, -⟩
    · exact Or.inl hh
    · obtain ⟨p, hp, rfl⟩ := List.mem_map.1 he
      exact Or.inr hd.symm

/-- A new graph with default edges given by a relation. -/
theorem newPairs (hn : I64 n) (ps : List (Int × Int)) {R : Int → Int → Prop} (hR : ∀ u v, (u, v) ∈ ps ↔ R u v)
    (hv : ∀ u v, R u v → In 0 n u ∧ In 0 n v ∧ u ≠ v) :
    ∃ g res : Graph E, Graph.ofSize dir (n : Int) = .ok res ∧ addPairs res ps = .ok g ∧ Good g dir 0 n (ofRel dir R) := by
  obtain ⟨res, h1, h2, -⟩ := new_good (E := E) dir i64_zero hn (by omega) (by simpa using hn)
  have e : ((n : Int) - 0).toNat = n := by omega
  rw [e] at h2
  obtain ⟨g, h3, m', h4, h5, h6⟩ := h2.addPairs ps (fun p hp => hv p.1 p.2 ((hR _ _).1 hp))
  refine ⟨g, res, h1, h3, ?_⟩
  have : ofRel dir R = m' := by
    refine map_ext ?_ ofRel_default ?_
    · intro u v
      rw [h5, ofRel_isSome]
      simp only [Option.isSome_none, Bool.false_eq_true, false_or]
      constructor
      · rintro (h | ⟨hd, h⟩)
        · exact ⟨(u, v), (hR _ _).2 h, Or.inl ⟨rfl, rfl⟩⟩
        · exact ⟨(v, u), (hR _ _).2 h, Or.inr ⟨hd, rfl, rfl⟩⟩
      · rintro ⟨⟨a, b⟩, hp, ⟨rfl, rfl⟩ | ⟨hd, rfl, rfl⟩⟩
        · exact Or.inl ((hR _ _).1 hp)
        · exact Or.inr ⟨hd, (hR _ _).1 hp⟩
    · intro u v d hd
      rcases h6 u v d hd with h | h
      · cases h
      · exact h
  rw [this]
  exact h4

theorem clique_good (hn : I64 n) : ∃ g : Graph E, clique dir (n : Int) = .ok g ∧ Good g dir 0 n (ofRel dir fun u v => 0 ≤ u ∧ u < v ∧ v < n) := by
  obtain ⟨g, res, h1, h2, h3⟩ := newPairs (E := E) (dir := dir) hn (cliquePairs n) (R := fun u v => 0 ≤ u ∧ u < v ∧ v < n) (by
    intro u v
    unfold cliquePairs
    simp only [List.mem_flatMap, List.mem_map, mem_intRange, Prod.mk.injEq]
    constructor
    · rintro ⟨j, hj, i, hi, rfl, rfl⟩; omega
    · intro h; exact ⟨v, by omega, u, by omega, rfl, rfl⟩) (by
    intro u v h
    exact ⟨⟨by omega, by omega⟩, ⟨by omega, by omega⟩, by omega⟩)
  exact ⟨g, by unfold clique; rw [h1, ok_bind, h2], h3⟩

theorem bipartite_good {k : Nat} (hn : I64 (n + k : Int)) : ∃ g : Graph E, bipartite dir (n : Int) k = .ok g ∧
    Good g dir 0 (n + k) (ofRel dir fun u v => 0 ≤ u ∧ u < n ∧ n ≤ v ∧ v < n + k) := by
  obtain ⟨g, res, h1, h2, h3⟩ := newPairs (E := E) (dir := dir) (n := n + k) (by push_cast; exact hn) (bipartitePairs n k)
    (R := fun u v => 0 ≤ u ∧ u < n ∧ n ≤ v ∧ v < n + k) (by
    intro u v
    unfold bipartitePairs
    simp only [List.mem_flatMap, List.mem_map, mem_intRange, Prod.mk.injEq]
    constructor
    · rintro ⟨i, hi, j, hj, rfl, rfl⟩; omega
    · intro h; exact ⟨u, by omega, v - n, by omega, rfl, by omega⟩) (by
    intro u v h
    exact ⟨⟨by omega, by push_cast; omega⟩, ⟨by omega, by push_cast; omega⟩, by omega⟩)
  refine ⟨g, ?_, h3⟩
  unfold bipartite
  push_cast at h1
  rw [chk_ok hn, ok_bind, h1, ok_bind, h2]

theorem star_good (hn : I64 (n + 1 : Int)) : ∃ g : Graph E, star dir (n : Int) = .ok g ∧
    Good g dir 0 (n + 1) (ofRel dir fun u v => u = 0 ∧ 1 ≤ v ∧ v ≤ n) := by
  obtain ⟨g, h1, h2⟩ := bipartite_good (E := E) (dir := dir) (n := 1) (k := n) (by push_cast; rw [add_comm]; exact hn)
  refine ⟨g, by unfold star; exact_mod_cast h1, ?_⟩
  rw [add_comm n 1, ofRel_congr (R' := fun u v => 0 ≤ u ∧ u < (1 : Nat) ∧ ((1 : Nat) : Int) ≤ v ∧ v < (1 : Nat) + (n : Int))]
  · exact h2
  · intro u v; omega

theorem path_good (hn : I64 (n + 1 : Int)) : ∃ g : Graph E, path dir (n : Int) = .ok g ∧
    Good g dir 0 (n + 1) (ofRel dir fun u v => 0 ≤ u ∧ u < n ∧ v = u + 1) := by
  obtain ⟨g, res, h1, h2, h3⟩ := newPairs (E := E) (dir := dir) (n := n + 1) (by push_cast; exact hn) (pathPairs n)
    (R := fun u v => 0 ≤ u ∧ u < n ∧ v = u + 1) (by
    intro u v
    unfold pathPairs
    simp only [List.mem_map, mem_intRange, Prod.mk.injEq]
    constructor
    · rintro ⟨i, hi, rfl, rfl⟩; omega
    · intro h; exact ⟨u, by omega, rfl, by omega⟩) (by
    intro u v h
    exact ⟨⟨by omega, by push_cast; omega⟩, ⟨by omega, by push_cast; omega⟩, by omega⟩)
  refine ⟨g, ?_, h3⟩
  unfold path
  push_cast at h1
  rw [chk_ok hn, ok_bind, h1, ok_bind, h2]

/-- `path(-1)` is the graph without vertices. -/
theorem path_empty : ∃ g : Graph E, path dir (-1) = .ok g ∧ Good g dir 0 0 (ofRel dir fun _ _ => False) := by
  obtain ⟨g, res, h1, h2, h3⟩ := newPairs (E := E) (dir := dir) (n := 0) i64_zero (pathPairs (-1)) (R := fun _ _ => False) (by
    intro u v
    unfold pathPairs
    simp only [List.mem_map, mem_intRange, Prod.mk.injEq, iff_false]
    rintro ⟨i, hi, -⟩; omega) (by intro u v h; exact h.elim)
  refine ⟨g, ?_, h3⟩
  unfold path
  rw [chk_ok (by decide), ok_bind]
  have h1' : Graph.ofSize dir (-1 + 1) = .ok res := h1
  rw [h1', ok_bind, h2]

theorem put_ofRel {R : Int → Int → Prop} (u v : Int) : put dir (ofRel dir R) u v (default : E) = ofRel dir fun x y => R x y ∨ (x = u ∧ y = v) := by
  refine map_ext ?_ ?_ ofRel_default
  · intro x y
    rw [ofRel_isSome]
    unfold put
    split
    · rename_i hs
      simp only [Option.isSome_some, true_iff]
      rcases hs with ⟨rfl, rfl⟩ | ⟨hd, rfl, rfl⟩
      · exact Or.inl (Or.inr ⟨rfl, rfl⟩)
      · exact Or.inr ⟨hd, Or.inr ⟨rfl, rfl⟩⟩
    · rename_i hs
      rw [ofRel_isSome]
      constructor
      · rintro (h | ⟨hd, h⟩)
        · exact Or.inl (Or.inl h)
        · exact Or.inr ⟨hd, Or.inl h⟩
      · rintro ((h | ⟨rfl, rfl⟩) | ⟨hd, h | ⟨rfl, rfl⟩⟩)
        · exact Or.inl h
        · exact absurd (Or.inl ⟨rfl, rfl⟩) hs
        · exact Or.inr ⟨hd, h⟩
        · exact absurd (Or.inr ⟨hd, rfl, rfl⟩) hs
  · intro x y d hd
    unfold put at hd
    split at hd
    · exact (Option.some.inj hd).symm
    · exact ofRel_default x y d hd

theorem shift_ofRel {R : Int → Int → Prop} (k : Int) : (shift (ofRel dir R) k : Map E) = ofRel dir fun u v => R (u - k) (v - k) := rfl

theorem union_ofRel {R R' : Int → Int → Prop} : (union (ofRel dir R) (ofRel dir R') : Map E) = ofRel dir fun u v => R u v ∨ R' u v := by
  refine map_ext ?_ ?_ ofRel_default
  · intro u v
    rw [ofRel_isSome]
    unfold union
    have h1 := ofRel_isSome (E := E) (dir := dir) (R := R) u v
    have h2 := ofRel_isSome (E := E) (dir := dir) (R := R') u v
    cases h3 : (ofRel dir R' u v : Option E) with
    | none =>
      rw [h3] at h2
      simp only [Option.isSome_none, Bool.false_eq_true, false_iff] at h2
      rw [Option.orElse_none, h1]
      tauto
    | some d =>
      rw [h3] at h2
      simp only [Option.isSome_some, true_iff] at h2
      rw [Option.orElse_some]
      simp only [Option.isSome_some, true_iff]
      tauto
  · intro u v d hd
    unfold union at hd
    cases h3 : (ofRel dir R' u v : Option E) with
    | none =>
      rw [h3, Option.orElse_none] at hd
      exact ofRel_default u v d hd
    | some d' =>
      rw [h3, Option.orElse_some] at hd
      rw [← Option.some.inj hd]
      exact ofRel_default u v d' h3

theorem cycle_good (h3 : 3 ≤ n) (hn : I64 n) : ∃ g : Graph E, cycle (n : Int) = .ok g ∧
    Good g false 0 n (ofRel false fun u v => (0 ≤ u ∧ u < n - 1 ∧ v = u + 1) ∨ (u = n - 1 ∧ v = 0)) := by
  obtain ⟨g, h1, h2⟩ := path_good (E := E) (dir := false) (n := n - 1) (by
    rw [show ((n - 1 : Nat) : Int) + 1 = n from by omega]; exact hn)
  have hc : ((n - 1 : Nat) : Int) = (n : Int) - 1 := by omega
  rw [show n - 1 + 1 = n from by omega] at h2
  rw [hc] at h1 h2
  obtain ⟨g', h4, h5, -⟩ := h2.add (u := (n : Int) - 1) (v := 0) default ⟨by omega, by omega⟩ ⟨by omega, by omega⟩ (by omega)
  refine ⟨g', ?_, ?_⟩
  · unfold cycle
    have := hn.2
    rw [chk_ok ⟨by omega, by omega⟩, ok_bind, h1, ok_bind, h4]
  · rw [put_ofRel] at h5
    exact h5

theorem wheel_good (hn : I64 (n + 2 : Int)) : ∃ g : Graph E, wheel (n : Int) = .ok g ∧
    Good g false 0 (n + 2) (ofRel false fun u v => (u = 0 ∧ 1 ≤ v ∧ v ≤ n) ∨ (1 ≤ u ∧ u ≤ n ∧ v = u + 1)) := by
  have := hn.2
  obtain ⟨s, s1, s2⟩ := star_good (E := E) (dir := false) (n := n) ⟨by omega, by omega⟩
  obtain ⟨p, p1, p2⟩ := path_good (E := E) (dir := false) (n := n) ⟨by omega, by omega⟩
  obtain ⟨q, q1, q2, -⟩ := p2.setMinId 1 (by decide) ⟨by push_cast; omega, by push_cast; omega⟩
  obtain ⟨g, g1, g2⟩ := s2.combine q2 ⟨by push_cast; omega, by push_cast; omega⟩
  refine ⟨g, by unfold wheel; rw [s1, ok_bind, p1, ok_bind, q1, ok_bind, g1], ?_⟩
  rw [shift_ofRel, union_ofRel] at g2
  rw [show (max (0 + ((n + 1 : Nat) : Int)) (1 + ((n + 1 : Nat) : Int)) - min 0 1).toNat = n + 2 from by push_cast; omega,
    show min (0 : Int) 1 = 0 from rfl] at g2
  rw [ofRel_congr]
  · exact g2
  · intro u v; omega

theorem lolly_good {p c : Nat} (hn : I64 (p + 1 + c : Int)) : ∃ g : Graph E, lolly (p : Int) c = .ok g ∧
    Good g false 0 (max (p + 1) (p + c)) (ofRel false fun u v => (0 ≤ u ∧ u < p ∧ v = u + 1) ∨ (p ≤ u ∧ u < v ∧ v < p + c)) := by
  have := hn.2
  obtain ⟨a, a1, a2⟩ := path_good (E := E) (dir := false) (n := p) ⟨by omega, by omega⟩
  obtain ⟨b, b1, b2⟩ := clique_good (E := E) (dir := false) (n := c) ⟨by omega, by omega⟩
  obtain ⟨q, q1, q2, -⟩ := b2.setMinId p ⟨by omega, by omega⟩ ⟨by omega, by omega⟩
  obtain ⟨g, g1, g2⟩ := a2.combine q2 ⟨by push_cast; omega, by push_cast; omega⟩
  refine ⟨g, by unfold lolly; rw [a1, ok_bind, b1, ok_bind, q1, ok_bind, g1], ?_⟩
  rw [shift_ofRel, union_ofRel] at g2
  rw [show (max (0 + ((p + 1 : Nat) : Int)) ((p : Int) + (c : Int)) - min 0 (p : Int)).toNat = max (p + 1) (p + c) from by push_cast; omega,
    show min (0 : Int) p = 0 from by omega] at g2
  rw [ofRel_congr]
  · exact g2
  · intro u v; omega

theorem broom_good {p l : Nat} (hn : I64 (p + 1 + l : Int)) : ∃ g : Graph E, broom (p : Int) l = .ok g ∧
    Good g false 0 (p + l + 1) (ofRel false fun u v => (0 ≤ u ∧ u < p ∧ v = u + 1) ∨ (u = p ∧ p < v ∧ v ≤ p + l)) := by
  have := hn.2
  obtain ⟨a, a1, a2⟩ := path_good (E := E) (dir := false) (n := p) ⟨by omega, by omega⟩
  obtain ⟨b, b1, b2⟩ := star_good (E := E) (dir := false) (n := l) ⟨by omega, by omega⟩
  obtain ⟨q, q1, q2, -⟩ := b2.setMinId p ⟨by omega, by omega⟩ ⟨by push_cast; omega, by push_cast; omega⟩
  obtain ⟨g, g1, g2⟩ := a2.combine q2 ⟨by push_cast; omega, by push_cast; omega⟩
  refine ⟨g, by unfold broom; rw [a1, ok_bind, b1, ok_bind, q1, ok_bind, g1], ?_⟩
  rw [shift_ofRel, union_ofRel] at g2
  rw [show (max (0 + ((p + 1 : Nat) : Int)) ((p : Int) + ((l + 1 : Nat) : Int)) - min 0 (p : Int)).toNat = p + l + 1 from by push_cast; omega,
    show min (0 : Int) p = 0 from by omega] at g2
  rw [ofRel_congr]
  · exact g2
  · intro u v; omega

/-- `path(k - 1)` for any number `k` of vertices. -/
theorem path_vertices {k : Nat} (hk : I64 k) : ∃ g : Graph E, path dir ((k : Int) - 1) = .ok g ∧
    Good g dir 0 k (ofRel dir fun u v => 0 ≤ u ∧ v < k ∧ v = u + 1) := by
  match k, hk with
  | 0, _ =>
    obtain ⟨g, h1, h2⟩ := path_empty (E := E) (dir := dir)
    refine ⟨g, h1, ?_⟩
    rw [ofRel_congr (R' := fun _ _ => False)]
    · exact h2
    · intro u v; push_cast; simp only [iff_false]; omega
  | k + 1, hk =>
    obtain ⟨g, h1, h2⟩ := path_good (E := E) (dir := dir) (n := k) (by push_cast at hk; exact hk)
    refine ⟨g, by rw [show ((k + 1 : Nat) : Int) - 1 = k from by push_cast; omega]; exact h1, ?_⟩
    rw [ofRel_congr]
    · exact h2
    · intro u v; push_cast; omega

theorem cart_default (lo : Int) (n : Nat) (lo' : Int) (n' : Nat) (m m' : Map E) (x y : Int) (d : E) (h : cart lo n lo' n' m m' x y = some d) : d = default := by
  unfold cart at h
  split at h
  · exact (Option.some.inj h).symm
  · cases h

theorem cart_isSome (lo : Int) (n : Nat) (lo' : Int) (n' : Nat) (m m' : Map E) (x y : Int) : (cart lo n lo' n' m m' x y).isSome ↔
    ∃ a b c d, x = pairId lo n lo' a b ∧ y = pairId lo n lo' c d ∧
      ((a = c ∧ In lo n a ∧ (m' b d).isSome) ∨ (b = d ∧ In lo' n' b ∧ (m a c).isSome)) := by
  unfold cart
  split
  · rename_i h; exact ⟨fun _ => h, fun _ => rfl⟩
  · rename_i h; exact ⟨fun h' => (by cases h'), fun h' => absurd h' h⟩

theorem grid_good {k : Nat} (hn : I64 n) (hk : I64 k) (hnk : I64 (n * k : Int)) : ∃ g : Graph E, grid (n : Int) k = .ok g ∧
    Good g false 0 (n * k) (ofRel false fun x y => 0 ≤ x ∧ y < n * k ∧ ((y = x + 1 ∧ y % n ≠ 0) ∨ y = x + n)) := by
  obtain ⟨a, a1, a2⟩ := path_vertices (E := E) (dir := false) hn
  obtain ⟨b, b1, b2⟩ := path_vertices (E := E) (dir := false) hk
  obtain ⟨g, g1, g2⟩ := a2.cartesian b2 hnk
  have := hn.2
  have := hk.2
  refine ⟨g, by unfold grid; rw [chk_ok ⟨by omega, by omega⟩, ok_bind, chk_ok ⟨by omega, by omega⟩, ok_bind, a1, ok_bind, b1, ok_bind, g1], ?_⟩
  rw [map_ext (m' := cart 0 n 0 k _ _) _ ofRel_default (cart_default _ _ _ _ _ _)]
  · exact g2
  intro x y
  rw [cart_isSome, ofRel_isSome]
  simp only [ofRel_isSome, true_and]
  -- one direction of an edge
  have key : ∀ x y : Int, (0 ≤ x ∧ y < n * k ∧ ((y = x + 1 ∧ y % n ≠ 0) ∨ y = x + n)) ↔
      ∃ a b c d : Int, x = pairId 0 n 0 a b ∧ y = pairId 0 n 0 c d ∧ ((a = c ∧ In 0 n a ∧ (0 ≤ b ∧ d < k ∧ d = b + 1)) ∨
        (b = d ∧ In 0 k b ∧ (0 ≤ a ∧ c < n ∧ c = a + 1))) := by
    intro x y
    unfold pairId In
    simp only [sub_zero, zero_add]
    constructor
    · rintro ⟨hx, hy, hxy⟩
      have hn0 : (n : Int) ≠ 0 := by
        intro h0
        rw [h0] at hy
        rcases hxy with ⟨h, -⟩ | h <;> simp at hy <;> omega
      have hnpos : (0 : Int) < n := by omega
      have hm1 := Int.emod_nonneg x hn0
      have hm2 := Int.emod_lt_of_pos x hnpos
      have hd1 : 0 ≤ x / (n : Int) := Int.ediv_nonneg hx (by omega)
      have hx' : x / (n : Int) * n + x % n = x := Int.ediv_mul_add_emod x n
      rcases hxy with ⟨rfl, hne⟩ | rfl
      · refine ⟨x % n, x / n, x % n + 1, x / n, by omega, by omega, Or.inr ⟨rfl, ⟨hd1, ?_⟩, hm1, ?_, rfl⟩⟩
        · exact Int.ediv_lt_of_lt_mul hnpos (by rw [mul_comm]; omega)
        · by_contra hge
          apply hne
          rw [← Int.emod_add_emod, show x % (n : Int) + 1 = n from by omega, Int.emod_self]
      · refine ⟨x % n, x / n, x % n, x / n + 1, by omega, ?_, Or.inl ⟨rfl, ⟨hm1, by omega⟩, hd1, ?_, rfl⟩⟩
        · have : (x / (n : Int) + 1) * n = x / n * n + n := by ring
          omega
        · have : x / (n : Int) + 1 ≤ (x + n) / n := by rw [Int.add_ediv_of_dvd_right (dvd_refl _), Int.ediv_self hn0]
          have : (x + (n : Int)) / n < k := Int.ediv_lt_of_lt_mul hnpos (by rw [mul_comm]; exact hy)
          omega
    · rintro ⟨a, b, c, d, rfl, rfl, ⟨rfl, ⟨ha1, ha2⟩, hb, hd, rfl⟩ | ⟨rfl, ⟨hb1, hb2⟩, ha, hc, rfl⟩⟩
      · have h1 : 0 ≤ b * (n : Int) := Int.mul_nonneg hb (by omega)
        have h2 : (b + 1) * (n : Int) ≤ (k - 1) * n := Int.mul_le_mul_of_nonneg_right (by omega) (by omega)
        have h3 : ((k : Int) - 1) * n = n * k - n := by ring
        have h4 : (b + 1) * (n : Int) = b * n + n := by ring
        exact ⟨by omega, by omega, Or.inr (by omega)⟩
      · have h1 : 0 ≤ b * (n : Int) := Int.mul_nonneg hb1 (by omega)
        have h2 : b * (n : Int) ≤ (k - 1) * n := Int.mul_le_mul_of_nonneg_right (by omega) (by omega)
        have h3 : ((k : Int) - 1) * n = n * k - n := by ring
        refine ⟨by omega, by omega, Or.inl ⟨by omega, ?_⟩⟩
        rw [add_comm, Int.add_mul_emod_self_right, Int.emod_eq_of_lt (by omega) (by omega)]
        omega
  rw [key x y, key y x]
  constructor
  · rintro (⟨a, b, c, d, hx, hy, h⟩ | ⟨a, b, c, d, hy, hx, h⟩)
    · refine ⟨a, b, c, d, hx, hy, ?_⟩
      rcases h with ⟨h1, h2, h3⟩ | ⟨h1, h2, h3⟩
      · exact Or.inl ⟨h1, h2, Or.inl h3⟩
      · exact Or.inr ⟨h1, h2, Or.inl h3⟩
    · refine ⟨c, d, a, b, hx, hy, ?_⟩
      rcases h with ⟨h1, h2, h3⟩ | ⟨h1, h2, h3⟩
      · exact Or.inl ⟨h1.symm, h1 ▸ h2, Or.inr h3⟩
      · exact Or.inr ⟨h1.symm, h1 ▸ h2, Or.inr h3⟩
  · rintro ⟨a, b, c, d, hx, hy, h⟩
    rcases h with ⟨h1, h2, h3 | h3⟩ | ⟨h1, h2, h3 | h3⟩
    · exact Or.inl ⟨a, b, c, d, hx, hy, Or.inl ⟨h1, h2, h3⟩⟩
    · exact Or.inr ⟨c, d, a, b, hy, hx, Or.inl ⟨h1.symm, h1 ▸ h2, h3⟩⟩
    · exact Or.inl ⟨a, b, c, d, hx, hy, Or.inr ⟨h1, h2, h3⟩⟩
    · exact Or.inr ⟨c, d, a, b, hy, hx, Or.inr ⟨h1.symm, h1 ▸ h2, h3⟩⟩

end ICPC.Gen
