import Verif.Lemmas.GraphOps3
import Mathlib.Tactic.Linarith
import Mathlib.Tactic.Ring

/-!
# Products
-/

namespace ICPC.Gen

open ICPC ICPC.Spec.EdgeMap ICPC.Props

variable {E : Type} {g o : Graph E} {dir : Bool} {lo lo' : Int} {n n' : Nat} {m m' : Map E}

theorem pairId_inj {a b c d : Int} (ha : In lo n a) (hc : In lo n c) (h : pairId lo n lo' a b = pairId lo n lo' c d) : a = c ∧ b = d := by
  unfold pairId at h
  obtain ⟨a1, a2⟩ := ha
  obtain ⟨c1, c2⟩ := hc
  have hmod := congrArg (· % (n : Int)) h
  rw [add_comm, Int.add_mul_emod_self_right, add_comm, Int.add_mul_emod_self_right, Int.emod_eq_of_lt (by omega) (by omega),
    Int.emod_eq_of_lt (by omega) (by omega)] at hmod
  have hac : a = c := by omega
  subst hac
  refine ⟨rfl, ?_⟩
  have : (b - lo') * n = (d - lo') * (n : Int) := by omega
  have := Int.eq_of_mul_eq_mul_right (show (n : Int) ≠ 0 by omega) this
  omega

theorem pairId_in {a b : Int} (ha : In lo n a) (hb : In lo' n' b) : In 0 (n * n') (pairId lo n lo' a b) := by
  unfold pairId
  obtain ⟨a1, a2⟩ := ha
  obtain ⟨b1, b2⟩ := hb
  constructor
  · have : 0 ≤ (b - lo') * (n : Int) := Int.mul_nonneg (by omega) (by omega)
    omega
  · have h1 : (b - lo') * (n : Int) ≤ ((n' : Int) - 1) * n := Int.mul_le_mul_of_nonneg_right (by omega) (by omega)
    have h2 : ((n' : Int) - 1) * n = n * n' - n := by ring
    push_cast
    omega

theorem newId_eq (h : Good g dir lo n m) (ho : Good o dir lo' n' m') (a b : Int) : Graph.newId g o a b = pairId lo n lo' a b := by
  unfold Graph.newId pairId
  rw [h.isLo, ho.isLo, h.nodeCount_eq]

theorem same_pair {a b c d a' b' c' d' : Int} (ha : In lo n a) (hc : In lo n c) (ha' : In lo n a') (hc' : In lo n c') :
    Same dir (pairId lo n lo' a b) (pairId lo n lo' c d) (pairId lo n lo' a' b') (pairId lo n lo' c' d') ↔
      (a' = a ∧ b' = b ∧ c' = c ∧ d' = d) ∨ (dir = false ∧ a' = c ∧ b' = d ∧ c' = a ∧ d' = b) := by
  unfold Same
  constructor
  · rintro (⟨h1, h2⟩ | ⟨hd, h1, h2⟩)
    · obtain ⟨x1, x2⟩ := pairId_inj ha' ha h1
      obtain ⟨y1, y2⟩ := pairId_inj hc' hc h2
      exact Or.inl ⟨x1, x2, y1, y2⟩
    · obtain ⟨x1, x2⟩ := pairId_inj ha' hc h1
      obtain ⟨y1, y2⟩ := pairId_inj hc' ha h2
      exact Or.inr ⟨hd, x1, x2, y1, y2⟩
  · rintro (⟨rfl, rfl, rfl, rfl⟩ | ⟨hd, rfl, rfl, rfl, rfl⟩)
    · exact Or.inl ⟨rfl, rfl⟩
    · exact Or.inr ⟨hd, rfl, rfl⟩

/-- A new graph with vertices `[0, k)` and the edges `ts`. -/
theorem ofSize_build {k : Nat} (hk : I64 k) {ts : List (Edge E)} (hv : Valid 0 k ts) (hu : Uniq dir ts)
    (hm : ∀ u v d, m u v = some d ↔ ∃ e ∈ ts, e.data = d ∧ Same dir u v e.src e.dst) :
    ∃ g' res : Graph E, Graph.ofSize dir (k : Int) = .ok res ∧ Graph.buildAdj { res with edges := ts.map Edge.toRec } = .ok g' ∧ Good g' dir 0 k m ∧
      g'.edges = ts.map Edge.toRec := by
  unfold Graph.ofSize
  rw [new_eq dir (by omega) (by simpa using hk)]
  suffices hb : ∃ g', Graph.buildAdj (⟨dir, List.replicate ((k : Int) - 0).toNat [], ts.map Edge.toRec, 0⟩ : Graph E) = .ok g' ∧
      Good g' dir 0 k m ∧ g'.edges = ts.map Edge.toRec by
    obtain ⟨g', h1, h2, h3⟩ := hb
    exact ⟨g', _, rfl, h1, h2, h3⟩
  exact build_list i64_zero (by simpa using hk) hk hv hu hm rfl rfl (by simp) (fun s hs => List.eq_of_mem_replicate hs) rfl

theorem Good.isSome_iff (h : Good g dir lo n m) (u v : Int) : (m u v).isSome ↔ ∃ e ∈ g.getEdges, Same dir u v e.src e.dst := by
  rw [Option.isSome_iff_exists]
  simp only [h.map_iff]
  constructor
  · rintro ⟨d, e, he, -, hs⟩; exact ⟨e, he, hs⟩
  · rintro ⟨e, he, hs⟩; exact ⟨e.data, e, he, rfl, hs⟩

theorem Good.isSome_in (h : Good g dir lo n m) {u v : Int} (hs : (m u v).isSome) : In lo n u ∧ In lo n v ∧ u ≠ v := by
  obtain ⟨d, hd⟩ := Option.isSome_iff_exists.1 hs
  exact h.map_in hd

theorem Good.product [Inhabited E] (h : Good g false lo n m) (ho : Good o false lo' n' m') (hfit : I64 (n * n' : Int)) :
    ∃ g', g.product o = .ok g' ∧ Good g' false 0 (n * n') (tensor lo n lo' m m') := by
  set f := pairId lo n lo' with hf
  set ts : List (Edge E) := g.getEdges.flatMap fun e1 => o.getEdges.flatMap fun e2 =>
    [⟨f e1.src e2.src, f e1.dst e2.dst, default⟩, ⟨f e1.src e2.dst, f e1.dst e2.src, default⟩] with hts
  have hmem : ∀ x : Edge E, x ∈ ts ↔ ∃ e1 ∈ g.getEdges, ∃ e2 ∈ o.getEdges,
      x = ⟨f e1.src e2.src, f e1.dst e2.dst, default⟩ ∨ x = ⟨f e1.src e2.dst, f e1.dst e2.src, default⟩ := by
    intro x
    rw [hts]
    simp only [List.mem_flatMap, List.mem_cons, List.not_mem_nil, or_false]
  have hcases : ∀ (e1 e2 x : Edge E), x ∈ [(⟨f e1.src e2.src, f e1.dst e2.dst, default⟩ : Edge E), ⟨f e1.src e2.dst, f e1.dst e2.src, default⟩] →
      x.src = f e1.src e2.src ∧ x.dst = f e1.dst e2.dst ∨ x.src = f e1.src e2.dst ∧ x.dst = f e1.dst e2.src := by
    intro e1 e2 x hx
    simp only [List.mem_cons, List.not_mem_nil, or_false] at hx
    rcases hx with rfl | rfl
    · exact Or.inl ⟨rfl, rfl⟩
    · exact Or.inr ⟨rfl, rfl⟩
  have hblock : ∀ (e1 e2 e1' e2' x y : Edge E), e1 ∈ g.getEdges → e1' ∈ g.getEdges →
      x ∈ [(⟨f e1.src e2.src, f e1.dst e2.dst, default⟩ : Edge E), ⟨f e1.src e2.dst, f e1.dst e2.src, default⟩] →
      y ∈ [(⟨f e1'.src e2'.src, f e1'.dst e2'.dst, default⟩ : Edge E), ⟨f e1'.src e2'.dst, f e1'.dst e2'.src, default⟩] →
      EqEdge false x y → EqEdge false e1 e1' ∧ EqEdge false e2 e2' := by
    intro e1 e2 e1' e2' x y h1 h1' hx hy he
    obtain ⟨v1, v2, -⟩ := h.valid e1 h1
    obtain ⟨v1', v2', -⟩ := h.valid e1' h1'
    unfold EqEdge at *
    rcases hcases _ _ _ hx with ⟨x1, x2⟩ | ⟨x1, x2⟩ <;> rcases hcases _ _ _ hy with ⟨y1, y2⟩ | ⟨y1, y2⟩ <;>
      rw [x1, x2, y1, y2, hf, same_pair v1 v2 v1' v2'] at he <;> unfold Same <;> simp at he ⊢ <;> omega
  obtain ⟨g', res, h1, h2, h3, -⟩ := ofSize_build (m := tensor lo n lo' m m') (dir := false) (k := n * n') (by push_cast; exact hfit) (ts := ts) (by
    intro x hx
    obtain ⟨e1, he1, e2, he2, hx⟩ := (hmem x).1 hx
    obtain ⟨a1, a2, a3⟩ := h.valid e1 he1
    obtain ⟨b1, b2, b3⟩ := ho.valid e2 he2
    rcases hx with rfl | rfl
    · exact ⟨pairId_in a1 b1, pairId_in a2 b2, fun hh => a3 (pairId_inj a1 a2 hh).1⟩
    · exact ⟨pairId_in a1 b2, pairId_in a2 b1, fun hh => a3 (pairId_inj a1 a2 hh).1⟩) (by
    rw [hts]
    unfold Uniq
    rw [List.pairwise_flatMap]
    constructor
    · intro e1 he1
      obtain ⟨v1, v2, v3⟩ := h.valid e1 he1
      rw [List.pairwise_flatMap]
      constructor
      · intro e2 he2
        obtain ⟨w1, w2, w3⟩ := ho.valid e2 he2
        simp only [List.pairwise_cons, List.mem_singleton, forall_eq, List.not_mem_nil, false_implies, implies_true, List.Pairwise.nil, and_true,
          EqEdge]
        rw [hf, same_pair v1 v2 v1 v2]
        omega
      · refine ho.uniq.imp_of_mem ?_
        intro e2 e2' m2 m2' hne x hx y hy he
        exact hne (hblock e1 e2 e1 e2' x y he1 he1 hx hy he).2
    · refine h.uniq.imp_of_mem ?_
      intro e1 e1' m1 m1' hne x hx y hy he
      obtain ⟨e2, -, hx⟩ := List.mem_flatMap.1 hx
      obtain ⟨e2', -, hy⟩ := List.mem_flatMap.1 hy
      exact hne (hblock e1 e2 e1' e2' x y m1 m1' hx hy he).1) (by
    intro x y d
    unfold tensor
    constructor
    · intro hd
      split at hd
      · rename_i hc
        obtain ⟨a, b, c, d', rfl, rfl, hm1, hm2⟩ := hc
        obtain ⟨e1, he1, s1⟩ := (h.isSome_iff a c).1 hm1
        obtain ⟨e2, he2, s2⟩ := (ho.isSome_iff b d').1 hm2
        have hd' := Option.some.inj hd
        rcases s1 with ⟨rfl, rfl⟩ | ⟨-, rfl, rfl⟩ <;> rcases s2 with ⟨rfl, rfl⟩ | ⟨-, rfl, rfl⟩
        · exact ⟨_, (hmem _).2 ⟨e1, he1, e2, he2, Or.inl rfl⟩, hd', Or.inl ⟨rfl, rfl⟩⟩
        · exact ⟨_, (hmem _).2 ⟨e1, he1, e2, he2, Or.inr rfl⟩, hd', Or.inl ⟨rfl, rfl⟩⟩
        · exact ⟨_, (hmem _).2 ⟨e1, he1, e2, he2, Or.inr rfl⟩, hd', Or.inr ⟨rfl, rfl, rfl⟩⟩
        · exact ⟨_, (hmem _).2 ⟨e1, he1, e2, he2, Or.inl rfl⟩, hd', Or.inr ⟨rfl, rfl, rfl⟩⟩
      · cases hd
    · rintro ⟨e, he, hd, hs⟩
      obtain ⟨e1, he1, e2, he2, hx⟩ := (hmem e).1 he
      have m1 := (h.isSome_iff e1.src e1.dst).2 ⟨e1, he1, Or.inl ⟨rfl, rfl⟩⟩
      have m2 := (ho.isSome_iff e2.src e2.dst).2 ⟨e2, he2, Or.inl ⟨rfl, rfl⟩⟩
      have m1' := (h.isSome_iff e1.dst e1.src).2 ⟨e1, he1, Or.inr ⟨rfl, rfl, rfl⟩⟩
      have m2' := (ho.isSome_iff e2.dst e2.src).2 ⟨e2, he2, Or.inr ⟨rfl, rfl, rfl⟩⟩
      have hdd : e.data = default := by rcases hx with rfl | rfl <;> rfl
      rw [if_pos, ← hd, hdd]
      rcases hx with rfl | rfl <;> rcases hs with ⟨s1, s2⟩ | ⟨-, s1, s2⟩
      · exact ⟨_, _, _, _, s1.symm, s2.symm, m1, m2⟩
      · exact ⟨_, _, _, _, s2.symm, s1.symm, m1', m2'⟩
      · exact ⟨_, _, _, _, s1.symm, s2.symm, m1, m2'⟩
      · exact ⟨_, _, _, _, s2.symm, s1.symm, m1', m2⟩)
  refine ⟨g', ?_, h3⟩
  unfold Graph.product
  rw [h.nodeCount_eq, ho.nodeCount_eq, chk_ok hfit, ok_bind, h.isDir]
  push_cast at h1
  have he : (g.getEdges.flatMap fun e1 => o.getEdges.flatMap fun e2 =>
      [Graph.mkRec (Graph.newId g o e1.src e2.src) (Graph.newId g o e1.dst e2.dst) (default : E),
        Graph.mkRec (Graph.newId g o e1.src e2.dst) (Graph.newId g o e1.dst e2.src) default]) = ts.map Edge.toRec := by
    rw [hts, List.map_flatMap]
    refine List.flatMap_congr fun e1 _ => ?_
    rw [List.map_flatMap]
    refine List.flatMap_congr fun e2 _ => ?_
    simp only [newId_eq h ho]
    rfl
  rw [h1, ok_bind, he]
  exact h2

theorem Good.cartesian [Inhabited E] (h : Good g dir lo n m) (ho : Good o dir lo' n' m') (hfit : I64 (n * n' : Int)) :
    ∃ g', g.cartesian o = .ok g' ∧ Good g' dir 0 (n * n') (cart lo n lo' n' m m') := by
  set f := pairId lo n lo' with hf
  set t1 : List (Edge E) := o.getEdges.flatMap fun e => (intRange 0 n).map fun i => ⟨f (i + lo) e.src, f (i + lo) e.dst, default⟩ with ht1
  set t2 : List (Edge E) := g.getEdges.flatMap fun e => (intRange 0 n').map fun i => ⟨f e.src (i + lo'), f e.dst (i + lo'), default⟩ with ht2
  have hmem1 : ∀ x : Edge E, x ∈ t1 ↔ ∃ e ∈ o.getEdges, ∃ a, In lo n a ∧ x = ⟨f a e.src, f a e.dst, default⟩ := by
    intro x
    rw [ht1]
    simp only [List.mem_flatMap, List.mem_map, mem_intRange]
    refine exists_congr fun e => and_congr_right fun _ => ?_
    constructor
    · rintro ⟨i, hi, rfl⟩; exact ⟨i + lo, ⟨by omega, by omega⟩, rfl⟩
    · rintro ⟨a, ⟨h1, h2⟩, rfl⟩; exact ⟨a - lo, by omega, by rw [sub_add_cancel]⟩
  have hmem2 : ∀ x : Edge E, x ∈ t2 ↔ ∃ e ∈ g.getEdges, ∃ b, In lo' n' b ∧ x = ⟨f e.src b, f e.dst b, default⟩ := by
    intro x
    rw [ht2]
    simp only [List.mem_flatMap, List.mem_map, mem_intRange]
    refine exists_congr fun e => and_congr_right fun _ => ?_
    constructor
    · rintro ⟨i, hi, rfl⟩; exact ⟨i + lo', ⟨by omega, by omega⟩, rfl⟩
    · rintro ⟨a, ⟨h1, h2⟩, rfl⟩; exact ⟨a - lo', by omega, by rw [sub_add_cancel]⟩
  obtain ⟨g', res, h1, h2, h3, -⟩ := ofSize_build (m := cart lo n lo' n' m m') (dir := dir) (k := n * n') (by push_cast; exact hfit) (ts := t1 ++ t2) (by
    intro x hx
    rcases List.mem_append.1 hx with hx | hx
    · obtain ⟨e, he, a, ha, rfl⟩ := (hmem1 x).1 hx
      obtain ⟨b1, b2, b3⟩ := ho.valid e he
      exact ⟨pairId_in ha b1, pairId_in ha b2, fun hh => b3 (pairId_inj ha ha hh).2⟩
    · obtain ⟨e, he, b, hb, rfl⟩ := (hmem2 x).1 hx
      obtain ⟨a1, a2, a3⟩ := h.valid e he
      exact ⟨pairId_in a1 hb, pairId_in a2 hb, fun hh => a3 (pairId_inj a1 a2 hh).1⟩) (by
    unfold Uniq
    rw [List.pairwise_append]
    refine ⟨?_, ?_, ?_⟩
    · rw [ht1, List.pairwise_flatMap]
      constructor
      · intro e he
        obtain ⟨-, -, b3⟩ := ho.valid e he
        rw [List.pairwise_map]
        refine (intRange_pairwise 0 n).imp_of_mem ?_
        intro i j hi hj hij hs
        rw [mem_intRange] at hi hj
        unfold EqEdge at hs
        simp only at hs
        rw [hf, same_pair ⟨by omega, by omega⟩ ⟨by omega, by omega⟩ ⟨by omega, by omega⟩ ⟨by omega, by omega⟩] at hs
        omega
      · refine ho.uniq.imp_of_mem ?_
        intro e e' he he' hne x hx y hy hs
        obtain ⟨i, hi, rfl⟩ := List.mem_map.1 hx
        obtain ⟨j, hj, rfl⟩ := List.mem_map.1 hy
        rw [mem_intRange] at hi hj
        unfold EqEdge at hs hne
        simp only at hs
        rw [hf, same_pair ⟨by omega, by omega⟩ ⟨by omega, by omega⟩ ⟨by omega, by omega⟩ ⟨by omega, by omega⟩] at hs
        apply hne
        rcases hs with hs | ⟨c, hs⟩
        · exact Or.inl ⟨hs.2.1, hs.2.2.2⟩
        · exact Or.inr ⟨c, hs.2.1, hs.2.2.2⟩
    · rw [ht2, List.pairwise_flatMap]
      constructor
      · intro e he
        obtain ⟨a1, a2, a3⟩ := h.valid e he
        rw [List.pairwise_map]
        refine (intRange_pairwise 0 n').imp_of_mem ?_
        intro i j hi hj hij hs
        unfold EqEdge at hs
        simp only at hs
        rw [hf, same_pair a1 a2 a1 a2] at hs
        omega
      · refine h.uniq.imp_of_mem ?_
        intro e e' he he' hne x hx y hy hs
        obtain ⟨a1, a2, a3⟩ := h.valid e he
        obtain ⟨b1, b2, b3⟩ := h.valid e' he'
        obtain ⟨i, hi, rfl⟩ := List.mem_map.1 hx
        obtain ⟨j, hj, rfl⟩ := List.mem_map.1 hy
        unfold EqEdge at hs hne
        simp only at hs
        rw [hf, same_pair a1 a2 b1 b2] at hs
        apply hne
        rcases hs with hs | ⟨c, hs⟩
        · exact Or.inl ⟨hs.1, hs.2.2.1⟩
        · exact Or.inr ⟨c, hs.1, hs.2.2.1⟩
    · intro x hx y hy hs
      obtain ⟨e, he, a, ha, rfl⟩ := (hmem1 x).1 hx
      obtain ⟨e', he', b, hb, rfl⟩ := (hmem2 y).1 hy
      obtain ⟨a1, a2, a3⟩ := h.valid e' he'
      unfold EqEdge at hs
      simp only at hs
      rw [hf, same_pair ha ha a1 a2] at hs
      omega) (by
    intro x y d
    unfold cart
    constructor
    · intro hd
      split at hd
      · rename_i hc
        obtain ⟨a, b, c, d', rfl, rfl, hc⟩ := hc
        have hd' := Option.some.inj hd
        rcases hc with ⟨rfl, ha, hm⟩ | ⟨rfl, hb, hm⟩
        · obtain ⟨e, he, s⟩ := (ho.isSome_iff _ _).1 hm
          refine ⟨⟨f a e.src, f a e.dst, default⟩, List.mem_append.2 (Or.inl ((hmem1 _).2 ⟨e, he, a, ha, rfl⟩)), hd', ?_⟩
          rcases s with ⟨rfl, rfl⟩ | ⟨c, rfl, rfl⟩
          · exact Or.inl ⟨rfl, rfl⟩
          · exact Or.inr ⟨c, rfl, rfl⟩
        · obtain ⟨e, he, s⟩ := (h.isSome_iff _ _).1 hm
          refine ⟨⟨f e.src b, f e.dst b, default⟩, List.mem_append.2 (Or.inr ((hmem2 _).2 ⟨e, he, b, hb, rfl⟩)), hd', ?_⟩
          rcases s with ⟨rfl, rfl⟩ | ⟨c, rfl, rfl⟩
          · exact Or.inl ⟨rfl, rfl⟩
          · exact Or.inr ⟨c, rfl, rfl⟩
      · cases hd
    · rintro ⟨x', hx', hd, hs⟩
      rcases List.mem_append.1 hx' with hx' | hx'
      · obtain ⟨e, he, a, ha, rfl⟩ := (hmem1 _).1 hx'
        simp only at hd hs
        rw [if_pos, hd]
        rcases hs with ⟨s1, s2⟩ | ⟨c, s1, s2⟩
        · exact ⟨_, _, _, _, s1.symm, s2.symm, Or.inl ⟨rfl, ha, (ho.isSome_iff _ _).2 ⟨e, he, Or.inl ⟨rfl, rfl⟩⟩⟩⟩
        · exact ⟨_, _, _, _, s2.symm, s1.symm, Or.inl ⟨rfl, ha, (ho.isSome_iff _ _).2 ⟨e, he, Or.inr ⟨c, rfl, rfl⟩⟩⟩⟩
      · obtain ⟨e, he, b, hb, rfl⟩ := (hmem2 _).1 hx'
        simp only at hd hs
        rw [if_pos, hd]
        rcases hs with ⟨s1, s2⟩ | ⟨c, s1, s2⟩
        · exact ⟨_, _, _, _, s1.symm, s2.symm, Or.inr ⟨rfl, hb, (h.isSome_iff _ _).2 ⟨e, he, Or.inl ⟨rfl, rfl⟩⟩⟩⟩
        · exact ⟨_, _, _, _, s2.symm, s1.symm, Or.inr ⟨rfl, hb, (h.isSome_iff _ _).2 ⟨e, he, Or.inr ⟨c, rfl, rfl⟩⟩⟩⟩)
  refine ⟨g', ?_, h3⟩
  unfold Graph.cartesian
  rw [h.nodeCount_eq, ho.nodeCount_eq, chk_ok hfit, ok_bind, h.isDir]
  push_cast at h1
  have he : (o.getEdges.flatMap fun e => (intRange 0 n).map fun i =>
        Graph.mkRec (Graph.newId g o (i + g.minId) e.src) (Graph.newId g o (i + g.minId) e.dst) (default : E)) ++
      (g.getEdges.flatMap fun e => (intRange 0 n').map fun i =>
        Graph.mkRec (Graph.newId g o e.src (i + o.minId)) (Graph.newId g o e.dst (i + o.minId)) default) = (t1 ++ t2).map Edge.toRec := by
    rw [List.map_append, ht1, ht2, List.map_flatMap, List.map_flatMap]
    simp only [newId_eq h ho, List.map_map, h.isLo, ho.isLo]
    rfl
  rw [h1, ok_bind, he]
  exact h2

theorem Good.strongProduct [Inhabited E] (h : Good g false lo n m) (ho : Good o false lo' n' m') (hfit : I64 (n * n' : Int)) :
    ∃ g', g.strongProduct o = .ok g' ∧ Good g' false 0 (n' * n) (union (cart lo' n' lo n m' m) (tensor lo' n' lo m' m)) := by
  have hfit' : I64 (n' * n : Int) := by rw [mul_comm]; exact hfit
  obtain ⟨a, ha1, ha2⟩ := ho.cartesian h hfit'
  obtain ⟨b, hb1, hb2⟩ := ho.product h hfit'
  obtain ⟨c, hc1, hc2⟩ := ha2.combine hb2 (by simp; exact hfit')
  refine ⟨c, ?_, ?_⟩
  · unfold Graph.strongProduct
    rw [ha1, ok_bind, hb1, ok_bind, hc1]
  · have e : (max ((0 : Int) + ((n' * n : Nat) : Int)) (0 + ((n' * n : Nat) : Int)) - min 0 0).toNat = n' * n := by
      rw [max_self, min_self, zero_add, sub_zero, Int.toNat_natCast]
    rw [e] at hc2
    simpa using hc2

end ICPC.Gen
