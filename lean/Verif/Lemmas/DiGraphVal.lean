import Verif.Lemmas.GraphVal
import Batteries.Data.List.Perm

namespace ICPC
open Spec

/-! ## The loop for the root -/

theorem advanceRoot_spec (rev : List (List Int)) (k : Nat) (hk : k ≤ rev.length) (hp : ∀ i, i < k → rev.getD i [] ≠ []) :
    advanceRoot rev k ≤ rev.length ∧ (∀ i, i < advanceRoot rev k → rev.getD i [] ≠ []) ∧
    (advanceRoot rev k < rev.length → rev.getD (advanceRoot rev k) [] = []) := by
  unfold advanceRoot
  have key : ∀ t : List (List Int), let m := (t.takeWhile (fun s => !s.isEmpty)).length
      m ≤ t.length ∧ (∀ i, i < m → t.getD i [] ≠ []) ∧ (m < t.length → t.getD m [] = []) := by
    intro t
    induction t with
    | nil => simp
    | cons s t ih =>
      by_cases hs : s = []
      · subst hs; simp
      · have hs' : (!s.isEmpty) = true := by simpa [List.isEmpty_iff] using hs
        simp only [List.takeWhile_cons, hs', if_true, List.length_cons]
        obtain ⟨h1, h2, h3⟩ := ih
        refine ⟨by omega, fun i hi => ?_, fun hm => ?_⟩
        · cases i with
          | zero => simpa using hs
          | succ i => simpa using h2 i (by omega)
        · simpa using h3 (by omega)
  obtain ⟨h1, h2, h3⟩ := key (rev.drop k)
  have hd : ∀ i, (rev.drop k).getD i [] = rev.getD (k + i) [] := by
    intro i; simp [List.getD_eq_getElem?_getD]
  simp only [List.length_drop] at h1 h3
  refine ⟨by omega, fun i hi => ?_, fun hm => ?_⟩
  · by_cases hik : i < k
    · exact hp i hik
    · have := h2 (i - k) (by omega)
      rw [hd] at this
      rwa [show k + (i - k) = i by omega] at this
  · have := h3 (by omega)
    rwa [hd] at this

theorem advanceRoot_end (rev : List (List Int)) : advanceRoot rev rev.length = rev.length := by
  simp [advanceRoot]

/-! ## Digraphs -/

theorem ditwice_append (E : List (Int × Int)) (a b x y : Int) :
    DiTwice (E ++ [(a, b)]) x y ↔ DiTwice E x y ∨ ((x = a ∧ y = b) ∧ (a, b) ∈ E) := by
  unfold DiTwice
  simp only [getElem?_append_one, Prod.mk.injEq]
  constructor
  · rintro ⟨i, j, hij, hi, hj⟩
    rcases hi with hi | ⟨hi, -⟩ <;> rcases hj with hj | ⟨hj, hxy⟩
    · exact .inl ⟨i, j, hij, hi, hj⟩
    · obtain ⟨rfl, rfl⟩ := hxy
      exact .inr ⟨⟨rfl, rfl⟩, List.mem_of_getElem? hi⟩
    · have := (List.getElem?_eq_some_iff.1 hj).1; omega
    · omega
  · rintro (⟨i, j, hij, hi, hj⟩ | ⟨⟨rfl, rfl⟩, hE⟩)
    · exact ⟨i, j, hij, .inl hi, .inl hj⟩
    · obtain ⟨i, hi⟩ := List.getElem?_of_mem hE
      exact ⟨i, E.length, (List.getElem?_eq_some_iff.1 hi).1, .inl hi, .inr ⟨rfl, rfl, rfl⟩⟩

/-- What holds for a `DiGraph` with vertices [l, l + n) and edges `E`. -/
structure DiInv (l : Int) (n : Nat) (E : List (Int × Int)) (g : DiGraph) : Prop where
  size : I64 (n : Int)
  offset : g.base.offset = l
  edges : g.base.edges = E.length
  range : ∀ e ∈ E, (l ≤ e.1 ∧ e.1 < l + n) ∧ (l ≤ e.2 ∧ e.2 < l + n)
  adj : Table l n g.base.adj (fun a b => (a, b) ∈ E)
  rev : Table l n g.rev (fun b a => (a, b) ∈ E)
  loopSome : ∀ a, g.base.selfloop = some a → (a, a) ∈ E
  loopNone : g.base.selfloop = none → ∀ a, (a, a) ∉ E
  multiSome : ∀ a b, g.base.multiedge = some (a, b) → DiTwice E a b
  multiNone : g.base.multiedge = none → ∀ a b, ¬ DiTwice E a b
  uf : UFfor (fun x : Int => (x - l).toNat) (fun x => l ≤ x ∧ x < l + n) g.uf E
  ufLength : g.uf.length = n
  ufCount : n ≤ rootCount g.uf + E.length
  forest : rootCount g.uf + E.length = n ↔ Forest E
  count : g.rootCount = g.rev.countP List.isEmpty
  rootFail : n < rootCount g.uf + E.length → g.root = n
  rootLe : g.root ≤ n
  rootBefore : rootCount g.uf + E.length = n → ∀ i, i < g.root → g.rev.getD i [] ≠ []
  rootAt : g.root < n → g.rev.getD g.root [] = []

theorem digraph_new_le {l r : Int} {g : DiGraph} (h : DiGraph.new l r = .ok g) : l ≤ r := by
  unfold DiGraph.new BaseGraph.new at h
  simp only [bind_ok, chk_eq_ok] at h
  obtain ⟨base, ⟨m, ⟨h1, rfl⟩, u, h2, h3⟩, h5⟩ := h
  by_contra hneg
  rw [decide_eq_false (by omega)] at h2
  cases h2

theorem digraph_new {l r : Int} {g : DiGraph} (h : DiGraph.new l r = .ok g) : DiInv l (r - l).toNat [] g := by
  have hlr := digraph_new_le h
  unfold DiGraph.new BaseGraph.new at h
  simp only [bind_ok, chk_eq_ok] at h
  obtain ⟨base, ⟨m, ⟨h1, rfl⟩, u, h2, h3⟩, h5⟩ := h
  have hb := Except.ok.inj h3
  have hg := Except.ok.inj h5
  subst hb hg
  constructor
  · rw [Int.toNat_of_nonneg (by omega)]; exact h1
  · rfl
  · rfl
  · intro e he; cases he
  · simpa using table_new l (r - l).toNat
  · simpa using table_new l (r - l).toNat
  · intro a ha; cases ha
  · intro _ a ha; cases ha
  · intro a b h; cases h
  · rintro _ a b ⟨i, j, _, h, _⟩; simp at h
  · refine uffor_new (fun x hx => ?_) (fun x y hx hy hxy => ?_) <;> omega
  · simp [ufNew]
  · simp [ufNew_rootCount]
  · simp [ufNew_rootCount, forest_nil]
  · simp only [List.countP_replicate]; simp; omega
  · simp [ufNew_rootCount]
  · simp
  · intro _ i hi; simp at hi
  · intro _; simp only [List.getD_eq_getElem?_getD, List.getElem?_replicate]; split <;> rfl

theorem countP_set_nonempty (t : List (List Int)) (j : Nat) (hj : j < t.length) (s : List Int) (hs : s ≠ []) :
    ((t.set j s).countP List.isEmpty : Int) =
      if (t.getD j []).isEmpty then (t.countP List.isEmpty : Int) - 1 else t.countP List.isEmpty := by
  have hs' : s.isEmpty = false := by simpa using hs
  have hg : t.getD j [] = t[j] := by simp [hj]
  rw [List.countP_set hj, hs', hg]
  by_cases h : t[j].isEmpty = true
  · have : 0 < t.countP List.isEmpty := List.countP_pos_iff.2 ⟨t[j], List.getElem_mem _, h⟩
    simp only [h, if_true]
    simp; omega
  · simp [h]

theorem getD_set_setInsert (t : List (List Int)) (j : Nat) (hj : j < t.length) (a : Int) (i : Nat) (hi : t.getD i [] ≠ []) :
    (t.set j (setInsert (t.getD j []) a)).getD i [] ≠ [] := by
  by_cases hij : i = j
  · subst hij
    rw [List.getD_eq_getElem?_getD, List.getElem?_set_self hj]
    exact setInsert_ne_nil _ _
  · rw [List.getD_eq_getElem?_getD, List.getElem?_set_ne (Ne.symm hij)]
    rwa [List.getD_eq_getElem?_getD] at hi

theorem digraph_add {l : Int} {n : Nat} {E : List (Int × Int)} {g : DiGraph} (hg : DiInv l n E g) {a b : Int}
    (ha : l ≤ a ∧ a < l + n) (hb : l ≤ b ∧ b < l + n) (hE : I64 ((E.length : Int) + 1)) :
    ∃ g', g.addEdge a b = .ok g' ∧ DiInv l n (E ++ [(a, b)]) g' := by
  have hoff := hg.offset
  have hn := hg.size
  have hal := hg.adj.length
  have hrl := hg.rev.length
  have ha64 : I64 (a - l) := by unfold I64 at *; omega
  have hb64 : I64 (b - l) := by unfold I64 at *; omega
  have h1 : g.base.addEdge a b = .ok (g.base.added a b) := by
    rw [base_addEdge_ok, hoff, hal, hg.edges]
    exact ⟨ha64, ha.1, ha.2, hE, rfl⟩
  have hlen : (g.base.added a b).adj.length = n := by simp [BaseGraph.added, hal]
  have hoff' : (g.base.added a b).offset = l := hoff
  have h2 : vertexIndex (g.base.added a b).offset b g.rev.length = .ok (b - l).toNat := by
    rw [vertexIndex_ok, hoff', hrl]; exact ⟨hb64, hb.1, hb.2, by omega⟩
  have h3 : vertexIndex (g.base.added a b).offset a (g.base.added a b).adj.length = .ok (a - l).toNat := by
    rw [vertexIndex_ok, hoff', hlen]; exact ⟨ha64, ha.1, ha.2, by omega⟩
  have t1 : Table l n (g.base.added a b).adj (fun x z => (x, z) ∈ E ++ [(a, b)]) := by
    have := table_insert (R' := fun x z => (x, z) ∈ E ++ [(a, b)]) hg.adj (i := (a - l).toNat) (by omega) b
      (fun x z => by
        have : (l + ((a - l).toNat : Int)) = a := by omega
        rw [this]; simp)
    simpa [BaseGraph.added, hoff] using this
  have t2 : Table l n (g.rev.set (b - l).toNat (setInsert (g.rev.getD (b - l).toNat []) a)) (fun x z => (z, x) ∈ E ++ [(a, b)]) := by
    refine table_insert hg.rev (i := (b - l).toNat) (by omega) a (fun x z => ?_)
    have : (l + ((b - l).toNat : Int)) = b := by omega
    rw [this]; simp; tauto
  obtain ⟨c, uf, k1, k2, k3, k4, k5⟩ := uffor_union hg.uf ha hb
  refine ⟨_, by
    unfold DiGraph.addEdge
    rw [h1, ok_bind, h2, ok_bind, h3, ok_bind, k1, ok_bind], ?_⟩
  have hloop := loops_append (a := a) (b := b) hg.loopSome hg.loopNone
  have hcont : (g.base.adj.getD (a - l).toNat []).contains b = true ↔ (a, b) ∈ E := by
    rw [List.contains_iff_mem, hg.adj.mem _ (by omega)]
    have : (l + ((a - l).toNat : Int)) = a := by omega
    rw [this]
  have hmulti : (g.base.added a b).multiedge =
      if (g.base.adj.getD (a - l).toNat []).contains b then some (a, b) else g.base.multiedge := by
    simp only [BaseGraph.added, hoff]
  have hcnt := hg.ufCount
  have hbt : (b - l).toNat < g.rev.length := by omega
  constructor
  · exact hn
  · exact hoff
  · simp only [BaseGraph.added, hg.edges]; simp
  · intro e he
    rcases List.mem_append.1 he with he | he
    · exact hg.range e he
    · simp only [List.mem_singleton] at he; subst he; exact ⟨ha, hb⟩
  · exact t1
  · exact t2
  · exact hloop.1
  · exact hloop.2
  · intro x y hxy
    simp only [hmulti] at hxy
    rw [ditwice_append]
    split at hxy
    · next h =>
      have := Option.some.inj hxy
      simp only [Prod.mk.injEq] at this
      obtain ⟨rfl, rfl⟩ := this
      exact .inr ⟨⟨rfl, rfl⟩, hcont.1 h⟩
    · exact .inl (hg.multiSome x y hxy)
  · intro hxy x y ht
    simp only [hmulti] at hxy
    rw [ditwice_append] at ht
    split at hxy
    · cases hxy
    · next h =>
      rcases ht with ht | ⟨-, ht⟩
      · exact hg.multiNone hxy x y ht
      · exact h (hcont.2 ht)
  · exact k3
  · exact k4.trans hg.ufLength
  · simp only [List.length_append, List.length_singleton]
    split at k5 <;> omega
  · rw [forest_append, ← hg.forest, ← k2, List.length_append, List.length_singleton]
    cases c <;> simp only [if_true, if_false, Bool.false_eq_true, and_true, and_false, iff_false] at k5 ⊢ <;> omega
  · simp only
    rw [countP_set_nonempty _ _ hbt _ (setInsert_ne_nil _ _), hg.count]
  · intro hf
    simp only [List.length_append, List.length_singleton] at hf ⊢
    cases c with
    | false =>
      simp only [Bool.not_false, if_true, hlen]
      have := advanceRoot_end (g.rev.set (b - l).toNat (setInsert (g.rev.getD (b - l).toNat []) a))
      rwa [t2.length] at this
    | true =>
      simp only [if_true] at k5
      have := hg.rootFail (by omega)
      simp only [Bool.not_true, Bool.false_eq_true, if_false, this]
      have := advanceRoot_end (g.rev.set (b - l).toNat (setInsert (g.rev.getD (b - l).toNat []) a))
      rwa [t2.length] at this
  all_goals
    have hend := advanceRoot_end (g.rev.set (b - l).toNat (setInsert (g.rev.getD (b - l).toNat []) a))
    rw [t2.length] at hend
    by_cases hfail : rootCount uf + (E ++ [(a, b)]).length = n
    · have hc : c = true := by
        cases c with
        | true => rfl
        | false => simp only [List.length_append, List.length_singleton] at hfail; simp at k5; omega
      subst hc
      simp only [if_true] at k5
      have hno : rootCount g.uf + E.length = n := by
        simp only [List.length_append, List.length_singleton] at hfail; omega
      have hs := advanceRoot_spec (g.rev.set (b - l).toNat (setInsert (g.rev.getD (b - l).toNat []) a)) g.root
        (by rw [t2.length]; exact hg.rootLe)
        (fun i hi => getD_set_setInsert _ _ hbt _ _ (hg.rootBefore hno i hi))
      rw [t2.length] at hs
      simp only [Bool.not_true, Bool.false_eq_true, if_false]
      first
        | exact hs.1
        | exact fun _ => hs.2.1
        | exact hs.2.2
    · have hfull : (if (!c) = true then (g.base.added a b).adj.length else g.root) = n := by
        cases c with
        | false => simp [hlen]
        | true =>
          simp only [if_true] at k5
          have := hg.rootFail (by simp only [List.length_append, List.length_singleton] at hfail; omega)
          simpa using this
      simp only [hfull, hend]
      first
        | exact Nat.le_refl _
        | exact fun h => absurd h hfail
        | exact fun h => absurd h (Nat.lt_irrefl _)

theorem digraph_add_range {l : Int} {n : Nat} {E : List (Int × Int)} {g g' : DiGraph} (hg : DiInv l n E g) {a b : Int}
    (h : g.addEdge a b = .ok g') : (l ≤ a ∧ a < l + n) ∧ (l ≤ b ∧ b < l + n) ∧ I64 ((E.length : Int) + 1) := by
  unfold DiGraph.addEdge at h
  rw [bind_ok] at h
  obtain ⟨base, h1, h2⟩ := h
  rw [base_addEdge_ok, hg.offset, hg.adj.length, hg.edges] at h1
  obtain ⟨-, h3, h4, h5, rfl⟩ := h1
  rw [bind_ok] at h2
  obtain ⟨j, h6, -⟩ := h2
  rw [vertexIndex_ok] at h6
  obtain ⟨-, h7, h8, -⟩ := h6
  have e1 : (g.base.added a b).offset = l := hg.offset
  rw [e1] at h7 h8
  rw [hg.rev.length] at h8
  exact ⟨⟨h3, h4⟩, ⟨h7, h8⟩, h5⟩

theorem digraph_reached {l r : Int} {E : List (Int × Int)} {g : DiGraph} (h : DiGraph.Reached l r E g) :
    l ≤ r ∧ DiInv l (r - l).toNat E g := by
  induction h with
  | new h => exact ⟨digraph_new_le h, digraph_new h⟩
  | add _ h ih =>
    obtain ⟨hlr, ih⟩ := ih
    obtain ⟨h1, h2, h3⟩ := digraph_add_range ih h
    obtain ⟨g', h4, h5⟩ := digraph_add ih h1 h2 h3
    rw [h] at h4
    obtain rfl := Except.ok.inj h4
    exact ⟨hlr, h5⟩

/-! ## isDAG -/

/-- Vertices without outgoing edges only go to the order, last one first. -/
theorem dagLoop_leaves (g : DiGraph) (deg : List Nat) : ∀ (k : Nat) (todo order : List Nat), todo.length < k →
    (∀ x ∈ todo, g.base.adj.getD x [] = []) → dagLoop g k deg todo order = .ok (order ++ todo.reverse) := by
  intro k
  induction k with
  | zero => intro todo order hk; omega
  | succ k ih =>
    intro todo order hk hx
    rcases List.eq_nil_or_concat todo with rfl | ⟨t, x, rfl⟩
    · simp [dagLoop]
    · have h1 : g.base.adj.getD x [] = [] := hx x (by simp)
      simp only [List.concat_eq_append] at *
      have h2 : (t ++ [x]).getLast? = some x := by simp
      unfold dagLoop
      simp only [h2, h1, dagRelax, ok_bind, List.dropLast_concat]
      rw [ih t (order ++ [x]) (by simp at hk; omega) (fun y hy => hx y (by simp [hy]))]
      simp

theorem isDAG_eq {l : Int} {n : Nat} {E : List (Int × Int)} {g : DiGraph} (hg : DiInv l n E g) :
    g.isDAG = .ok (if E = [] then some ((List.range n).reverse.map (fun i : Nat => (i : Int) + l)) else none) := by
  unfold DiGraph.isDAG
  have hlen := hg.adj.length
  have hdeg : ∀ i, (g.base.adj.map List.length).getD i 0 = (g.base.adj.getD i []).length := by
    intro i
    simp only [List.getD_eq_getElem?_getD, List.getElem?_map]
    cases g.base.adj[i]? <;> rfl
  have htodo : (List.range (g.base.adj.map List.length).length).filter
      (fun i => decide ((g.base.adj.map List.length).getD i 0 = 0)) =
      (List.range n).filter (fun i => (g.base.adj.getD i []).isEmpty) := by
    rw [List.length_map, hlen]
    apply List.filter_congr
    intro i _
    rw [hdeg]
    cases g.base.adj.getD i [] <;> simp
  simp only [htodo]
  rw [dagLoop_leaves]
  · simp only [ok_bind, List.nil_append, List.length_reverse, hlen, hg.offset]
    congr 1
    by_cases hE : E = []
    · have hall : (List.range n).filter (fun i => (g.base.adj.getD i []).isEmpty) = List.range n := by
        rw [List.filter_eq_self]
        intro i hi
        have := hg.adj.mem i (List.mem_range.1 hi)
        subst hE
        rw [List.isEmpty_iff, List.eq_nil_iff_forall_not_mem]
        intro y hy
        have := (this y).1 hy
        cases this
      rw [hall]; simp [hE]
    · have hne : ((List.range n).filter (fun i => (g.base.adj.getD i []).isEmpty)).length ≠ n := by
        intro heq
        have h1 : (List.range n).filter (fun i => (g.base.adj.getD i []).isEmpty) = List.range n := by
          refine List.Sublist.eq_of_length List.filter_sublist ?_
          rw [heq, List.length_range]
        rw [List.filter_eq_self] at h1
        obtain ⟨e, E', rfl⟩ := List.exists_cons_of_ne_nil hE
        have hr := hg.range e (by simp)
        have h2 := h1 (e.1 - l).toNat (List.mem_range.2 (by omega))
        have h3 := (hg.adj.mem (e.1 - l).toNat (by omega) e.2).2 (by
          have : (l + ((e.1 - l).toNat : Int)) = e.1 := by omega
          rw [this]; simp)
        rw [List.isEmpty_iff] at h2
        rw [h2] at h3; cases h3
      rw [if_neg hne, if_neg hE]
  · rw [hlen]
    have := List.length_filter_le (fun i => (g.base.adj.getD i []).isEmpty) (List.range n)
    rw [List.length_range] at this
    omega
  · intro x hx
    rw [List.mem_filter] at hx
    simpa using hx.2

/-! ## isTree -/

theorem walk_append {E : List (Int × Int)} {a b c : Int} {v w : List Nat} (h : Walk E a v b) (h' : Walk E b w c) :
    Walk E a (v ++ w) c := by
  induction h with
  | nil => exact h'
  | cons he _ ih => exact .cons he (ih h')

theorem walk_snoc {E : List (Int × Int)} {a c : Int} {w : List Nat} {i : Nat} (h : Walk E a (w ++ [i]) c) :
    ∃ b, Walk E a w b ∧ E[i]? = some (b, c) := by
  induction w generalizing a with
  | nil =>
    cases h with
    | @cons _ b _ _ _ he h' => cases h'; exact ⟨a, .nil _, he⟩
  | cons j w ih =>
    cases h with
    | cons he h' =>
      obtain ⟨b, h1, h2⟩ := ih h'
      exact ⟨b, .cons he h1, h2⟩

theorem walk_joined {E : List (Int × Int)} {a b : Int} {w : List Nat} (h : Walk E a w b) : Joined E a b := by
  induction h with
  | nil => exact joined_refl _ _
  | cons he _ ih => exact joined_trans (joined_edge (List.mem_of_getElem? he)) ih

/-- The vertices. -/
def vertices (l : Int) (n : Nat) : List Int := (List.range n).map (fun i : Nat => l + (i : Int))

theorem mem_vertices {l : Int} {n : Nat} {x : Int} : x ∈ vertices l n ↔ l ≤ x ∧ x < l + n := by
  simp only [vertices, List.mem_map, List.mem_range]
  constructor
  · rintro ⟨i, hi, rfl⟩; omega
  · rintro ⟨h1, h2⟩; exact ⟨(x - l).toNat, by omega, by omega⟩

theorem vertices_nodup (l : Int) (n : Nat) : (vertices l n).Nodup := by
  unfold vertices
  refine List.Nodup.map (fun x y h => ?_) List.nodup_range
  omega

theorem rev_empty {l : Int} {n : Nat} {E : List (Int × Int)} {g : DiGraph} (hg : DiInv l n E g) {v : Int} (hv : l ≤ v ∧ v < l + n) :
    g.rev.getD (v - l).toNat [] = [] ↔ ∀ a, (a, v) ∉ E := by
  have h := hg.rev.mem (v - l).toNat (by omega)
  have e : (l + ((v - l).toNat : Int)) = v := by omega
  rw [e] at h
  rw [List.eq_nil_iff_forall_not_mem]
  exact forall_congr' (fun a => not_congr (h a))

/-- One vertex has no ingoing edge, all others have at most one, and everything is joined: a directed tree. -/
theorem tree_of {l : Int} {n : Nat} {E : List (Int × Int)} {x : Int} (hx : l ≤ x ∧ x < l + n)
    (hroot : ∀ a, (a, x) ∉ E)
    (hone : ∀ (i j : Nat) (a b v : Int), E[i]? = some (a, v) → E[j]? = some (b, v) → i = j)
    (hjoin : ∀ v, l ≤ v ∧ v < l + n → Joined E x v) : DirectedTree l (l + n) E x := by
  refine ⟨hx, fun v h1 h2 => ?_⟩
  -- reachability
  have hreach : ∃ w, Walk E x w v := by
    have hconst := joined_const (fun v => ∃ w, Walk E x w v) (fun e he => by
      obtain ⟨i, hi⟩ := List.getElem?_of_mem he
      refine propext ⟨?_, ?_⟩
      · rintro ⟨w, hw⟩
        exact ⟨w ++ [i], walk_append hw (.cons hi (.nil _))⟩
      · rintro ⟨w, hw⟩
        rcases List.eq_nil_or_concat w with rfl | ⟨w', j, rfl⟩
        · have : x = e.2 := by cases hw; rfl
          exact absurd (this ▸ he) (hroot e.1)
        · rw [List.concat_eq_append] at hw
          obtain ⟨b, h3, h4⟩ := walk_snoc hw
          have := hone i j e.1 b e.2 hi h4
          subst this
          rw [hi] at h4
          have := Option.some.inj h4
          rw [this]
          exact ⟨w', h3⟩) (hjoin v ⟨h1, h2⟩)
    exact hconst ▸ ⟨[], .nil _⟩
  obtain ⟨w, hw⟩ := hreach
  refine ⟨w, hw, fun w' hw' => ?_⟩
  clear h1 h2
  -- uniqueness, from the end
  induction hn : w.length generalizing w w' v with
  | zero =>
    have : w = [] := List.eq_nil_of_length_eq_zero hn
    subst this
    cases hw
    rcases List.eq_nil_or_concat w' with rfl | ⟨w1, j, rfl⟩
    · rfl
    · rw [List.concat_eq_append] at hw'
      obtain ⟨b, h3, h4⟩ := walk_snoc hw'
      exact absurd (List.mem_of_getElem? h4) (hroot b)
  | succ n ih =>
    rcases List.eq_nil_or_concat w with rfl | ⟨w1, j, rfl⟩
    · simp at hn
    · rw [List.concat_eq_append] at hw hn ⊢
      obtain ⟨b, h3, h4⟩ := walk_snoc hw
      rcases List.eq_nil_or_concat w' with rfl | ⟨w2, k, rfl⟩
      · cases hw'
        exact absurd (List.mem_of_getElem? h4) (hroot b)
      · rw [List.concat_eq_append] at hw' ⊢
        obtain ⟨b', h5, h6⟩ := walk_snoc hw'
        have hjk := hone k j _ _ _ h6 h4
        subst hjk
        rw [h4] at h6
        have := Option.some.inj h6
        simp only [Prod.mk.injEq] at this
        obtain ⟨rfl, -⟩ := this
        rw [ih b w1 h3 w2 h5 (by simpa using hn)]

theorem tree_props {l : Int} {n : Nat} {E : List (Int × Int)} {x : Int} (hE : ∀ e ∈ E, (l ≤ e.1 ∧ e.1 < l + n) ∧ (l ≤ e.2 ∧ e.2 < l + n))
    (h : DirectedTree l (l + n) E x) : (∀ a, (a, x) ∉ E) ∧
    (∀ (i j : Nat) (a b v : Int), E[i]? = some (a, v) → E[j]? = some (b, v) → i = j) ∧
    (∀ v, l ≤ v ∧ v < l + n → v ≠ x → ∃ a, (a, v) ∈ E) ∧ (∀ v, l ≤ v ∧ v < l + n → Joined E x v) := by
  obtain ⟨hx, hw⟩ := h
  refine ⟨fun a ha => ?_, fun i j a b v hi hj => ?_, fun v hv hvx => ?_, fun v hv => ?_⟩
  · have hr := (hE _ ha).1
    obtain ⟨w, h1, -⟩ := hw a hr.1 hr.2
    obtain ⟨i, hi⟩ := List.getElem?_of_mem ha
    obtain ⟨u, -, h3⟩ := hw x hx.1 hx.2
    have e1 := h3 [] (.nil _)
    have e2 := h3 (w ++ [i]) (walk_append h1 (.cons hi (.nil _)))
    rw [← e1] at e2
    simp at e2
  · have hri := hE _ (List.mem_of_getElem? hi)
    have hrj := hE _ (List.mem_of_getElem? hj)
    obtain ⟨w, h1, -⟩ := hw a hri.1.1 hri.1.2
    obtain ⟨w', h2, -⟩ := hw b hrj.1.1 hrj.1.2
    obtain ⟨u, -, h3⟩ := hw v hri.2.1 hri.2.2
    have e1 := h3 (w ++ [i]) (walk_append h1 (.cons hi (.nil _)))
    have e2 := h3 (w' ++ [j]) (walk_append h2 (.cons hj (.nil _)))
    have := e1.trans e2.symm
    have := (List.append_inj' this rfl).2
    simpa using this
  · obtain ⟨w, h1, -⟩ := hw v hv.1 hv.2
    rcases List.eq_nil_or_concat w with rfl | ⟨w1, j, rfl⟩
    · cases h1; exact absurd rfl hvx
    · rw [List.concat_eq_append] at h1
      obtain ⟨b, -, h4⟩ := walk_snoc h1
      exact ⟨b, List.mem_of_getElem? h4⟩
  · obtain ⟨w, h1, -⟩ := hw v hv.1 hv.2
    exact walk_joined h1

theorem uf_joined {l : Int} {n : Nat} {E : List (Int × Int)} {u : List Int}
    (h : UFfor (fun x : Int => (x - l).toNat) (fun x => l ≤ x ∧ x < l + n) u E) (hl : u.length = n) :
    rootCount u ≤ 1 ↔ ∀ a b, l ≤ a → a < l + n → l ≤ b → b < l + n → Joined E a b := by
  rw [rootCount_le_one h.ok]
  constructor
  · intro hs a b h1 h2 h3 h4
    exact (h.same a b ⟨h1, h2⟩ ⟨h3, h4⟩).1 (hs _ _ (by omega) (by omega))
  · intro hj a b ha hb
    have := (h.same (l + a) (l + b) (by omega) (by omega)).2 (hj _ _ (by omega) (by omega) (by omega) (by omega))
    have e1 : (l + (a : Int) - l).toNat = a := by omega
    have e2 : (l + (b : Int) - l).toNat = b := by omega
    simpa only [e1, e2] using this

theorem isTree_iff {l : Int} {n : Nat} {E : List (Int × Int)} {g : DiGraph} (hg : DiInv l n E g) (x : Int) :
    (g.isTree = some x ∧ x < l + n) ↔ DirectedTree l (l + n) E x := by
  have hlen := hg.adj.length
  have hrl := hg.rev.length
  unfold DiGraph.isTree
  rw [hlen, hg.edges, hg.offset, hg.count]
  constructor
  · rintro ⟨h1, h2⟩
    split at h1
    · next hc =>
      obtain ⟨hc1, hc2⟩ := hc
      obtain rfl := Option.some.inj h1
      have hroot : g.root < n := by omega
      have hno : rootCount g.uf + E.length = n := by
        rcases Nat.lt_or_eq_of_le hg.ufCount with h | h
        · have := hg.rootFail h; omega
        · exact h.symm
      have hx : l ≤ (g.root : Int) + l ∧ (g.root : Int) + l < l + n := by omega
      have hxi : ((g.root : Int) + l - l).toNat = g.root := by omega
      have hxe : ∀ a, (a, (g.root : Int) + l) ∉ E := by
        rw [← rev_empty hg hx, hxi]; exact hg.rootAt hroot
      have hin : ∀ v, l ≤ v ∧ v < l + n → v ≠ (g.root : Int) + l → ∃ a, (a, v) ∈ E := by
        intro v hv hvx
        by_contra hno'
        have hve : g.rev.getD (v - l).toNat [] = [] := (rev_empty hg hv).2 (fun a ha => hno' ⟨a, ha⟩)
        have hg1 : ∀ i, i < n → g.rev[i]? = some (g.rev.getD i []) := fun i hi => by
          have hi' : i < g.rev.length := by omega
          simp [hi']
        have := countP_unique List.isEmpty g.rev (by omega) (v - l).toNat g.root _ _ (hg1 _ (by omega)) (hg1 _ hroot)
          (by rw [hve]; rfl) (by rw [hg.rootAt hroot]; rfl)
        omega
      have hsub : ((vertices l n).erase ((g.root : Int) + l)).Subperm (E.map Prod.snd) := by
        refine List.subperm_of_subset ((vertices_nodup l n).erase _) (fun v hv => ?_)
        rw [(vertices_nodup l n).mem_erase_iff, mem_vertices] at hv
        obtain ⟨a, ha⟩ := hin v hv.2 hv.1
        exact List.mem_map.2 ⟨_, ha, rfl⟩
      have hperm : ((vertices l n).erase ((g.root : Int) + l)).Perm (E.map Prod.snd) := by
        refine hsub.perm_of_length_le ?_
        rw [List.length_erase_of_mem (mem_vertices.2 hx), List.length_map]
        simp only [vertices, List.length_map, List.length_range]
        omega
      have hnd : (E.map Prod.snd).Nodup := hperm.nodup_iff.1 ((vertices_nodup l n).erase _)
      refine tree_of hx hxe (fun i j a b v hi hj => ?_) (fun v hv => ?_)
      · have h3 : (E.map Prod.snd)[i]? = some v := by simp [hi]
        have h4 : (E.map Prod.snd)[j]? = some v := by simp [hj]
        obtain ⟨hi', h3'⟩ := List.getElem?_eq_some_iff.1 h3
        obtain ⟨hj', h4'⟩ := List.getElem?_eq_some_iff.1 h4
        exact (hnd.getElem_inj_iff).1 (h3'.trans h4'.symm)
      · exact (uf_joined hg.uf hg.ufLength).1 (by omega) _ v hx.1 hx.2 hv.1 hv.2
    · cases h1
  · intro ht
    have hx := ht.1
    obtain ⟨p1, p2, p3, p4⟩ := tree_props hg.range ht
    have hperm : ((vertices l n).erase x).Perm (E.map Prod.snd) := by
      rw [List.perm_ext_iff_of_nodup ((vertices_nodup l n).erase _)]
      · intro v
        rw [(vertices_nodup l n).mem_erase_iff, mem_vertices, List.mem_map]
        constructor
        · rintro ⟨h1, h2⟩
          obtain ⟨a, ha⟩ := p3 v h2 h1
          exact ⟨_, ha, rfl⟩
        · rintro ⟨e, he, rfl⟩
          refine ⟨fun h => ?_, (hg.range e he).2⟩
          exact p1 e.1 (by rw [← h]; exact he)
      · rw [List.nodup_iff_injective_getElem]
        intro i j hij
        simp only [List.getElem_map] at hij
        have hi : i.1 < E.length := by simpa using i.2
        have hj : j.1 < E.length := by simpa using j.2
        exact Fin.ext (p2 i j E[i.1].1 E[j.1].1 E[i.1].2 (by simp [hi]) (by rw [hij]; simp [hj]))
    have hEl : E.length + 1 = n := by
      have := hperm.length_eq
      rw [List.length_erase_of_mem (mem_vertices.2 hx), List.length_map] at this
      simp only [vertices, List.length_map, List.length_range] at this
      omega
    have hxe : g.rev.getD (x - l).toNat [] = [] := (rev_empty hg hx).2 p1
    have hemp : ∀ i, i < n → g.rev.getD i [] = [] → i = (x - l).toNat := by
      intro i hi he
      by_contra hne
      have hv : l ≤ l + (i : Int) ∧ l + (i : Int) < l + n := by omega
      have hvi : (l + (i : Int) - l).toNat = i := by omega
      obtain ⟨a, ha⟩ := p3 (l + i) hv (by omega)
      exact (rev_empty hg hv).1 (by rw [hvi]; exact he) a ha
    have hg1 : ∀ (i : Nat) (s : List Int), g.rev[i]? = some s → i < n ∧ g.rev.getD i [] = s := fun i s hi => by
      have := (List.getElem?_eq_some_iff.1 hi).1
      exact ⟨by omega, by simp [hi]⟩
    have hcount : g.rev.countP List.isEmpty = 1 := by
      refine Nat.le_antisymm (countP_le_one _ _ (fun i j s t hi hj hs htt => ?_)) ?_
      · obtain ⟨a1, a2⟩ := hg1 i s hi
        obtain ⟨b1, b2⟩ := hg1 j t hj
        rw [List.isEmpty_iff] at hs htt
        rw [hemp i a1 (a2.trans hs), hemp j b1 (b2.trans htt)]
      · have hlt : (x - l).toNat < g.rev.length := by omega
        refine List.countP_pos_iff.2 ⟨g.rev[(x - l).toNat], List.getElem_mem _, ?_⟩
        have : g.rev.getD (x - l).toNat [] = g.rev[(x - l).toNat] := by simp [hlt]
        rw [← this, hxe]; rfl
    have hjoin : rootCount g.uf ≤ 1 := by
      rw [uf_joined hg.uf hg.ufLength]
      intro a b h1 h2 h3 h4
      exact joined_trans (joined_symm (p4 a ⟨h1, h2⟩)) (p4 b ⟨h3, h4⟩)
    have hno : rootCount g.uf + E.length = n := by have := hg.ufCount; omega
    have hroot : g.root = (x - l).toNat := by
      have h1 : g.root ≤ (x - l).toNat := by
        by_contra hlt
        exact hg.rootBefore hno (x - l).toNat (by omega) hxe
      exact hemp _ (by omega) (hg.rootAt (by omega))
    rw [if_pos ⟨by omega, by omega⟩, hroot]
    refine ⟨?_, hx.2⟩
    congr 1; omega

end ICPC
