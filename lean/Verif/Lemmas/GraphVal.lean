import Verif.Lemmas.UnionFind
import Verif.Lemmas.Graph

namespace ICPC
open Spec

/-! ## Union-find and joined vertices -/

/-- The trees of a union-find are the classes of joined vertices. -/
structure UFfor {α : Type} (enc : α → Nat) (dom : α → Prop) (u : List Int) (E : List (α × α)) : Prop where
  ok : UFok u
  lt : ∀ x, dom x → enc x < u.length
  same : ∀ x y, dom x → dom y → (SameSet u (enc x) (enc y) ↔ Joined E x y)

theorem uffor_new {α : Type} {enc : α → Nat} {dom : α → Prop} {n : Nat} (hl : ∀ x, dom x → enc x < n)
    (hi : ∀ x y, dom x → dom y → enc x = enc y → x = y) : UFfor enc dom (ufNew n) [] := by
  refine ⟨ufNew_ok n, fun x hx => by simpa [ufNew] using hl x hx, fun x y hx hy => ?_⟩
  rw [ufNew_sameSet, joined_nil]
  exact ⟨fun h => hi x y hx hy h.1, fun h => ⟨by rw [h], hl x hx⟩⟩

theorem uffor_connected {α : Type} {enc : α → Nat} {dom : α → Prop} {u : List Int} {E : List (α × α)}
    (h : UFfor enc dom u E) {a b : α} (ha : dom a) (hb : dom b) :
    ∃ c u', ufConnected u (enc a) (enc b) = .ok (c, u') ∧ (c = true ↔ Joined E a b) ∧ UFfor enc dom u' E ∧
      u'.length = u.length ∧ rootCount u' = rootCount u := by
  obtain ⟨c, u', h1, h2, h3⟩ := ufConnected_spec h.ok (h.lt a ha) (h.lt b hb)
  refine ⟨c, u', h1, h2.trans (h.same a b ha hb), ⟨h3.ok, fun x hx => by rw [h3.length]; exact h.lt x hx, fun x y hx hy => ?_⟩,
    h3.length, h3.rootCount⟩
  rw [h3.sameSet]; exact h.same x y hx hy

theorem uffor_union {α : Type} {enc : α → Nat} {dom : α → Prop} {u : List Int} {E : List (α × α)}
    (h : UFfor enc dom u E) {a b : α} (ha : dom a) (hb : dom b) :
    ∃ c u', unionSets u (enc a) (enc b) = .ok (c, u') ∧ (c = true ↔ ¬ Joined E a b) ∧ UFfor enc dom u' (E ++ [(a, b)]) ∧
      u'.length = u.length ∧ rootCount u' + (if c then 1 else 0) = rootCount u := by
  obtain ⟨c, u', h1, h2, h3, h4, h5, h6⟩ := unionSets_spec h.ok (h.lt a ha) (h.lt b hb)
  refine ⟨c, u', h1, ?_, ⟨h3, fun x hx => by rw [h2]; exact h.lt x hx, fun x y hx hy => ?_⟩, h2, h5⟩
  · rw [h4, h.same a b ha hb]
  · rw [h6, joined_append, h.same x y hx hy, h.same x a hx ha, h.same x b hx hb, h.same y a hy ha, h.same y b hy hb]

theorem countP_le_one {β : Type} (p : β → Bool) (l : List β)
    (h : ∀ (i j : Nat) (x y : β), l[i]? = some x → l[j]? = some y → p x = true → p y = true → i = j) : l.countP p ≤ 1 := by
  induction l with
  | nil => simp
  | cons a l ih =>
    have ih' := ih (fun i j x y hi hj hx hy => by
      have := h (i + 1) (j + 1) x y (by simpa using hi) (by simpa using hj) hx hy; omega)
    rw [List.countP_cons]
    split
    · next ha =>
      have : l.countP p = 0 := by
        rw [List.countP_eq_zero]
        intro x hx hp
        obtain ⟨j, hj⟩ := List.getElem?_of_mem hx
        have := h 0 (j + 1) a x (by simp) (by simpa using hj) ha hp
        omega
      omega
    · omega

theorem countP_unique {β : Type} (p : β → Bool) (l : List β) (hc : l.countP p ≤ 1)
    (i j : Nat) (x y : β) (hi : l[i]? = some x) (hj : l[j]? = some y) (hx : p x = true) (hy : p y = true) : i = j := by
  induction l generalizing i j with
  | nil => simp at hi
  | cons a l ih =>
    rw [List.countP_cons] at hc
    have hpos : ∀ (k : Nat) (z : β), l[k]? = some z → p z = true → 0 < l.countP p := fun k z hk hz =>
      List.countP_pos_iff.2 ⟨z, List.mem_of_getElem? hk, hz⟩
    cases i with
    | zero =>
      cases j with
      | zero => rfl
      | succ j =>
        simp only [List.getElem?_cons_zero, Option.some.injEq] at hi
        subst hi
        rw [if_pos hx] at hc
        have := hpos j y (by simpa using hj) hy
        omega
    | succ i =>
      cases j with
      | zero =>
        simp only [List.getElem?_cons_zero, Option.some.injEq] at hj
        subst hj
        rw [if_pos hy] at hc
        have := hpos i x (by simpa using hi) hx
        omega
      | succ j =>
        have := ih (by omega) i j (by simpa using hi) (by simpa using hj)
        omega

/-- At most one root means that everything is in one tree. -/
theorem rootCount_le_one {u : List Int} (hu : UFok u) :
    rootCount u ≤ 1 ↔ ∀ a b, a < u.length → b < u.length → SameSet u a b := by
  constructor
  · intro h a b ha hb
    obtain ⟨r, hr⟩ := rep_exists hu ha
    obtain ⟨s, hs⟩ := rep_exists hu hb
    obtain ⟨x, hx, hx0⟩ := rep_isRoot hr
    obtain ⟨y, hy, hy0⟩ := rep_isRoot hs
    have := countP_unique _ u h r s x y hx hy (by simpa using hx0) (by simpa using hy0)
    subst this
    exact ⟨r, hr, hs⟩
  · intro h
    refine countP_le_one _ u (fun i j x y hi hj hx hy => ?_)
    obtain ⟨r, h1, h2⟩ := h i j (List.getElem?_eq_some_iff.1 hi).1 (List.getElem?_eq_some_iff.1 hj).1
    rw [rep_unique (Rep.root hi (by simpa using hx)) h1, rep_unique (Rep.root hj (by simpa using hy)) h2]

/-! ## Sets -/

theorem mem_setInsert (s : List Int) (x y : Int) : y ∈ setInsert s x ↔ y = x ∨ y ∈ s := by
  induction s with
  | nil => simp [setInsert]
  | cons z s ih =>
    unfold setInsert
    split
    · simp
    · split
      · next h => subst h; simp
      · rw [List.mem_cons, ih, List.mem_cons]; tauto

theorem setInsert_sorted {s : List Int} (h : s.Pairwise (· < ·)) (x : Int) : (setInsert s x).Pairwise (· < ·) := by
  induction s with
  | nil => simp [setInsert]
  | cons z s ih =>
    rw [List.pairwise_cons] at h
    unfold setInsert
    split
    · next hx =>
      rw [List.pairwise_cons, List.pairwise_cons]
      refine ⟨fun y hy => ?_, h⟩
      rcases List.mem_cons.1 hy with rfl | hy
      · exact hx
      · have := h.1 y hy; omega
    · split
      · exact List.pairwise_cons.2 h
      · next h1 h2 =>
        rw [List.pairwise_cons]
        refine ⟨fun y hy => ?_, ih h.2⟩
        rcases (mem_setInsert s x y).1 hy with rfl | hy
        · omega
        · exact h.1 y hy

theorem setInsert_ne_nil (s : List Int) (x : Int) : setInsert s x ≠ [] := by
  intro h
  have := (mem_setInsert s x x).2 (.inl rfl)
  rw [h] at this; cases this

/-- A table of sets: entry `i` holds the `y` with `R (l + i) y`. -/
structure Table (l : Int) (n : Nat) (t : List (List Int)) (R : Int → Int → Prop) : Prop where
  length : t.length = n
  sorted : ∀ i, i < n → (t.getD i []).Pairwise (· < ·)
  mem : ∀ i, i < n → ∀ y, y ∈ t.getD i [] ↔ R (l + i) y

theorem table_new (l : Int) (n : Nat) : Table l n (List.replicate n []) (fun _ _ => False) := by
  refine ⟨by simp, fun i hi => ?_, fun i hi y => ?_⟩ <;> simp [hi]

theorem table_insert {l : Int} {n : Nat} {t : List (List Int)} {R R' : Int → Int → Prop} (h : Table l n t R) {i : Nat}
    (hi : i < n) (y : Int) (hR : ∀ x z, R' x z ↔ R x z ∨ (x = l + i ∧ z = y)) :
    Table l n (t.set i (setInsert (t.getD i []) y)) R' := by
  have hl := h.length
  have hg : ∀ k, k < n → (t.set i (setInsert (t.getD i []) y)).getD k [] =
      if k = i then setInsert (t.getD i []) y else t.getD k [] := by
    intro k hk
    simp only [List.getD_eq_getElem?_getD]
    by_cases hki : k = i
    · subst hki
      rw [List.getElem?_set_self (by omega)]; simp
    · rw [List.getElem?_set_ne (Ne.symm hki)]; simp [hki]
  refine ⟨by simpa using hl, fun k hk => ?_, fun k hk z => ?_⟩
  · rw [hg k hk]
    split
    · exact setInsert_sorted (h.sorted i hi) y
    · exact h.sorted k hk
  · rw [hg k hk]
    split
    · next hki =>
      subst hki
      rw [mem_setInsert, h.mem k hk, hR]
      simp only [true_and]
      exact Or.comm
    · next hki =>
      rw [h.mem k hk, hR]
      constructor
      · exact .inl
      · rintro (h | ⟨h, -⟩)
        · exact h
        · omega

/-! ## Base graphs -/

theorem bind_ok {β γ : Type} {x : Out β} {f : β → Out γ} {z : γ} : (x >>= f) = .ok z ↔ ∃ y, x = .ok y ∧ f y = .ok z := by
  cases x with
  | error e => simp [error_bind]
  | ok y => simp [ok_bind]

theorem vertexIndex_ok {o a : Int} {n i : Nat} : vertexIndex o a n = .ok i ↔ I64 (a - o) ∧ o ≤ a ∧ a < o + n ∧ (i : Int) = a - o := by
  unfold vertexIndex
  constructor
  · intro h
    by_cases h64 : I64 (a - o)
    · rw [chk_ok h64, ok_bind] at h
      split at h
      · next hr =>
        have := Except.ok.inj h
        exact ⟨h64, by omega, by omega, by omega⟩
      · cases h
    · rw [chk, if_neg h64, error_bind] at h; cases h
  · rintro ⟨h64, h1, h2, h3⟩
    rw [chk_ok h64, ok_bind, if_pos (by omega)]
    congr 1; omega

theorem vertexIndex_eq {o a : Int} {n : Nat} (h64n : I64 (n : Int)) (h1 : o ≤ a) (h2 : a < o + n) :
    vertexIndex o a n = .ok (a - o).toNat := by
  rw [vertexIndex_ok]
  refine ⟨?_, h1, h2, by omega⟩
  unfold I64 at *; omega

/-- The result of `addEdge_`. -/
def BaseGraph.added (g : BaseGraph) (a b : Int) : BaseGraph :=
  { g with
    edges := g.edges + 1
    adj := g.adj.set (a - g.offset).toNat (setInsert (g.adj.getD (a - g.offset).toNat []) b)
    selfloop := if a = b then some a else g.selfloop
    multiedge := if (g.adj.getD (a - g.offset).toNat []).contains b then some (a, b) else g.multiedge }

theorem base_addEdge_ok {g g' : BaseGraph} {a b : Int} : g.addEdge a b = .ok g' ↔
    I64 (a - g.offset) ∧ g.offset ≤ a ∧ a < g.offset + g.adj.length ∧ I64 (g.edges + 1) ∧ g' = g.added a b := by
  unfold BaseGraph.addEdge
  simp only [bind_ok, vertexIndex_ok, chk_eq_ok]
  constructor
  · rintro ⟨i, ⟨h1, h2, h3, h4⟩, e, ⟨h5, rfl⟩, h6⟩
    obtain rfl : i = (a - g.offset).toNat := by omega
    exact ⟨h1, h2, h3, h5, (Except.ok.inj h6).symm⟩
  · rintro ⟨h1, h2, h3, h4, rfl⟩
    exact ⟨(a - g.offset).toNat, ⟨h1, h2, h3, by omega⟩, _, ⟨h4, rfl⟩, rfl⟩

/-! ## Graphs -/

/-- What holds for a `Graph` with vertices [l, l + n) and edges `E`. -/
structure GraphInv (l : Int) (n : Nat) (E : List (Int × Int)) (g : Graph) : Prop where
  size : I64 (n : Int)
  offset : g.base.offset = l
  edges : g.base.edges = E.length
  range : ∀ e ∈ E, (l ≤ e.1 ∧ e.1 < l + n) ∧ (l ≤ e.2 ∧ e.2 < l + n)
  adj : Table l n g.base.adj (Adjacent E)
  loopSome : ∀ a, g.base.selfloop = some a → (a, a) ∈ E
  loopNone : g.base.selfloop = none → ∀ a, (a, a) ∉ E
  multiSome : ∀ a b, g.base.multiedge = some (a, b) → Twice E a b
  multiNone : g.base.multiedge = none → ∀ a b, ¬ Twice E a b
  uf : UFfor (fun x : Int => (x - l).toNat) (fun x => l ≤ x ∧ x < l + n) g.uf E
  ufLength : g.uf.length = n
  buf : UFfor (fun p : Int × Bool => 2 * (p.1 - l).toNat + p.2.toNat) (fun p => l ≤ p.1 ∧ p.1 < l + n) g.buf (doubled E)
  components : g.components = rootCount g.uf
  forest : g.forest = true ↔ Forest E
  bipartite : g.bipartite = true ↔ TwoColourable E

theorem graph_new {l r : Int} {g : Graph} (h : Graph.new l r = .ok g) : l ≤ r ∧ GraphInv l (r - l).toNat [] g := by
  unfold Graph.new BaseGraph.new at h
  simp only [bind_ok, chk_eq_ok] at h
  obtain ⟨base, ⟨m, ⟨h1, rfl⟩, u, h2, h3⟩, m, ⟨h4, rfl⟩, h5⟩ := h
  have hlr : l ≤ r := by
    by_contra hneg
    rw [decide_eq_false (by omega)] at h2
    cases h2
  have hb := Except.ok.inj h3
  have hg := Except.ok.inj h5
  subst hb hg
  refine ⟨hlr, ?_⟩
  constructor
  · rw [Int.toNat_of_nonneg (by omega)]; exact h1
  · rfl
  · rfl
  · intro e he; cases he
  · have := table_new l (r - l).toNat
    have e : (Adjacent [] : Int → Int → Prop) = fun _ _ => False := by
      funext a b; simp [Adjacent]
    rw [e]; exact this
  · intro a ha; cases ha
  · intro _ a ha; cases ha
  · intro a b h; cases h
  · rintro _ a b ⟨i, j, _, h, _⟩; simp at h
  · refine uffor_new (fun x hx => ?_) (fun x y hx hy hxy => ?_) <;> omega
  · simp [ufNew]
  · refine uffor_new (fun x hx => ?_) (fun x y hx hy hxy => ?_)
    · have : x.2.toNat ≤ 1 := Bool.toNat_le x.2
      omega
    · obtain ⟨x, s⟩ := x
      obtain ⟨y, t⟩ := y
      simp only at hx hy hxy
      have e : s = t := by
        cases s <;> cases t <;> simp only [Bool.toNat_false, Bool.toNat_true] at hxy <;> first | rfl | omega
      subst e
      have : x = y := by omega
      rw [this]
  · simp only [ufNew_rootCount]; omega
  · simp [forest_nil]
  · simp only [true_iff]
    exact ⟨fun _ => true, fun e he => by cases he⟩

theorem getElem?_append_one {β : Type} (E : List β) (e : β) (i : Nat) (x : β) :
    (E ++ [e])[i]? = some x ↔ E[i]? = some x ∨ (i = E.length ∧ x = e) := by
  rcases Nat.lt_trichotomy i E.length with h | rfl | h
  · rw [List.getElem?_append_left h]
    constructor
    · exact .inl
    · rintro (h' | ⟨h', -⟩)
      · exact h'
      · omega
  · simp [eq_comm]
  · rw [List.getElem?_append_right (by omega), List.getElem?_eq_none (show E.length ≤ i by omega),
      List.getElem?_eq_none (by simp; omega)]
    simp; omega

/-- Edges between `a` and `b`. -/
theorem twice_append (E : List (Int × Int)) (a b x y : Int) :
    Twice (E ++ [(a, b)]) x y ↔ Twice E x y ∨ (((x = a ∧ y = b) ∨ (x = b ∧ y = a)) ∧ Adjacent E a b) := by
  unfold Twice Adjacent
  constructor
  · rintro ⟨i, j, hij, hi, hj⟩
    simp only [getElem?_append_one, Prod.mk.injEq] at hi hj
    have hlt : j ≤ E.length := by
      rcases hj with (h | h) | (h | h)
      · have := (List.getElem?_eq_some_iff.1 h).1; omega
      · omega
      · have := (List.getElem?_eq_some_iff.1 h).1; omega
      · omega
    by_cases hjE : j = E.length
    · right
      have hjn : ∀ e, E[j]? ≠ some e := fun e h => by have := (List.getElem?_eq_some_iff.1 h).1; omega
      have hj' : (x = a ∧ y = b) ∨ (x = b ∧ y = a) := by
        rcases hj with (h | h) | (h | h)
        · exact absurd h (hjn _)
        · exact .inl h.2
        · exact absurd h (hjn _)
        · exact .inr ⟨h.2.2, h.2.1⟩
      refine ⟨hj', ?_⟩
      have hi' : (x, y) ∈ E ∨ (y, x) ∈ E := by
        rcases hi with (h | h) | (h | h)
        · exact .inl (List.mem_of_getElem? h)
        · omega
        · exact .inr (List.mem_of_getElem? h)
        · omega
      rcases hj' with ⟨rfl, rfl⟩ | ⟨rfl, rfl⟩
      · exact hi'
      · exact hi'.symm
    · left
      refine ⟨i, j, hij, ?_, ?_⟩
      · rcases hi with (h | h) | (h | h)
        · exact .inl h
        · omega
        · exact .inr h
        · omega
      · rcases hj with (h | h) | (h | h)
        · exact .inl h
        · omega
        · exact .inr h
        · omega
  · simp only [getElem?_append_one]
    rintro (⟨i, j, hij, hi, hj⟩ | ⟨h, hE⟩)
    · exact ⟨i, j, hij, hi.imp .inl .inl, hj.imp .inl .inl⟩
    · have : ∃ i, i < E.length ∧ (E[i]? = some (a, b) ∨ E[i]? = some (b, a)) := by
        rcases hE with hE | hE
        · obtain ⟨i, hi⟩ := List.getElem?_of_mem hE
          exact ⟨i, (List.getElem?_eq_some_iff.1 hi).1, .inl hi⟩
        · obtain ⟨i, hi⟩ := List.getElem?_of_mem hE
          exact ⟨i, (List.getElem?_eq_some_iff.1 hi).1, .inr hi⟩
      obtain ⟨i, hi, h2⟩ := this
      refine ⟨i, E.length, hi, ?_, ?_⟩
      · rcases h with ⟨rfl, rfl⟩ | ⟨rfl, rfl⟩
        · exact h2.imp .inl .inl
        · exact h2.symm.imp .inl .inl
      · rcases h with ⟨rfl, rfl⟩ | ⟨rfl, rfl⟩
        · exact .inl (.inr ⟨rfl, rfl⟩)
        · exact .inr (.inr ⟨rfl, rfl⟩)

theorem loops_append {E : List (Int × Int)} {o : Option Int} {a b : Int} (h1 : ∀ x, o = some x → (x, x) ∈ E)
    (h2 : o = none → ∀ x, (x, x) ∉ E) :
    (∀ x, (if a = b then some a else o) = some x → (x, x) ∈ E ++ [(a, b)]) ∧
    ((if a = b then some a else o) = none → ∀ x, (x, x) ∉ E ++ [(a, b)]) := by
  constructor
  · intro x hx
    split at hx
    · next h => subst h; obtain rfl := Option.some.inj hx; simp
    · exact List.mem_append_left _ (h1 x hx)
  · intro hx x hm
    split at hx
    · cases hx
    · next h =>
      rcases List.mem_append.1 hm with hm | hm
      · exact h2 hx x hm
      · simp only [List.mem_singleton, Prod.mk.injEq] at hm
        exact h (hm.1.symm.trans hm.2)

theorem graph_add {l : Int} {n : Nat} {E : List (Int × Int)} {g : Graph} (hg : GraphInv l n E g) {a b : Int}
    (ha : l ≤ a ∧ a < l + n) (hb : l ≤ b ∧ b < l + n) (hE : I64 ((E.length : Int) + 1)) :
    ∃ g', g.addEdge a b = .ok g' ∧ GraphInv l n (E ++ [(a, b)]) g' := by
  have hoff := hg.offset
  have hn := hg.size
  have hal := hg.adj.length
  have ha64 : I64 (a - l) := by unfold I64 at *; omega
  have hb64 : I64 (b - l) := by unfold I64 at *; omega
  have h1 : g.base.addEdge a b = .ok (g.base.added a b) := by
    rw [base_addEdge_ok, hoff, hal, hg.edges]
    exact ⟨ha64, ha.1, ha.2, hE, rfl⟩
  have hlen : (g.base.added a b).adj.length = n := by simp [BaseGraph.added, hal]
  have hoff' : (g.base.added a b).offset = l := hoff
  have h2 : vertexIndex (g.base.added a b).offset b (g.base.added a b).adj.length = .ok (b - l).toNat := by
    rw [vertexIndex_ok, hoff', hlen]; exact ⟨hb64, hb.1, hb.2, by omega⟩
  -- the table after the first insertion
  have t1 : Table l n (g.base.added a b).adj (fun x z => Adjacent E x z ∨ (x = a ∧ z = b)) := by
    have := table_insert (R' := fun x z => Adjacent E x z ∨ (x = a ∧ z = b)) hg.adj (i := (a - l).toNat) (by omega) b
      (fun x z => by
        have : (l + ((a - l).toNat : Int)) = a := by omega
        rw [this])
    simpa [BaseGraph.added, hoff] using this
  have t2 : Table l n ((g.base.added a b).adj.set (b - l).toNat (setInsert ((g.base.added a b).adj.getD (b - l).toNat []) a))
      (Adjacent (E ++ [(a, b)])) := by
    refine table_insert t1 (i := (b - l).toNat) (by omega) a (fun x z => ?_)
    have : (l + ((b - l).toNat : Int)) = b := by omega
    rw [this]
    simp only [Adjacent, List.mem_append, List.mem_singleton, Prod.mk.injEq]
    tauto
  have h3 : vertexIndex l a ((g.base.added a b).adj.set (b - l).toNat
      (setInsert ((g.base.added a b).adj.getD (b - l).toNat []) a)).length = .ok (a - l).toNat := by
    rw [vertexIndex_ok, t2.length]; exact ⟨ha64, ha.1, ha.2, by omega⟩
  obtain ⟨c, uf, k1, k2, k3, k4, k5⟩ := uffor_union hg.uf ha hb
  obtain ⟨c1, b1, p1, -, p3, -, -⟩ := uffor_union hg.buf (a := (a, false)) (b := (b, true)) ha hb
  obtain ⟨c2, b2, q1, -, q3, -, -⟩ := uffor_union p3 (a := (a, true)) (b := (b, false)) ha hb
  obtain ⟨c3, b3, r1, r2, r3, -, -⟩ := uffor_connected q3 (a := (a, false)) (b := (a, true)) ha ha
  rw [← doubled_append] at r2 r3
  simp only [Bool.toNat_false, Bool.toNat_true, Nat.add_zero] at p1 q1 r1
  refine ⟨_, by
    unfold Graph.addEdge
    rw [h1, ok_bind, h2, ok_bind]
    simp only [hoff', h3, ok_bind, k1, p1, q1, r1]
    rfl, ?_⟩
  have hloop := loops_append (a := a) (b := b) hg.loopSome hg.loopNone
  have hcont : (g.base.adj.getD (a - l).toNat []).contains b = true ↔ Adjacent E a b := by
    rw [List.contains_iff_mem, hg.adj.mem _ (by omega)]
    have : (l + ((a - l).toNat : Int)) = a := by omega
    rw [this]
  have hmulti : (g.base.added a b).multiedge =
      if (g.base.adj.getD (a - l).toNat []).contains b then some (a, b) else g.base.multiedge := by
    simp only [BaseGraph.added, hoff]
  constructor
  · exact hn
  · rfl
  · simp only [BaseGraph.added, hg.edges]; simp
  · intro e he
    rcases List.mem_append.1 he with he | he
    · exact hg.range e he
    · simp only [List.mem_singleton] at he; subst he; exact ⟨ha, hb⟩
  · exact t2
  · exact hloop.1
  · exact hloop.2
  · intro x y hxy
    simp only [hmulti] at hxy
    rw [twice_append]
    split at hxy
    · next h =>
      have := Option.some.inj hxy
      simp only [Prod.mk.injEq] at this
      obtain ⟨rfl, rfl⟩ := this
      exact .inr ⟨.inl ⟨rfl, rfl⟩, hcont.1 h⟩
    · exact .inl (hg.multiSome x y hxy)
  · intro hxy x y ht
    simp only [hmulti] at hxy
    rw [twice_append] at ht
    split at hxy
    · cases hxy
    · next h =>
      rcases ht with ht | ⟨-, ht⟩
      · exact hg.multiNone hxy x y ht
      · exact h (hcont.2 ht)
  · exact k3
  · exact k4.trans hg.ufLength
  · exact r3
  · have := hg.components
    cases c <;> simp only [if_true, if_false, Bool.false_eq_true] at k5 ⊢ <;> omega
  · rw [forest_append, ← hg.forest, ← k2]
    cases c <;> simp
  · rw [colourable_append, ← hg.bipartite, ← r2]
    cases c3 <;> simp

theorem graph_add_range {l : Int} {n : Nat} {E : List (Int × Int)} {g g' : Graph} (hg : GraphInv l n E g) {a b : Int}
    (h : g.addEdge a b = .ok g') : (l ≤ a ∧ a < l + n) ∧ (l ≤ b ∧ b < l + n) ∧ I64 ((E.length : Int) + 1) := by
  unfold Graph.addEdge at h
  rw [bind_ok] at h
  obtain ⟨base, h1, h2⟩ := h
  rw [base_addEdge_ok, hg.offset, hg.adj.length, hg.edges] at h1
  obtain ⟨-, h3, h4, h5, rfl⟩ := h1
  rw [bind_ok] at h2
  obtain ⟨j, h6, -⟩ := h2
  rw [vertexIndex_ok] at h6
  obtain ⟨-, h7, h8, -⟩ := h6
  have e1 : (g.base.added a b).offset = l := hg.offset
  have e2 : (g.base.added a b).adj.length = n := by simp [BaseGraph.added, hg.adj.length]
  rw [e1] at h7 h8
  rw [e2] at h8
  exact ⟨⟨h3, h4⟩, ⟨h7, h8⟩, h5⟩

theorem graph_query {l : Int} {n : Nat} {E : List (Int × Int)} {g : Graph} (hg : GraphInv l n E g) {a b : Int}
    (ha : l ≤ a ∧ a < l + n) (hb : l ≤ b ∧ b < l + n) :
    ∃ c g', g.areConnected a b = .ok (c, g') ∧ (c = true ↔ Joined E a b) ∧ GraphInv l n E g' := by
  have hn := hg.size
  have ha64 : I64 (a - l) := by unfold I64 at *; omega
  have hb64 : I64 (b - l) := by unfold I64 at *; omega
  obtain ⟨c, u, h1, h2, h3, h4, h5⟩ := uffor_connected hg.uf ha hb
  refine ⟨c, { g with uf := u }, ?_, h2, ?_⟩
  · unfold Graph.areConnected
    have e1 : vertexIndex g.base.offset a g.uf.length = .ok (a - l).toNat := by
      rw [vertexIndex_ok, hg.offset, hg.ufLength]; exact ⟨ha64, ha.1, ha.2, by omega⟩
    have e2 : vertexIndex g.base.offset b g.uf.length = .ok (b - l).toNat := by
      rw [vertexIndex_ok, hg.offset, hg.ufLength]; exact ⟨hb64, hb.1, hb.2, by omega⟩
    rw [e1, ok_bind, e2, ok_bind, h1, ok_bind]
  · exact { hg with uf := h3, ufLength := h4.trans hg.ufLength, components := hg.components.trans (by rw [h5]) }

theorem graph_query_range {l : Int} {n : Nat} {E : List (Int × Int)} {g g' : Graph} {c : Bool} (hg : GraphInv l n E g) {a b : Int}
    (h : g.areConnected a b = .ok (c, g')) : (l ≤ a ∧ a < l + n) ∧ (l ≤ b ∧ b < l + n) := by
  unfold Graph.areConnected at h
  simp only [bind_ok, vertexIndex_ok, hg.offset, hg.ufLength] at h
  obtain ⟨i, ⟨-, h1, h2, -⟩, j, ⟨-, h3, h4, -⟩, -⟩ := h
  exact ⟨⟨h1, h2⟩, h3, h4⟩

theorem graph_reached {l r : Int} {E : List (Int × Int)} {g : Graph} (h : Graph.Reached l r E g) :
    l ≤ r ∧ GraphInv l (r - l).toNat E g := by
  induction h with
  | new h => exact graph_new h
  | add _ h ih =>
    obtain ⟨hlr, ih⟩ := ih
    obtain ⟨h1, h2, h3⟩ := graph_add_range ih h
    obtain ⟨g', h4, h5⟩ := graph_add ih h1 h2 h3
    rw [h] at h4
    obtain rfl := Except.ok.inj h4
    exact ⟨hlr, h5⟩
  | query _ h ih =>
    obtain ⟨hlr, ih⟩ := ih
    obtain ⟨h1, h2⟩ := graph_query_range ih h
    obtain ⟨c, g', h3, -, h4⟩ := graph_query ih h1 h2
    rw [h] at h3
    have := Except.ok.inj h3
    simp only [Prod.mk.injEq] at this
    obtain ⟨-, rfl⟩ := this
    exact ⟨hlr, h4⟩

end ICPC
