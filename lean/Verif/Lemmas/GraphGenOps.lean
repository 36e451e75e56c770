import Verif.Lemmas.GraphGen

/-!
# The operations preserve the class invariant, and what can be observed
-/

namespace ICPC.Gen

open ICPC ICPC.Spec.EdgeMap

variable {E : Type} {g : Graph E} {dir : Bool} {lo : Int} {n : Nat} {m : Map E}

theorem _root_.ICPC.Spec.EdgeMap.Same.symm' {u v u' v' : Int} (h : Same dir u v u' v') : Same dir u' v' u v := by
  unfold Same at *
  rcases h with ⟨a, b⟩ | ⟨a, b, c⟩
  · exact Or.inl ⟨a.symm, b.symm⟩
  · exact Or.inr ⟨a, c.symm, b.symm⟩

theorem _root_.ICPC.Spec.EdgeMap.Same.trans' {u v u' v' u'' v'' : Int} (h : Same dir u v u' v') (h' : Same dir u' v' u'' v'') : Same dir u v u'' v'' := by
  unfold Same at *
  rcases h with ⟨a, b⟩ | ⟨a, b, c⟩ <;> rcases h' with ⟨a', b'⟩ | ⟨a', b', c'⟩
  · exact Or.inl ⟨by omega, by omega⟩
  · exact Or.inr ⟨a', by omega, by omega⟩
  · exact Or.inr ⟨a, by omega, by omega⟩
  · exact Or.inl ⟨by omega, by omega⟩

theorem same_iff {u v u' v' : Int} : Same dir u v u' v' ↔ Same dir u' v' u v := ⟨fun h => h.symm', fun h => h.symm'⟩

namespace Good

theorem congr {m' : Map E} (h : Good g dir lo n m) (he : ∀ u v, m u v = m' u v) : Good g dir lo n m' :=
  ⟨h.isDir, h.isLo, h.size, h.simple, h.adj, fun u v d => by rw [← he]; exact h.map u v d⟩

theorem congrR {R R' : Map E} (h : Good g dir lo n R) (he : ∀ u v d, R u v = some d ↔ R' u v = some d) : Good g dir lo n R' :=
  ⟨h.isDir, h.isLo, h.size, h.simple, h.adj, fun u v d => by rw [← he]; exact h.map u v d⟩

theorem sim' (h : Good g dir lo n m) : Simple g.dir g.minId n g.edges := by rw [h.isDir, h.isLo]; exact h.simple

theorem map_in (h : Good g dir lo n m) {u v : Int} {d : E} (hm : m u v = some d) : In lo n u ∧ In lo n v ∧ u ≠ v := by
  obtain ⟨r, hr, -, hj⟩ := (h.map u v d).1 hm
  have h1 := h.simple.src r hr
  have h2 := h.simple.dst r hr
  have h3 := h.simple.ne r hr
  rcases hj with ⟨a, b⟩ | ⟨-, a, b⟩
  · rw [← a, ← b]; exact ⟨h1, h2, h3⟩
  · rw [← a, ← b]; exact ⟨h2, h1, h3.symm⟩

theorem map_symm (h : Good g false lo n m) (u v : Int) : m u v = m v u := by
  have key : ∀ u v d, m u v = some d → m v u = some d := by
    intro u v d hm
    obtain ⟨r, hr, hd, hj⟩ := (h.map u v d).1 hm
    refine (h.map v u d).2 ⟨r, hr, hd, ?_⟩
    rcases hj with ⟨a, b⟩ | ⟨-, a, b⟩
    · exact Or.inr ⟨rfl, a, b⟩
    · exact Or.inl ⟨a, b⟩
  cases h1 : m u v with
  | some d => exact (key u v d h1).symm
  | none =>
    cases h2 : m v u with
    | some d => rw [key v u d h2] at h1; exact absurd h1 (by simp)
    | none => rfl

theorem assertNode_ok (h : Good g dir lo n m) {u : Int} (hu : In lo n u) : g.assertNode u = .ok () := by
  unfold Graph.assertNode Graph.nodeCount
  rw [h.isLo, h.size, chk_ok h.simple.hi64, ok_bind]
  have h1 := hu.1
  have h2 := hu.2
  rw [decide_eq_false (by omega), decide_eq_false (by omega)]
  rfl

theorem assertNode_throw (h : Good g dir lo n m) {u : Int} (hu : ¬ In lo n u) : g.assertNode u = .error .throw := by
  unfold Graph.assertNode Graph.nodeCount
  rw [h.isLo, h.size, chk_ok h.simple.hi64, ok_bind]
  unfold In at hu
  by_cases h1 : u < lo
  · rw [decide_eq_true h1]; rfl
  · rw [decide_eq_false h1, decide_eq_true (by omega)]; rfl

theorem adjAt (h : Good g dir lo n m) {u : Int} (hu : In lo n u) : ∃ s, g.adjAt u = .ok s ∧ g.adj[(u - g.minId).toNat]? = some s ∧
    SetSorted g.edges s ∧ ∀ i, i ∈ s ↔ ∃ r, g.edges[i]? = some r ∧ Inc dir r u := by
  obtain ⟨s, h1, h2, h3⟩ := adjAt_ok g h.size (by rw [h.isLo]; exact hu)
  refine ⟨s, h1, h2, h.adj.sorted s (List.mem_of_getElem? h2), fun i => ?_⟩
  rw [h.adj.mem _ s h2, h3, h.isDir]
  constructor
  · exact And.right
  · rintro ⟨r, hr, hi⟩
    exact ⟨(List.getElem?_eq_some_iff.1 hr).1, r, hr, hi⟩

/-- The search in the set of `u`. -/
theorem setFind_some (h : Good g dir lo n m) {u v : Int} (hv : In lo n v) {s : List Nat}
    (hs : ∀ i, i ∈ s ↔ ∃ r, g.edges[i]? = some r ∧ Inc dir r u) {i : Nat} (hf : setFind g.edges s (xorI u v) = some i) :
    ∃ r, g.edges[i]? = some r ∧ Same dir u v r.src r.dst ∧ m u v = some r.data := by
  unfold setFind at hf
  have hmem := List.mem_of_find?_eq_some hf
  have hk := List.find?_some hf
  obtain ⟨r, hr, hi⟩ := (hs i).1 hmem
  have hk : keyAt g.edges i = xorI u v := by simpa using hk
  rw [keyAt_some hr] at hk
  have hr' := List.mem_of_getElem? hr
  have hj := h.simple.joins hr' (in_i64 hv h.simple.lo64 h.simple.hi64) hi hk
  exact ⟨r, hr, hj, (h.map u v _).2 ⟨r, hr', rfl, hj⟩⟩

theorem setFind_none (h : Good g dir lo n m) {u v : Int} {s : List Nat}
    (hs : ∀ i, i ∈ s ↔ ∃ r, g.edges[i]? = some r ∧ Inc dir r u) (hf : setFind g.edges s (xorI u v) = none) : m u v = none := by
  cases hm : m u v with
  | none => rfl
  | some d =>
    exfalso
    obtain ⟨r, hr, -, hj⟩ := (h.map u v d).1 hm
    obtain ⟨h1, h2⟩ := h.simple.key_of_joins hr hj
    obtain ⟨i, hi⟩ := List.getElem?_of_mem hr
    unfold setFind at hf
    have := List.find?_eq_none.1 hf i ((hs i).2 ⟨r, hi, h1⟩)
    rw [keyAt_some hi] at this
    simp [h2] at this

theorem hasEdge (h : Good g dir lo n m) (u v : Int) :
    g.hasEdge u v = if In lo n u ∧ In lo n v then .ok (m u v).isSome else .error .throw := by
  unfold Graph.hasEdge
  by_cases hu : In lo n u
  · rw [h.assertNode_ok hu, ok_bind]
    by_cases hv : In lo n v
    · rw [h.assertNode_ok hv, ok_bind, if_pos ⟨hu, hv⟩]
      obtain ⟨s, h1, -, -, h4⟩ := h.adjAt hu
      rw [h1, ok_bind, pure_out]
      cases hf : setFind g.edges s (xorI u v) with
      | none => rw [h.setFind_none h4 hf]; rfl
      | some i =>
        obtain ⟨r, -, -, hm⟩ := h.setFind_some hv h4 hf
        rw [hm]; rfl
    · rw [h.assertNode_throw hv, if_neg (fun x => hv x.2)]; rfl
  · rw [h.assertNode_throw hu, if_neg (fun x => hu x.1)]; rfl

theorem findEdge (h : Good g dir lo n m) (u v : Int) :
    g.findEdge u v = if In lo n u ∧ In lo n v then .ok ((m u v).map fun d => ⟨u, v, d⟩) else .error .throw := by
  unfold Graph.findEdge
  by_cases hu : In lo n u
  · rw [h.assertNode_ok hu, ok_bind]
    by_cases hv : In lo n v
    · rw [h.assertNode_ok hv, ok_bind, if_pos ⟨hu, hv⟩]
      obtain ⟨s, h1, -, -, h4⟩ := h.adjAt hu
      rw [h1, ok_bind]
      cases hf : setFind g.edges s (xorI u v) with
      | none => simp only; rw [h.setFind_none h4 hf]; rfl
      | some i =>
        obtain ⟨r, hr, -, hm⟩ := h.setFind_some hv h4 hf
        simp only
        rw [hm, hr]; rfl
    · rw [h.assertNode_throw hv, if_neg (fun x => hv x.2)]; rfl
  · rw [h.assertNode_throw hu, if_neg (fun x => hu x.1)]; rfl

end Good

/-- Appending an edge to a simple list. -/
theorem Simple.append {edges : List (Rec E)} (h : Simple dir lo n edges) {u v : Int} (d : E) (hu : In lo n u) (hv : In lo n v) (hne : u ≠ v)
    (hnew : ∀ r ∈ edges, ¬ Same dir u v r.src r.dst) : Simple dir lo n (edges ++ [⟨xorI u v, v, d⟩]) := by
  have hsrc : (⟨xorI u v, v, d⟩ : Rec E).src = u := xorI_cancel (in_i64 hu h.lo64 h.hi64)
  have cases : ∀ r ∈ edges ++ [(⟨xorI u v, v, d⟩ : Rec E)], r ∈ edges ∨ r = ⟨xorI u v, v, d⟩ := by simp
  refine ⟨h.lo64, h.hi64, h.n64, ?_, ?_, ?_, ?_, ?_⟩
  · intro r hr
    rcases cases r hr with hr | rfl
    · exact h.key r hr
    · exact xorI_i64 _ _
  · intro r hr
    rcases cases r hr with hr | rfl
    · exact h.src r hr
    · rw [hsrc]; exact hu
  · intro r hr
    rcases cases r hr with hr | rfl
    · exact h.dst r hr
    · exact hv
  · intro r hr
    rcases cases r hr with hr | rfl
    · exact h.ne r hr
    · rw [hsrc]; exact hne
  · intro i j r s hi hj hs
    have split : ∀ (i : Nat) (r : Rec E), (edges ++ [(⟨xorI u v, v, d⟩ : Rec E)])[i]? = some r →
        (edges[i]? = some r) ∨ (i = edges.length ∧ r = ⟨xorI u v, v, d⟩) := by
      intro i r hi
      by_cases hlt : i < edges.length
      · rw [List.getElem?_append_left hlt] at hi; exact Or.inl hi
      · rw [List.getElem?_append_right (by omega)] at hi
        have hb := (List.getElem?_eq_some_iff.1 hi).1
        simp only [List.length_cons, List.length_nil] at hb
        have e : i = edges.length := by omega
        subst e
        simp at hi
        exact Or.inr ⟨rfl, hi.symm⟩
    rcases split i r hi with hi | ⟨hi, rfl⟩ <;> rcases split j s hj with hj | ⟨hj, rfl⟩
    · exact h.uniq i j r s hi hj hs
    · exact absurd (by rw [hsrc] at hs; exact hs.symm') (hnew r (List.mem_of_getElem? hi))
    · exact absurd (by rw [hsrc] at hs; exact hs) (hnew s (List.mem_of_getElem? hj))
    · omega

namespace Good

theorem adj_congr {g g' : Graph E} {P : Nat → Prop} (h : AdjOk g P) (h1 : g'.dir = g.dir) (h2 : g'.minId = g.minId) (h3 : g'.adj = g.adj)
    (h4 : ∀ i r, P i → (g.edges[i]? = some r → ∃ r', g'.edges[i]? = some r' ∧ r'.fromXorTo = r.fromXorTo ∧ r'.dst = r.dst))
    (h5 : ∀ i r, P i → (g'.edges[i]? = some r → ∃ r', g.edges[i]? = some r' ∧ r'.fromXorTo = r.fromXorTo ∧ r'.dst = r.dst)) :
    AdjOk g' P := by
  have hinc : ∀ (r r' : Rec E) w, r'.fromXorTo = r.fromXorTo → r'.dst = r.dst → Inc g.dir r w → Inc g'.dir r' w := by
    intro r r' w e1 e2 hi
    rw [h1]
    unfold Inc Rec.src at *
    rw [e1, e2]; exact hi
  have hmem : ∀ (v : Nat) (s : List Nat), g'.adj[v]? = some s → ∀ i, i ∈ s ↔ P i ∧ ∃ r, g'.edges[i]? = some r ∧ Inc g'.dir r (g'.minId + v) := by
    intro v s hs i
    rw [h3] at hs
    rw [h.mem v s hs, h2]
    constructor
    · rintro ⟨hp, r, hr, hi⟩
      obtain ⟨r', hr', e1, e2⟩ := h4 i r hp hr
      exact ⟨hp, r', hr', hinc r r' _ e1 e2 hi⟩
    · rintro ⟨hp, r, hr, hi⟩
      obtain ⟨r', hr', e1, e2⟩ := h5 i r hp hr
      refine ⟨hp, r', hr', ?_⟩
      rw [h1] at hi
      unfold Inc Rec.src at *
      rw [e1, e2]; exact hi
  refine ⟨?_, hmem⟩
  intro s hs
  obtain ⟨v, hv⟩ := List.getElem?_of_mem hs
  have hso := h.sorted s (h3 ▸ hs)
  unfold SetSorted at *
  refine List.Pairwise.imp_of_mem ?_ hso
  intro a b ha hb hab
  have key : ∀ a ∈ s, keyAt g'.edges a = keyAt g.edges a := by
    intro a ha
    obtain ⟨hp, r, hr, -⟩ := (hmem v s hv a).1 ha
    obtain ⟨r', hr', e1, e2⟩ := h5 a r hp hr
    rw [keyAt_some hr, keyAt_some hr', e1]
  rw [key a ha, key b hb]; exact hab

/-- `addEdge` of a new or known edge. -/
theorem addEdge (h : Good g dir lo n m) {u v : Int} (d : E) (hu : In lo n u) (hv : In lo n v) (hne : u ≠ v) :
    ∃ g', g.addEdge u v d = (.ok ⟨u, v, d⟩, g') ∧ Good g' dir lo n (put dir m u v d) ∧
      g'.edges.length = g.edges.length + (if (m u v).isSome then 0 else 1) := by
  unfold Graph.addEdge
  rw [h.assertNode_ok hu, h.assertNode_ok hv, decide_eq_true hne, judgeAssert_true]
  simp only [ok_bind]
  obtain ⟨s, h1, -, -, h4⟩ := h.adjAt hu
  rw [h1]
  simp only
  have hu64 := in_i64 hu h.simple.lo64 h.simple.hi64
  cases hf : setFind g.edges s (xorI u v) with
  | none =>
    have hm := h.setFind_none h4 hf
    have hnew : ∀ r ∈ g.edges, ¬ Same dir u v r.src r.dst := by
      intro r hr hj
      rw [(h.map u v r.data).2 ⟨r, hr, rfl, hj⟩] at hm
      exact absurd hm (by simp)
    have hsim := h.simple.append d hu hv hne hnew
    have hadj : AdjOk (g.emplaceEdge u v d) fun i => i < g.edges.length := by
      refine adj_congr h.adj rfl rfl rfl ?_ ?_
      · intro i r hi hr
        exact ⟨r, by unfold Graph.emplaceEdge; simp only; rw [List.getElem?_append_left hi]; exact hr, rfl, rfl⟩
      · intro i r hi hr
        unfold Graph.emplaceEdge at hr
        simp only at hr
        rw [List.getElem?_append_left hi] at hr
        exact ⟨r, hr, rfl, rfl⟩
    have hlen : (g.emplaceEdge u v d).edges.length = g.edges.length + 1 := by simp [Graph.emplaceEdge]
    obtain ⟨g', k1, k2, k3, k4, k5, k6⟩ := addInternal_ok (g := g.emplaceEdge u v d) (i := (g.emplaceEdge u v d).edges.length - 1) h.size
      (by change Simple g.dir g.minId n _; rw [h.isDir, h.isLo]; exact hsim) hadj (by rw [hlen]; omega) (by rw [hlen]; omega)
    simp only [k1]
    have hlast : g'.edges[(g.emplaceEdge u v d).edges.length - 1]? = some ⟨xorI u v, v, d⟩ := by
      rw [k4, hlen]; simp [Graph.emplaceEdge]
    rw [hlast]
    refine ⟨g', rfl, ⟨k2.trans h.isDir, k3.trans h.isLo, k5, by rw [k4]; exact hsim, ?_, ?_⟩, ?_⟩
    · refine ⟨k6.sorted, fun w t ht i => ?_⟩
      rw [k6.mem w t ht, k4, hlen]
      rw [show (i < g.edges.length ∨ i = g.edges.length + 1 - 1) ↔ i < g.edges.length + 1 from by omega]
    · intro x y e
      rw [k4]
      have hsrc : (⟨xorI u v, v, d⟩ : Rec E).src = u := xorI_cancel hu64
      unfold put
      by_cases hxy : Same dir u v x y
      · rw [if_pos hxy]
        constructor
        · intro he
          obtain rfl := Option.some.inj he
          refine ⟨⟨xorI u v, v, d⟩, by simp [Graph.emplaceEdge], rfl, ?_⟩
          rw [hsrc]; exact hxy.symm'
        · rintro ⟨r, hr, he, hj⟩
          simp only [Graph.emplaceEdge, List.mem_append, List.mem_singleton] at hr
          rcases hr with hr | rfl
          · exact absurd (hxy.trans' hj) (hnew r hr)
          · exact congrArg some he
      · rw [if_neg hxy, h.map]
        constructor
        · rintro ⟨r, hr, he⟩
          exact ⟨r, by simp [Graph.emplaceEdge, hr], he⟩
        · rintro ⟨r, hr, he, hj⟩
          simp only [Graph.emplaceEdge, List.mem_append, List.mem_singleton] at hr
          rcases hr with hr | rfl
          · exact ⟨r, hr, he, hj⟩
          · rw [hsrc] at hj; exact absurd hj.symm' hxy
    · rw [k4, hlen, hm]; rfl
  | some i =>
    obtain ⟨r, hr, hj, hm⟩ := h.setFind_some hv h4 hf
    simp only [hr]
    have hlt := (List.getElem?_eq_some_iff.1 hr).1
    have hrm := List.mem_of_getElem? hr
    have hget : ∀ (k : Nat) (r' : Rec E), (g.edges.set i { r with data := d })[k]? = some r' ↔
        (k = i ∧ r' = { r with data := d }) ∨ (k ≠ i ∧ g.edges[k]? = some r') := by
      intro k r'
      by_cases hk : k = i
      · subst hk
        rw [List.getElem?_set_self hlt]
        simp [eq_comm]
      · rw [List.getElem?_set_ne (Ne.symm hk)]
        simp [hk]
    have old : ∀ (k : Nat) (r' : Rec E), (g.edges.set i { r with data := d })[k]? = some r' →
        ∃ r'', g.edges[k]? = some r'' ∧ r''.fromXorTo = r'.fromXorTo ∧ r''.dst = r'.dst ∧ r''.src = r'.src := by
      intro k r' hk
      rcases (hget k r').1 hk with ⟨rfl, rfl⟩ | ⟨-, hk⟩
      · exact ⟨r, hr, rfl, rfl, rfl⟩
      · exact ⟨r', hk, rfl, rfl, rfl⟩
    have oldm : ∀ r' ∈ g.edges.set i { r with data := d }, ∃ r'' ∈ g.edges, r''.fromXorTo = r'.fromXorTo ∧ r''.dst = r'.dst ∧ r''.src = r'.src := by
      intro r' hr'
      obtain ⟨k, hk⟩ := List.getElem?_of_mem hr'
      obtain ⟨r'', h1, h2⟩ := old k r' hk
      exact ⟨r'', List.mem_of_getElem? h1, h2⟩
    refine ⟨_, rfl, ⟨h.isDir, h.isLo, h.size, ?_, ?_, ?_⟩, ?_⟩
    · refine ⟨h.simple.lo64, h.simple.hi64, h.simple.n64, ?_, ?_, ?_, ?_, ?_⟩
      · intro r' hr'; obtain ⟨q, hq, e1, e2, e3⟩ := oldm r' hr'; rw [← e1]; exact h.simple.key q hq
      · intro r' hr'; obtain ⟨q, hq, e1, e2, e3⟩ := oldm r' hr'; rw [← e3]; exact h.simple.src q hq
      · intro r' hr'; obtain ⟨q, hq, e1, e2, e3⟩ := oldm r' hr'; rw [← e2]; exact h.simple.dst q hq
      · intro r' hr'; obtain ⟨q, hq, e1, e2, e3⟩ := oldm r' hr'; rw [← e2, ← e3]; exact h.simple.ne q hq
      · intro a b p q ha hb hs
        obtain ⟨p', hp, -, e2, e3⟩ := old a p ha
        obtain ⟨q', hq, -, f2, f3⟩ := old b q hb
        exact h.simple.uniq a b p' q' hp hq (by rw [e2, e3, f2, f3]; exact hs)
    · change AdjOk _ fun k => k < (g.edges.set i { r with data := d }).length
      rw [List.length_set]
      refine adj_congr h.adj rfl rfl rfl ?_ ?_
      · intro k r' _ hk
        by_cases hki : k = i
        · subst hki
          rw [hr] at hk
          obtain rfl := Option.some.inj hk
          exact ⟨_, (hget k _).2 (Or.inl ⟨rfl, rfl⟩), rfl, rfl⟩
        · exact ⟨r', (hget k _).2 (Or.inr ⟨hki, hk⟩), rfl, rfl⟩
      · intro k r' _ hk
        obtain ⟨q, h1, h2, h3, -⟩ := old k r' hk
        exact ⟨q, h1, h2, h3⟩
    · intro x y e
      change _ ↔ ∃ r' ∈ g.edges.set i { r with data := d }, _
      unfold put
      by_cases hxy : Same dir u v x y
      · rw [if_pos hxy]
        constructor
        · intro he
          obtain rfl := Option.some.inj he
          exact ⟨{ r with data := d }, List.mem_of_getElem? ((hget i _).2 (Or.inl ⟨rfl, rfl⟩)), rfl, hxy.symm'.trans' hj⟩
        · rintro ⟨r', hr', he, hj'⟩
          obtain ⟨k, hk⟩ := List.getElem?_of_mem hr'
          rcases (hget k r').1 hk with ⟨-, rfl⟩ | ⟨hki, hk⟩
          · exact congrArg some he
          · exact absurd (h.simple.uniq k i r' r hk hr ((hxy.trans' hj').symm'.trans' hj)) hki
      · rw [if_neg hxy, h.map]
        constructor
        · rintro ⟨r', hr', he, hj'⟩
          obtain ⟨k, hk⟩ := List.getElem?_of_mem hr'
          refine ⟨r', List.mem_of_getElem? ((hget k r').2 (Or.inr ⟨?_, hk⟩)), he, hj'⟩
          rintro rfl
          rw [hr] at hk
          obtain rfl := Option.some.inj hk
          exact hxy (hj.trans' hj'.symm')
        · rintro ⟨r', hr', he, hj'⟩
          obtain ⟨k, hk⟩ := List.getElem?_of_mem hr'
          rcases (hget k r').1 hk with ⟨-, rfl⟩ | ⟨-, hk⟩
          · exact absurd (hj.trans' hj'.symm') hxy
          · exact ⟨r', List.mem_of_getElem? hk, he, hj'⟩
    · simp [hm]

theorem add (h : Good g dir lo n m) {u v : Int} (d : E) (hu : In lo n u) (hv : In lo n v) (hne : u ≠ v) :
    ∃ g', g.add u v d = .ok g' ∧ Good g' dir lo n (put dir m u v d) ∧
      g'.edges.length = g.edges.length + (if (m u v).isSome then 0 else 1) := by
  obtain ⟨g', h1, h2, h3⟩ := h.addEdge d hu hv hne
  exact ⟨g', by unfold Graph.add; rw [h1], h2, h3⟩

/-- `addEdge` with invalid arguments. -/
theorem addEdge_throw (h : Good g dir lo n m) {u v : Int} (d : E) (hbad : ¬ (In lo n u ∧ In lo n v ∧ u ≠ v)) :
    g.addEdge u v d = (.error .throw, g) := by
  unfold Graph.addEdge
  by_cases hu : In lo n u
  · rw [h.assertNode_ok hu, ok_bind]
    by_cases hv : In lo n v
    · rw [h.assertNode_ok hv, ok_bind, decide_eq_false (by tauto)]; rfl
    · rw [h.assertNode_throw hv]; rfl
  · rw [h.assertNode_throw hu]; rfl

end Good

end ICPC.Gen
