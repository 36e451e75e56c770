import Verif.Lemmas.GraphGenOps
import Mathlib.Data.List.Forall2

/-!
# Erasing and moving, constructors, observations
-/

namespace ICPC.Gen

open ICPC ICPC.Spec.EdgeMap

variable {E : Type} {g : Graph E} {dir : Bool} {lo : Int} {n : Nat} {m : Map E}

/-- The set of a vertex `x` contains exactly those incident edges `j` with `Q j x`. -/
structure AdjGen (g : Graph E) (Q : Nat → Int → Prop) : Prop where
  sorted : ∀ s ∈ g.adj, SetSorted g.edges s
  mem : ∀ (v : Nat) (s : List Nat), g.adj[v]? = some s → ∀ j, j ∈ s ↔ Q j (g.minId + v) ∧ ∃ r, g.edges[j]? = some r ∧ Inc g.dir r (g.minId + v)

theorem eraseAt_gen {Q : Nat → Int → Prop} (hn : g.adj.length = n) (hsim : Simple g.dir g.minId n g.edges) (h : AdjGen g Q) {i : Nat} {w : Int}
    (hw : In g.minId n w) {r : Rec E} (hr : g.edges[i]? = some r) (hinc : Inc g.dir r w) :
    ∃ g', g.eraseAt w i = .ok g' ∧ g'.dir = g.dir ∧ g'.minId = g.minId ∧ g'.edges = g.edges ∧ g'.adj.length = n ∧
      AdjGen g' fun j x => Q j x ∧ ¬ (j = i ∧ x = w) := by
  obtain ⟨s, h1, h2, h3⟩ := adjAt_ok g hn hw
  have hmem := h.mem _ s h2
  rw [h3] at hmem
  refine ⟨g.setAdj w (setErase g.edges s i), ?_, rfl, rfl, rfl, by simp [Graph.setAdj, hn], ?_, ?_⟩
  · unfold Graph.eraseAt
    rw [h1, ok_bind, pure_out]
  · exact adjOk_set (setErase_sorted (h.sorted s (List.mem_of_getElem? h2))) h.sorted
  · intro v t ht j
    change (g.adj.set (w - g.minId).toNat (setErase g.edges s i))[v]? = some t at ht
    change j ∈ t ↔ (Q j (g.minId + v) ∧ ¬ (j = i ∧ g.minId + v = w)) ∧ ∃ r, g.edges[j]? = some r ∧ Inc g.dir r (g.minId + v)
    by_cases hv : v = (w - g.minId).toNat
    · subst hv
      rw [List.getElem?_set_self (List.getElem?_eq_some_iff.1 h2).1] at ht
      obtain rfl : _ = t := Option.some.inj ht
      rw [setErase_mem, hmem, h3, keyAt_some hr]
      constructor
      · rintro ⟨⟨ha, r', hb, hc⟩, hk⟩
        refine ⟨⟨ha, ?_⟩, r', hb, hc⟩
        rintro ⟨rfl, -⟩
        rw [hr] at hb
        obtain rfl := Option.some.inj hb
        exact hk (keyAt_some hr)
      · rintro ⟨⟨ha, hne⟩, r', hb, hc⟩
        refine ⟨⟨ha, r', hb, hc⟩, ?_⟩
        rw [keyAt_some hb]
        intro e
        exact hne ⟨hsim.key_inj hb hr hc hinc e, rfl⟩
    · rw [List.getElem?_set_ne (by omega)] at ht
      have hne : g.minId + (v : Int) ≠ w := by omega
      rw [h.mem v t ht]
      simp [hne]

/-- Both ends of an edge. -/
theorem eraseBoth_gen {Q : Nat → Int → Prop} (hn : g.adj.length = n) (hsim : Simple g.dir g.minId n g.edges) (h : AdjGen g Q) {i : Nat}
    {r : Rec E} (hr : g.edges[i]? = some r) {u v : Int} (hu : In g.minId n u) (hv : In g.minId n v) (hj : Same g.dir u v r.src r.dst) :
    ∃ g', g.eraseBoth u v i = .ok g' ∧ g'.dir = g.dir ∧ g'.minId = g.minId ∧
      g'.edges = g.edges ∧ g'.adj.length = n ∧ AdjGen g' fun j x => Q j x ∧ j ≠ i := by
  have hmem := List.mem_of_getElem? hr
  obtain ⟨hinc, -⟩ := hsim.key_of_joins hmem hj
  obtain ⟨g1, h1, h2, h3, h4, h5, h6⟩ := eraseAt_gen hn hsim h hu hr hinc
  have other : ∀ x, Inc g.dir r x → x = u ∨ (g.dir = false ∧ x = v) := by
    intro x hx
    unfold Inc Same at *
    rcases hj with ⟨a, b⟩ | ⟨a, b, c⟩ <;> rcases hx with hx | ⟨hd, hx⟩
    · left; omega
    · right; exact ⟨hd, by omega⟩
    · right; exact ⟨a, by omega⟩
    · left; omega
  have fin : ∀ g' : Graph E, g'.dir = g.dir → g'.minId = g.minId → g'.edges = g.edges → ∀ W : Int → Prop, (∀ x, Inc g.dir r x → W x) →
      AdjGen g' (fun j x => Q j x ∧ ¬ (j = i ∧ W x)) → AdjGen g' fun j x => Q j x ∧ j ≠ i := by
    intro g' e1 e2 e3 W hW hg
    refine ⟨hg.sorted, fun w s hs j => ?_⟩
    rw [hg.mem w s hs]
    constructor
    · rintro ⟨⟨ha, hb⟩, r', hc, hd⟩
      refine ⟨⟨ha, ?_⟩, r', hc, hd⟩
      rintro rfl
      rw [e3, hr] at hc
      obtain rfl := Option.some.inj hc
      exact hb ⟨rfl, hW _ (e1 ▸ hd)⟩
    · rintro ⟨⟨ha, hb⟩, hc⟩
      exact ⟨⟨ha, fun x => hb x.1⟩, hc⟩
  unfold Graph.eraseBoth
  rw [h1, ok_bind]
  by_cases hd : g.dir = true
  · rw [h2, hd]
    refine ⟨g1, rfl, h2.trans hd, h3, h4, h5, fin g1 h2 h3 h4 (fun x => x = u) ?_ h6⟩
    intro x hx
    rcases other x hx with hx | ⟨hx, -⟩
    · exact hx
    · rw [hd] at hx; exact absurd hx (by simp)
  · have hd : g.dir = false := by simpa using hd
    have hinc' : Inc g.dir r v := by
      unfold Inc Same at *
      rcases hj with ⟨a, b⟩ | ⟨a, b, c⟩
      · exact Or.inr ⟨hd, b⟩
      · exact Or.inl b
    obtain ⟨g2, k1, k2, k3, k4, k5, k6⟩ := eraseAt_gen (g := g1) h5 (by rw [h2, h3, h4]; exact hsim) h6 (by rw [h3]; exact hv) (by rw [h4]; exact hr)
      (by rw [h2]; exact hinc')
    rw [h2, hd]
    refine ⟨g2, k1, k2.trans (h2.trans hd), k3.trans h3, k4.trans h4, k5,
      fin g2 (k2.trans h2) (k3.trans h3) (k4.trans h4) (fun x => x = u ∨ x = v) ?_ ⟨k6.sorted, fun w s hs j => ?_⟩⟩
    · intro x hx
      rcases other x hx with hx | ⟨-, hx⟩
      · exact Or.inl hx
      · exact Or.inr hx
    · rw [k6.mem w s hs]
      constructor
      · rintro ⟨⟨⟨a, b⟩, c⟩, e⟩
        exact ⟨⟨a, by rintro ⟨p, q | q⟩; exacts [b ⟨p, q⟩, c ⟨p, q⟩]⟩, e⟩
      · rintro ⟨⟨a, b⟩, e⟩
        exact ⟨⟨⟨a, fun x => b ⟨x.1, Or.inl x.2⟩⟩, fun x => b ⟨x.1, Or.inr x.2⟩⟩, e⟩

/-- The list after the swap with the last element and `pop_back`. -/
theorem swapPop_get {α : Type} (l : List α) (i : Nat) (a b : α) (hi : i < l.length) (k : Nat) (x : α) :
    (((l.set i b).set (l.length - 1) a).dropLast)[k]? = some x ↔
      k < l.length - 1 ∧ ((k = i ∧ x = b) ∨ (k ≠ i ∧ l[k]? = some x)) := by
  rw [List.dropLast_eq_take, List.getElem?_take]
  simp only [List.length_set]
  by_cases hk : k < l.length - 1
  · rw [if_pos hk, List.getElem?_set_ne (by omega)]
    by_cases hki : k = i
    · subst hki
      rw [List.getElem?_set_self (by omega)]
      simp [hk, eq_comm]
    · rw [List.getElem?_set_ne (by omega)]
      simp [hk, hki]
  · rw [if_neg hk]
    simp [hk]

/-- Which of the old edges is at position `k` afterwards. -/
theorem swapPop_old {α : Type} {l : List α} {i : Nat} {a b : α} (hi : i < l.length) (hb : l[l.length - 1]? = some b) {k : Nat} {x : α}
    (h : (((l.set i b).set (l.length - 1) a).dropLast)[k]? = some x) :
    k < l.length - 1 ∧ l[if k = i then l.length - 1 else k]? = some x := by
  obtain ⟨h1, h2⟩ := (swapPop_get l i a b hi k x).1 h
  refine ⟨h1, ?_⟩
  rcases h2 with ⟨rfl, rfl⟩ | ⟨h2, h3⟩
  · rw [if_pos rfl]; exact hb
  · rw [if_neg h2]; exact h3

namespace Good

theorem eraseFound (h : Good g dir lo n m) {u v : Int} (hu : In lo n u) (hv : In lo n v) {i : Nat} {r : Rec E} (hr : g.edges[i]? = some r)
    (hj : Same dir u v r.src r.dst) :
    ∃ g', g.eraseFound u v i = .ok g' ∧ Good g' dir lo n (del dir m u v) ∧ g'.edges.length + 1 = g.edges.length ∧
      ∀ x, x ∈ g'.edges → x ∈ g.edges := by
  have hlt := (List.getElem?_eq_some_iff.1 hr).1
  have hb : g.edges[g.edges.length - 1]? = some (g.edges[g.edges.length - 1]'(by omega)) := List.getElem?_eq_getElem _
  generalize (g.edges[g.edges.length - 1]'(by omega)) = b at hb
  have hbm := List.mem_of_getElem? hb
  have hadj0 : AdjGen g fun j _ => j < g.edges.length := ⟨h.adj.sorted, h.adj.mem⟩
  obtain ⟨g1, h1, h2, h3, h4, h5, h6⟩ := eraseBoth_gen h.size h.sim' hadj0 hr (by rw [h.isLo]; exact hu) (by rw [h.isLo]; exact hv)
    (by rw [h.isDir]; exact hj)
  have hbs := h.simple.src b hbm
  have hbd := h.simple.dst b hbm
  obtain ⟨g2, k1, k2, k3, k4, k5, k6⟩ := eraseBoth_gen (g := g1) (i := g.edges.length - 1) (r := b) h5
    (by rw [h2, h3, h4]; exact h.sim') h6 (by rw [h4]; exact hb)
    (u := b.src) (v := b.dst) (by rw [h3, h.isLo]; exact hbs) (by rw [h3, h.isLo]; exact hbd) (Or.inl ⟨rfl, rfl⟩)
  have hstep : g.eraseFound u v i = (if i ≠ g.edges.length - 1 then
      (do let x ← Graph.addInternal { g2 with edges := ((g2.edges.set i b).set (g.edges.length - 1) r).dropLast } i; pure x.1)
      else pure { g2 with edges := ((g2.edges.set i b).set (g.edges.length - 1) r).dropLast }) := by
    unfold Graph.eraseFound
    simp only
    rw [h1, ok_bind]
    simp only [h4]
    rw [hr, hb]
    simp only
    rw [k1, ok_bind]
  have e4 : g2.edges = g.edges := k4.trans h4
  rw [e4] at hstep
  have hget := swapPop_get g.edges i r b hlt
  have hold := @swapPop_old _ g.edges i r b hlt hb
  generalize hE : ((g.edges.set i b).set (g.edges.length - 1) r).dropLast = edges' at hstep hget hold
  have hlen : edges'.length = g.edges.length - 1 := by rw [← hE]; simp
  have holdm : ∀ x ∈ edges', x ∈ g.edges := by
    intro x hx
    obtain ⟨k, hk⟩ := List.getElem?_of_mem hx
    exact List.mem_of_getElem? (hold hk).2
  have hsim' : Simple dir lo n edges' := by
    refine ⟨h.simple.lo64, h.simple.hi64, h.simple.n64, fun x hx => h.simple.key x (holdm x hx), fun x hx => h.simple.src x (holdm x hx),
      fun x hx => h.simple.dst x (holdm x hx), fun x hx => h.simple.ne x (holdm x hx), ?_⟩
    intro p q x y hp hq hs
    obtain ⟨p1, p2⟩ := hold hp
    obtain ⟨q1, q2⟩ := hold hq
    have := h.simple.uniq _ _ x y p2 q2 hs
    split_ifs at this <;> omega
  have hadj1 : AdjOk { g2 with edges := edges' } fun j => j < g.edges.length ∧ j ≠ i ∧ j ≠ g.edges.length - 1 := by
    refine adj_congr (g := g2) ⟨k6.sorted, fun w s hs j => ?_⟩ rfl rfl rfl ?_ ?_
    · rw [k6.mem w s hs]
      simp only [and_assoc]
    · rintro k x ⟨p1, p2, p3⟩ hk
      rw [e4] at hk
      exact ⟨x, (hget k x).2 ⟨by omega, Or.inr ⟨p2, hk⟩⟩, rfl, rfl⟩
    · rintro k x ⟨p1, p2, p3⟩ hk
      have := (hold hk).2
      rw [if_neg p2] at this
      exact ⟨x, by rw [e4]; exact this, rfl, rfl⟩
  have hmap : ∀ x y d, del dir m u v x y = some d ↔ ∃ r ∈ edges', r.data = d ∧ Same dir x y r.src r.dst := by
    intro x y d
    unfold del
    by_cases hxy : Same dir u v x y
    · rw [if_pos hxy]
      constructor
      · intro hh; exact absurd hh (by simp)
      · rintro ⟨q, hq, -, hs⟩
        exfalso
        obtain ⟨k, hk⟩ := List.getElem?_of_mem hq
        obtain ⟨q1, q2⟩ := hold hk
        have := h.simple.uniq _ _ q r q2 hr ((hxy.trans' hs).symm'.trans' hj)
        split_ifs at this <;> omega
    · rw [if_neg hxy, h.map]
      constructor
      · rintro ⟨q, hq, hd, hs⟩
        refine ⟨q, ?_, hd, hs⟩
        obtain ⟨k, hk⟩ := List.getElem?_of_mem hq
        have hki : k ≠ i := by
          rintro rfl
          rw [hr] at hk
          obtain rfl := Option.some.inj hk
          exact hxy (hj.trans' hs.symm')
        have hkl := (List.getElem?_eq_some_iff.1 hk).1
        by_cases hkb : k = g.edges.length - 1
        · subst hkb
          rw [hb] at hk
          obtain rfl := Option.some.inj hk
          exact List.mem_of_getElem? ((hget i b).2 ⟨by omega, Or.inl ⟨rfl, rfl⟩⟩)
        · exact List.mem_of_getElem? ((hget k q).2 ⟨by omega, Or.inr ⟨hki, hk⟩⟩)
      · rintro ⟨q, hq, hd, hs⟩
        exact ⟨q, holdm q hq, hd, hs⟩
  have e2 : g2.dir = dir := k2.trans (h2.trans h.isDir)
  have e3 : g2.minId = lo := k3.trans (h3.trans h.isLo)
  by_cases hil : i = g.edges.length - 1
  · rw [if_neg (by simpa using hil)] at hstep
    refine ⟨_, hstep, ⟨e2, e3, k5, hsim', ?_, hmap⟩, by rw [hlen]; omega, holdm⟩
    refine ⟨hadj1.sorted, fun w s hs j => ?_⟩
    rw [hadj1.mem w s hs]
    change _ ↔ j < edges'.length ∧ _
    rw [hlen, show (j < g.edges.length ∧ j ≠ i ∧ j ≠ g.edges.length - 1) ↔ j < g.edges.length - 1 from by omega]
  · rw [if_pos hil] at hstep
    obtain ⟨g3, q1, q2, q3, q4, q5, q6⟩ := addInternal_ok (g := { g2 with edges := edges' }) (i := i) k5
      (by change Simple g2.dir g2.minId n edges'; rw [e2, e3]; exact hsim') hadj1 (by simp) (by change i < edges'.length; omega)
    rw [q1, ok_bind, pure_out] at hstep
    refine ⟨g3, hstep, ⟨q2.trans e2, q3.trans e3, q5, by rw [q4]; exact hsim', ?_, by rw [q4]; exact hmap⟩, by rw [q4]; change edges'.length + 1 = _; omega,
      by rw [q4]; exact holdm⟩
    refine ⟨q6.sorted, fun w s hs j => ?_⟩
    rw [q6.mem w s hs, q4]
    change _ ↔ j < edges'.length ∧ _
    rw [hlen, show ((j < g.edges.length ∧ j ≠ i ∧ j ≠ g.edges.length - 1) ∨ j = i) ↔ j < g.edges.length - 1 from by omega]

theorem eraseEdge (h : Good g dir lo n m) {u v : Int} (hu : In lo n u) (hv : In lo n v) :
    ∃ g', g.eraseEdge u v = (.ok (m u v).isSome, g') ∧ Good g' dir lo n (del dir m u v) ∧
      g'.edges.length + (if (m u v).isSome then 1 else 0) = g.edges.length ∧ ∀ x, x ∈ g'.edges → x ∈ g.edges := by
  unfold Graph.eraseEdge
  rw [h.assertNode_ok hu, h.assertNode_ok hv]
  simp only [ok_bind]
  obtain ⟨s, h1, -, -, h4⟩ := h.adjAt hu
  rw [h1]
  simp only
  cases hf : setFind g.edges s (xorI u v) with
  | none =>
    have hm := h.setFind_none h4 hf
    refine ⟨g, by rw [hm]; rfl, h.congr ?_, by rw [hm]; simp, fun _ => id⟩
    intro x y
    unfold del
    split
    · rename_i hs
      rcases hs with ⟨rfl, rfl⟩ | ⟨rfl, rfl, rfl⟩
      · exact hm
      · rw [h.map_symm]; exact hm
    · rfl
  | some i =>
    obtain ⟨r, hr, hj, hm⟩ := h.setFind_some hv h4 hf
    obtain ⟨g', k1, k2, k3, k4⟩ := h.eraseFound hu hv hr hj
    simp only [k1]
    exact ⟨g', by rw [hm]; rfl, k2, by rw [hm]; simpa using k3, k4⟩

theorem eraseEdge_throw (h : Good g dir lo n m) {u v : Int} (hbad : ¬ (In lo n u ∧ In lo n v)) : g.eraseEdge u v = (.error .throw, g) := by
  unfold Graph.eraseEdge
  by_cases hu : In lo n u
  · rw [h.assertNode_ok hu, ok_bind]
    by_cases hv : In lo n v
    · exact absurd ⟨hu, hv⟩ hbad
    · rw [h.assertNode_throw hv]; rfl
  · rw [h.assertNode_throw hu]; rfl

theorem erase (h : Good g dir lo n m) {u v : Int} (hu : In lo n u) (hv : In lo n v) :
    ∃ g', g.erase u v = .ok g' ∧ Good g' dir lo n (del dir m u v) ∧ g'.edges.length + (if (m u v).isSome then 1 else 0) = g.edges.length ∧
      ∀ x, x ∈ g'.edges → x ∈ g.edges := by
  obtain ⟨g', h1, h2⟩ := h.eraseEdge hu hv
  exact ⟨g', by unfold Graph.erase; rw [h1], h2⟩

end Good

/-- A list of edges and `buildAdj`. -/
theorem build_good {edges : List (Rec E)} (hn : g.adj.length = n) (hdir : g.dir = dir) (hlo : g.minId = lo) (hed : g.edges = edges)
    (hempty : ∀ s ∈ g.adj, s = []) (hsim : Simple dir lo n edges)
    (hmap : ∀ u v d, m u v = some d ↔ ∃ r ∈ edges, r.data = d ∧ Same dir u v r.src r.dst) :
    ∃ g', g.buildAdj = .ok g' ∧ Good g' dir lo n m ∧ g'.edges = edges := by
  obtain ⟨g', h1, h2, h3, h4, h5, h6⟩ := buildAdj_ok hn (by rw [hdir, hlo, hed]; exact hsim) hempty
  exact ⟨g', h1, ⟨h2.trans hdir, h3.trans hlo, h5, by rw [h4, hed]; exact hsim, h6, by rw [h4, hed]; exact hmap⟩, h4.trans hed⟩

theorem simple_nil (h1 : I64 lo) (h2 : I64 (lo + n)) (h3 : I64 n) : Simple dir lo n ([] : List (Rec E)) :=
  ⟨h1, h2, h3, by simp, by simp, by simp, by simp, by simp⟩

/-- The constructor. -/
theorem new_good (dir : Bool) {l r : Int} (hl : I64 l) (hr : I64 r) (hle : l ≤ r) (hlen : I64 (r - l)) :
    ∃ g : Graph E, Graph.new dir l r = .ok g ∧ Good g dir l (r - l).toNat (fun _ _ => none) ∧ g.edges = [] := by
  refine ⟨⟨dir, List.replicate (r - l).toNat [], [], l⟩, ?_, ⟨rfl, rfl, by simp, ?_, ?_, by simp⟩, rfl⟩
  · unfold Graph.new
    rw [chk_ok hlen, ok_bind, decide_eq_true (by omega), decide_eq_true hle]
    rfl
  · exact simple_nil hl (by rw [Int.toNat_of_nonneg (by omega)]; simpa using hr)
      (by rw [Int.toNat_of_nonneg (by omega)]; exact hlen)
  · refine ⟨?_, ?_⟩
    · intro s hs
      rw [List.eq_of_mem_replicate hs]
      exact List.Pairwise.nil
    · intro v s hs i
      rw [List.eq_of_mem_replicate (List.mem_of_getElem? hs)]
      simp

namespace Good

theorem copy (h : Good g dir lo n m) : ∃ g', g.copy = .ok g' ∧ Good g' dir lo n m ∧ g'.edges = g.edges := by
  unfold Graph.copy
  refine build_good (by simp [h.size]) h.isDir h.isLo rfl ?_ h.simple h.map
  intro s hs
  exact List.eq_of_mem_replicate hs

theorem mapM_ok {α β : Type} (f : α → Out β) (f' : α → β) : ∀ l : List α, (∀ x ∈ l, f x = .ok (f' x)) → l.mapM f = .ok (l.map f')
  | [], _ => rfl
  | x :: l, h => by
    rw [List.mapM_cons, h x (by simp), ok_bind, mapM_ok f f' l fun y hy => h y (by simp [hy]), ok_bind]
    rfl

theorem mapM_rel {α β : Type} (f : α → Out β) (R : α → β → Prop) : ∀ l : List α, (∀ x ∈ l, ∃ y, f x = .ok y ∧ R x y) →
    ∃ l', l.mapM f = .ok l' ∧ List.Forall₂ R l l'
  | [], _ => ⟨[], rfl, .nil⟩
  | x :: l, h => by
    obtain ⟨y, h1, h2⟩ := h x (by simp)
    obtain ⟨l', h3, h4⟩ := mapM_rel f R l fun z hz => h z (by simp [hz])
    exact ⟨y :: l', by rw [List.mapM_cons, h1, ok_bind, h3, ok_bind]; rfl, .cons h2 h4⟩

theorem forall2_exists_left {α β : Type} {R : α → β → Prop} {l : List α} {l' : List β} (h : List.Forall₂ R l l') {y : β} (hy : y ∈ l') :
    ∃ x ∈ l, R x y := by
  induction h with
  | nil => simp at hy
  | cons h1 _ ih =>
    rcases List.mem_cons.1 hy with rfl | hy
    · exact ⟨_, by simp, h1⟩
    · obtain ⟨x, hx, hR⟩ := ih hy
      exact ⟨x, by simp [hx], hR⟩

theorem forall2_exists_right {α β : Type} {R : α → β → Prop} {l : List α} {l' : List β} (h : List.Forall₂ R l l') {x : α} (hx : x ∈ l) :
    ∃ y ∈ l', R x y := by
  induction h with
  | nil => simp at hx
  | cons h1 _ ih =>
    rcases List.mem_cons.1 hx with rfl | hx
    · exact ⟨_, by simp, h1⟩
    · obtain ⟨y, hy, hR⟩ := ih hx
      exact ⟨y, by simp [hy], hR⟩

theorem setMinId (h : Good g dir lo n m) (k : Int) (hk : I64 k) (hk' : I64 (k + n)) :
    ∃ g', g.setMinId k = .ok g' ∧ Good g' dir k n (shift m (k - lo)) ∧ g'.edges.length = g.edges.length := by
  have hmv : ∀ x, In lo n x → (do let y ← chk (x - g.minId); chk (y + k)) = .ok (x - lo + k) ∧ In k n (x - lo + k) := by
    intro x hx
    rw [h.isLo]
    have a1 := hx.1
    have a2 := hx.2
    have b1 := hk.1
    have b2 := hk'.2
    have c1 := h.simple.n64.2
    rw [chk_ok ⟨by omega, by omega⟩, ok_bind, chk_ok ⟨by omega, by omega⟩]
    exact ⟨rfl, ⟨by omega, by omega⟩⟩
  have hmap := mapM_ok (fun r : Rec E => (do
    let u ← (do let x ← chk (r.src - g.minId); chk (x + k))
    let v ← (do let x ← chk (r.dst - g.minId); chk (x + k))
    pure (⟨xorI u v, v, r.data⟩ : Rec E) : Out (Rec E)))
    (fun r => ⟨xorI (r.src - lo + k) (r.dst - lo + k), r.dst - lo + k, r.data⟩) g.edges (by
      intro r hr
      rw [(hmv _ (h.simple.src r hr)).1, ok_bind, (hmv _ (h.simple.dst r hr)).1, ok_bind, pure_out])
  have hstep : g.setMinId k = Graph.buildAdj { g.clearAdj with
      edges := g.edges.map fun r => ⟨xorI (r.src - lo + k) (r.dst - lo + k), r.dst - lo + k, r.data⟩, minId := k } := by
    unfold Graph.setMinId
    simp only
    rw [hmap, ok_bind]
  rw [hstep]
  have hsrc : ∀ r ∈ g.edges, (⟨xorI (r.src - lo + k) (r.dst - lo + k), r.dst - lo + k, r.data⟩ : Rec E).src = r.src - lo + k := by
    intro r hr
    exact xorI_cancel (in_i64 (hmv _ (h.simple.src r hr)).2 hk hk')
  suffices hb : ∃ g', Graph.buildAdj { g.clearAdj with
      edges := g.edges.map fun r => ⟨xorI (r.src - lo + k) (r.dst - lo + k), r.dst - lo + k, r.data⟩, minId := k } = .ok g' ∧
      Good g' dir k n (shift m (k - lo)) ∧ g'.edges = g.edges.map fun r => ⟨xorI (r.src - lo + k) (r.dst - lo + k), r.dst - lo + k, r.data⟩ by
    obtain ⟨g', h1, h2, h3⟩ := hb
    exact ⟨g', h1, h2, by rw [h3]; simp⟩
  refine build_good (by simp [Graph.clearAdj, h.size]) h.isDir rfl rfl (by intro s hs; simp [Graph.clearAdj] at hs; exact hs.2) ?_ ?_
  · refine ⟨hk, hk', h.simple.n64, ?_, ?_, ?_, ?_, ?_⟩
    · intro r hr
      obtain ⟨q, hq, rfl⟩ := List.mem_map.1 hr
      exact xorI_i64 _ _
    · intro r hr
      obtain ⟨q, hq, rfl⟩ := List.mem_map.1 hr
      rw [hsrc q hq]
      exact (hmv _ (h.simple.src q hq)).2
    · intro r hr
      obtain ⟨q, hq, rfl⟩ := List.mem_map.1 hr
      exact (hmv _ (h.simple.dst q hq)).2
    · intro r hr
      obtain ⟨q, hq, rfl⟩ := List.mem_map.1 hr
      rw [hsrc q hq]
      have := h.simple.ne q hq
      simp only
      omega
    · intro i j r s hi hj hs
      rw [List.getElem?_map] at hi hj
      obtain ⟨q, hq, rfl⟩ := Option.map_eq_some_iff.1 hi
      obtain ⟨p, hp, rfl⟩ := Option.map_eq_some_iff.1 hj
      refine h.simple.uniq i j q p hq hp ?_
      rw [hsrc q (List.mem_of_getElem? hq), hsrc p (List.mem_of_getElem? hp)] at hs
      unfold Same at *
      simp only at hs
      rcases hs with ⟨a, b⟩ | ⟨a, b, c⟩
      · exact Or.inl ⟨by omega, by omega⟩
      · exact Or.inr ⟨a, by omega, by omega⟩
  · intro u v d
    unfold shift
    rw [h.map]
    have hsame : ∀ r : Rec E, Same dir (u - (k - lo)) (v - (k - lo)) r.src r.dst ↔ Same dir u v (r.src - lo + k) (r.dst - lo + k) := by
      intro r
      unfold Same
      rw [show r.src = u - (k - lo) ↔ r.src - lo + k = u from by omega, show r.dst = v - (k - lo) ↔ r.dst - lo + k = v from by omega,
        show r.src = v - (k - lo) ↔ r.src - lo + k = v from by omega, show r.dst = u - (k - lo) ↔ r.dst - lo + k = u from by omega]
    constructor
    · rintro ⟨r, hr, hd, hs⟩
      refine ⟨_, List.mem_map_of_mem hr, hd, ?_⟩
      rw [hsrc r hr]
      exact (hsame r).1 hs
    · rintro ⟨r, hr, hd, hs⟩
      obtain ⟨q, hq, rfl⟩ := List.mem_map.1 hr
      rw [hsrc q hq] at hs
      exact ⟨q, hq, hd, (hsame q).2 hs⟩

/-- Everything that can be observed. -/
theorem agrees (h : Good g dir lo n m) : Agrees g dir lo n m := by
  have hview : ∀ u, In lo n u → ∃ l, g.neighbours u = .ok l ∧ g.degree u = .ok l.length ∧ (l.map Edge.dst).Nodup ∧
      ∀ e, e ∈ l ↔ e.src = u ∧ m u e.dst = some e.data := by
    intro u hu
    have hu64 := in_i64 hu h.simple.lo64 h.simple.hi64
    obtain ⟨s, h1, -, h3, h4⟩ := h.adjAt hu
    have hget : ∀ i ∈ s, ∃ r, g.edges[i]? = some r ∧ Inc dir r u := fun i hi => (h4 i).1 hi
    have hother : ∀ r ∈ g.edges, Inc dir r u → Same dir u (xorI r.fromXorTo u) r.src r.dst := by
      intro r hr hi
      refine h.simple.joins hr (xorI_i64 _ _) hi ?_
      rw [xorI_comm u, xorI_cancel (h.simple.key r hr)]
    obtain ⟨l, hl, hrel⟩ := mapM_rel (fun i => match g.edges[i]? with
      | none => (.error .ub : Out (Edge E))
      | some r => .ok ⟨u, xorI r.fromXorTo u, r.data⟩)
      (fun i e => ∃ r, g.edges[i]? = some r ∧ e = ⟨u, xorI r.fromXorTo u, r.data⟩) s (by
        intro i hi
        obtain ⟨r, hr, -⟩ := hget i hi
        simp only [hr]
        exact ⟨_, rfl, r, rfl, rfl⟩)
    refine ⟨l, ?_, ?_, ?_, ?_⟩
    · unfold Graph.neighbours
      rw [h.assertNode_ok hu, ok_bind, h1, ok_bind]
      exact hl
    · unfold Graph.degree
      rw [h.assertNode_ok hu, ok_bind, h1, ok_bind, pure_out, hrel.length_eq]
    · have hp : l.Pairwise fun a b => xorI a.dst u < xorI b.dst u := by
        rw [List.pairwise_iff_getElem]
        intro i j hi hj hij
        have hlen := hrel.length_eq
        obtain ⟨r, hr, he⟩ := hrel.get (i := i) (by omega) hi
        obtain ⟨q, hq, hf⟩ := hrel.get (i := j) (by omega) hj
        simp only [List.get_eq_getElem] at *
        rw [he, hf]
        simp only
        have hlt := (List.pairwise_iff_getElem.1 h3) i j (by omega) (by omega) hij
        rw [keyAt_some hr, keyAt_some hq] at hlt
        rw [xorI_cancel (h.simple.key r (List.mem_of_getElem? hr)), xorI_cancel (h.simple.key q (List.mem_of_getElem? hq))]
        exact hlt
      rw [List.Nodup, List.pairwise_map]
      refine hp.imp ?_
      intro a b hab e
      rw [e] at hab
      exact lt_irrefl _ hab
    · intro e
      constructor
      · intro he
        obtain ⟨i, hi, r, hr, rfl⟩ := forall2_exists_left hrel he
        obtain ⟨r', hr', hinc⟩ := hget i hi
        rw [hr] at hr'
        obtain rfl := Option.some.inj hr'
        have hm := List.mem_of_getElem? hr
        exact ⟨rfl, (h.map u _ _).2 ⟨r, hm, rfl, hother r hm hinc⟩⟩
      · rintro ⟨h1, h2⟩
        obtain ⟨r, hr, hd, hj⟩ := (h.map u _ _).1 h2
        obtain ⟨hinc, hk⟩ := h.simple.key_of_joins hr hj
        obtain ⟨i, hi⟩ := List.getElem?_of_mem hr
        obtain ⟨e', he', q, hq, rfl⟩ := forall2_exists_right hrel ((h4 i).2 ⟨r, hi, hinc⟩)
        rw [hi] at hq
        obtain rfl := Option.some.inj hq
        have : e = ⟨u, xorI r.fromXorTo u, r.data⟩ := by
          have hv64 : I64 e.dst := by
            obtain ⟨-, hv, -⟩ := h.map_in h2
            exact in_i64 hv h.simple.lo64 h.simple.hi64
          rw [hk, xorI_cancel_left hv64]
          cases e
          simp_all
        rw [this]
        exact he'
  have hthrow : ∀ u, ¬ In lo n u → g.neighbours u = .error .throw ∧ g.degree u = .error .throw := by
    intro u hu
    unfold Graph.neighbours Graph.degree
    rw [h.assertNode_throw hu]
    exact ⟨rfl, rfl⟩
  have hedge : ∀ (i : Nat) (e : Edge E), g.getEdges[i]? = some e ↔ ∃ r, g.edges[i]? = some r ∧ e = ⟨r.src, r.dst, r.data⟩ := by
    intro i e
    unfold Graph.getEdges
    rw [List.getElem?_map, Option.map_eq_some_iff]
    simp only [eq_comm]
  refine ⟨h.isLo, ?_, ?_, h.hasEdge, h.findEdge, ?_, ?_, ?_, ?_, hview, hthrow, ?_⟩
  · unfold Graph.nodeCount; rw [h.size]
  · unfold Graph.getNextId Graph.nodeCount
    rw [h.isLo, h.size, chk_ok h.simple.hi64]
  · intro e he
    unfold Graph.getEdges at he
    obtain ⟨r, hr, rfl⟩ := List.mem_map.1 he
    exact ⟨h.simple.src r hr, h.simple.dst r hr, h.simple.ne r hr, (h.map _ _ _).2 ⟨r, hr, rfl, Or.inl ⟨rfl, rfl⟩⟩⟩
  · intro u v d hm
    obtain ⟨r, hr, -, hj⟩ := (h.map u v d).1 hm
    obtain ⟨i, hi⟩ := List.getElem?_of_mem hr
    refine ⟨i, ⟨_, (hedge i _).2 ⟨r, hi, rfl⟩, hj⟩, ?_⟩
    rintro j ⟨e, he, hs⟩
    obtain ⟨q, hq, rfl⟩ := (hedge j e).1 he
    exact h.simple.uniq j i q r hq hi (hs.symm'.trans' hj)
  · unfold Graph.edgeCount Graph.getEdges
    rw [List.length_map]
  · intro i
    unfold Graph.getEdgeById Graph.getEdges
    rw [List.getElem?_map]
    cases g.edges[i]? <;> rfl
  · refine ⟨by simp [Graph.getDegrees, h.size], ?_⟩
    intro k hk
    have hin : In lo n (lo + k) := ⟨by omega, by omega⟩
    unfold Graph.degree
    obtain ⟨s, h1, h2, -⟩ := h.adjAt hin
    rw [h.assertNode_ok hin, ok_bind, h1, ok_bind, pure_out]
    unfold Graph.getDegrees
    rw [h.isLo, show (lo + (k : Int) - lo).toNat = k from by omega] at h2
    rw [List.getD_eq_getElem?_getD, List.getElem?_map, h2]
    rfl

end Good

end ICPC.Gen
