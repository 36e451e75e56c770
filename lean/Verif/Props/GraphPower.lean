import Verif.Props.GraphOps

/-!
# C55: powers of undirected graphs

Every pair is stored twice (`C55_power_undirected_refuted`); this is what holds nevertheless.
-/

namespace ICPC.Gen

open ICPC ICPC.Spec.EdgeMap ICPC.Props

variable {E : Type}

/-- `std::set::emplace`, whether or not the key is there already -/
theorem setInsert_keys (edges : List (Rec E)) (i : Nat) : ∀ (s : List Nat), SetSorted edges s →
    SetSorted edges (setInsert edges i s).1 ∧ (∀ j ∈ (setInsert edges i s).1, j = i ∨ j ∈ s) ∧
    ∀ key, (∃ j ∈ (setInsert edges i s).1, keyAt edges j = key) ↔ keyAt edges i = key ∨ ∃ j ∈ s, keyAt edges j = key
  | [], _ => by simp [setInsert, SetSorted]
  | k :: s, hs => by
    have hs' := List.pairwise_cons.1 hs
    unfold setInsert
    split
    · rename_i h
      refine ⟨List.pairwise_cons.2 ⟨?_, hs⟩, fun j hj => List.mem_cons.1 hj, fun key => by simp⟩
      intro j hj
      rcases List.mem_cons.1 hj with rfl | hj
      · exact h
      · exact lt_trans h (hs'.1 j hj)
    · rename_i h
      obtain ⟨h1, h2, h3⟩ := setInsert_keys edges i s hs'.2
      split
      · rename_i h'
        refine ⟨List.pairwise_cons.2 ⟨?_, h1⟩, ?_, ?_⟩
        · intro j hj
          rcases h2 j hj with rfl | hj
          · exact h'
          · exact hs'.1 j hj
        · intro j hj
          rcases List.mem_cons.1 hj with rfl | hj
          · exact Or.inr (by simp)
          · rcases h2 j hj with h | h
            · exact Or.inl h
            · exact Or.inr (by simp [h])
        · intro key
          have := h3 key
          simp only [List.mem_cons, exists_eq_or_imp]
          rw [this]
          tauto
      · rename_i h'
        refine ⟨hs, fun j hj => Or.inr hj, fun key => ?_⟩
        have e : keyAt edges i = keyAt edges k := by omega
        simp only [List.mem_cons, exists_eq_or_imp]
        rw [e]
        tauto

/-- the sets are sorted and have the keys of the edges that were inserted; `Q v i` if edge number `i` was inserted at `v` -/
structure KeysOk (g : Graph E) (Q : Int → Nat → Prop) : Prop where
  sorted : ∀ s ∈ g.adj, SetSorted g.edges s
  mem : ∀ (v : Nat) (s : List Nat), g.adj[v]? = some s → (∀ i ∈ s, Q (g.minId + v) i) ∧
    ∀ i, Q (g.minId + v) i → ∃ j ∈ s, keyAt g.edges j = keyAt g.edges i

theorem insertAt_keys {g : Graph E} {Q : Int → Nat → Prop} {n : Nat} (hn : g.adj.length = n) (h : KeysOk g Q) {w : Int} (hw : In g.minId n w) (i : Nat) :
    ∃ g' j, g.insertAt w i = .ok (g', j) ∧ g'.dir = g.dir ∧ g'.minId = g.minId ∧ g'.edges = g.edges ∧ g'.adj.length = n ∧
      KeysOk g' fun v k => Q v k ∨ (v = w ∧ k = i) := by
  obtain ⟨s, h1, h2, h3⟩ := adjAt_ok g hn hw
  obtain ⟨a1, a2, a3⟩ := setInsert_keys g.edges i s (h.sorted s (List.mem_of_getElem? h2))
  obtain ⟨b1, b2⟩ := h.mem _ s h2
  unfold Graph.insertAt
  rw [h1, ok_bind]
  refine ⟨_, _, rfl, rfl, rfl, rfl, by simp [Graph.setAdj, hn], ?_, ?_⟩
  · intro t ht
    rcases List.mem_or_eq_of_mem_set ht with ht | rfl
    · exact h.sorted t ht
    · exact a1
  · intro v t ht
    simp only [Graph.setAdj, List.getElem?_set] at ht
    simp only [Graph.setAdj]
    split at ht
    · rename_i hv
      split at ht
      · have ht := Option.some.inj ht
        subst ht
        subst hv
        rw [h3] at b1 b2 ⊢
        refine ⟨fun j hj => ?_, fun j hj => ?_⟩
        · rcases a2 j hj with rfl | hj
          · exact Or.inr ⟨rfl, rfl⟩
          · exact Or.inl (b1 j hj)
        · rw [a3]
          rcases hj with hj | ⟨-, rfl⟩
          · exact Or.inr (b2 j hj)
          · exact Or.inl rfl
      · cases ht
    · rename_i hv
      obtain ⟨c1, c2⟩ := h.mem v t ht
      refine ⟨fun j hj => Or.inl (c1 j hj), fun j hj => ?_⟩
      rcases hj with hj | ⟨hj, -⟩
      · exact c2 j hj
      · omega

/-- `buildAdj` of an undirected graph with edges between different vertices, which may be there more than once -/
theorem buildAdj_multi {g : Graph E} {n : Nat} (hd : g.dir = false) (hn : g.adj.length = n) (hempty : ∀ s ∈ g.adj, s = [])
    (hin : ∀ r ∈ g.edges, In g.minId n r.src ∧ In g.minId n r.dst ∧ r.src ≠ r.dst) :
    ∃ g', g.buildAdj = .ok g' ∧ g'.dir = false ∧ g'.minId = g.minId ∧ g'.edges = g.edges ∧ g'.adj.length = n ∧
      KeysOk g' fun v i => ∃ r, g.edges[i]? = some r ∧ (r.src = v ∨ r.dst = v) := by
  have key : ∀ k, k ≤ g.edges.length → ∃ g', (List.range k).foldlM (fun g i => do let x ← Graph.addInternal g i; pure x.1) g = .ok g' ∧
      g'.dir = false ∧ g'.minId = g.minId ∧ g'.edges = g.edges ∧ g'.adj.length = n ∧
      KeysOk g' fun v i => i < k ∧ ∃ r, g.edges[i]? = some r ∧ (r.src = v ∨ r.dst = v) := by
    intro k
    induction k with
    | zero =>
      intro _
      refine ⟨g, rfl, hd, rfl, rfl, hn, ?_, ?_⟩
      · intro s hs
        rw [hempty s hs]
        exact List.Pairwise.nil
      · intro v s hs
        rw [hempty s (List.mem_of_getElem? hs)]
        exact ⟨by simp, fun i hi => absurd hi.1 (by omega)⟩
    | succ k ih =>
      intro hk
      obtain ⟨g1, h1, h2, h3, h4, h5, h6⟩ := ih (by omega)
      have hr : g.edges[k]? = some g.edges[k] := List.getElem?_eq_getElem (by omega)
      generalize g.edges[k] = r at hr
      obtain ⟨i1, i2, i3⟩ := hin r (List.mem_of_getElem? hr)
      obtain ⟨g2, j2, a1, a2, a3, a4, a5, a6⟩ := insertAt_keys h5 h6 (w := r.dst) (by rw [h3]; exact i2) k
      obtain ⟨g3, j3, b1, b2, b3, b4, b5, b6⟩ := insertAt_keys a5 a6 (w := r.src) (by rw [a3, h3]; exact i1) k
      refine ⟨g3, ?_, b2.trans (a2.trans h2), b3.trans (a3.trans h3), b4.trans (a4.trans h4), b5, ⟨b6.sorted, fun v s hs => ?_⟩⟩
      · rw [List.range_succ, List.foldlM_append, h1, ok_bind]
        have : g1.addInternal k = .ok (g3, j3) := by
          unfold Graph.addInternal
          rw [h4, hr]
          dsimp only
          rw [h2]
          simp only [Bool.not_false, Bool.true_and, decide_eq_true_eq, if_pos i3]
          rw [a1, ok_bind, pure_out, ok_bind]
          exact b1
        simp [this, ok_bind, pure_out]
      · obtain ⟨c1, c2⟩ := b6.mem v s hs
        refine ⟨fun i hi => ?_, fun i hi => ?_⟩
        · rcases c1 i hi with (⟨d1, d2⟩ | ⟨d1, rfl⟩) | ⟨d1, rfl⟩
          · exact ⟨by omega, d2⟩
          · exact ⟨by omega, r, hr, Or.inr d1.symm⟩
          · exact ⟨by omega, r, hr, Or.inl d1.symm⟩
        · obtain ⟨d1, r', d2, d3⟩ := hi
          apply c2
          by_cases hik : i = k
          · subst hik
            rw [hr] at d2
            cases d2
            rcases d3 with d3 | d3
            · exact Or.inr ⟨d3.symm, rfl⟩
            · exact Or.inl (Or.inr ⟨d3.symm, rfl⟩)
          · exact Or.inl (Or.inl ⟨by omega, r', d2, d3⟩)
  obtain ⟨g', h1, h2, h3, h4, h5, h6⟩ := key _ le_rfl
  refine ⟨g', h1, h2, h3, h4, h5, ⟨h6.sorted, fun v s hs => ?_⟩⟩
  obtain ⟨c1, c2⟩ := h6.mem v s hs
  refine ⟨fun i hi => (c1 i hi).2, fun i hi => c2 i ⟨?_, hi⟩⟩
  obtain ⟨r, hr, -⟩ := hi
  by_contra hlt
  rw [List.getElem?_eq_none (by omega)] at hr
  cases hr

theorem within_step_left {m : Map E} {k : Nat} {u v w : Int} (huv : (m u v).isSome) (hw : Within m k v w) : Within m (k + 1) u w := by
  induction hw with
  | refl k v => exact .step (.refl k u) huv
  | step _ hm ih => exact .step (ih huv) hm

theorem within_symm {g : Graph E} {lo : Int} {n : Nat} {m : Map E} (h : Good g false lo n m) {k : Nat} {u v : Int} (hw : Within m k u v) :
    Within m k v u := by
  induction hw with
  | refl k u => exact .refl k u
  | @step k u v w _ hm ih =>
    refine within_step_left ?_ ih
    obtain ⟨d, hd⟩ := Option.isSome_iff_exists.1 hm
    obtain ⟨r, hr, hrd, hs⟩ := (h.map _ _ _).1 hd
    exact Option.isSome_iff_exists.2 ⟨d, (h.map _ _ _).2 ⟨r, hr, hrd, hs.elim (fun a => .inr ⟨rfl, a.1, a.2⟩) (fun a => .inl ⟨a.2.1, a.2.2⟩)⟩⟩

end ICPC.Gen

namespace ICPC.Props

open ICPC ICPC.Gen ICPC.Gen.Good ICPC.Spec.EdgeMap

variable {E : Type} {g : Graph E} {lo : Int} {n : Nat} {m : Map E}

/-- **C55, power of undirected graphs.** The call succeeds. `getEdges` lists every ordered pair of different vertices at distance at most
`k` exactly once, so every edge of the power twice; `operator[]` lists every such neighbour of a vertex once. -/
theorem C55_power_undirected [Inhabited E] (h : Good g false lo n m) (k : Int) (fuel : Nat) (hfuel : n + 1 ≤ fuel) :
    ∃ g', g.power fuel k = .ok g' ∧ g'.dir = false ∧ g'.minId = lo ∧ g'.nodeCount = n ∧
      (g'.getEdges.map fun e => (e.src, e.dst)).Nodup ∧
      (∀ e : Edge E, e ∈ g'.getEdges ↔ e.data = default ∧ In lo n e.src ∧ e.src ≠ e.dst ∧ Within m k.toNat e.src e.dst) ∧
      ∀ u, In lo n u → ∃ nb, g'.neighbours u = .ok nb ∧ (nb.map Edge.dst).Nodup ∧ (∀ e ∈ nb, e.src = u ∧ e.data = default) ∧
        ∀ v, v ∈ nb.map Edge.dst ↔ u ≠ v ∧ Within m k.toNat u v := by
  obtain ⟨ts, seen, h1, h2, h3⟩ := power_edges h k hfuel
  have hs := h.simple
  have hvalid : Valid lo n ts := by
    intro e he
    obtain ⟨-, a2, a3, a4⟩ := (h3 e).1 he
    exact ⟨a2, within_in h a4 a2, a3⟩
  have hsrc : ∀ e ∈ ts, e.toRec.src = e.src := fun e he => mkRec_src (in_i64 (hvalid e he).1 hs.lo64 hs.hi64)
  have hdst : ∀ e : Edge E, e.toRec.dst = e.dst := fun e => rfl
  obtain ⟨g', r1, r2, r3, r4, r5, r6⟩ := buildAdj_multi (g := ⟨false, List.replicate (lo + (n : Int) - lo).toNat [], ts.map Edge.toRec, lo⟩) (n := n) rfl
    (by simp) (fun s hs => List.eq_of_mem_replicate hs) (by
      intro r hr
      obtain ⟨e, he, rfl⟩ := List.mem_map.1 hr
      rw [hsrc e he, hdst]
      exact hvalid e he)
  simp only at r3 r4 r6
  have hedges : g'.getEdges = ts := by
    unfold Graph.getEdges
    rw [r4, List.map_map]
    conv_rhs => rw [← List.map_id ts]
    refine List.map_congr_left fun e he => ?_
    simp only [Function.comp, hsrc e he, hdst, id]
    rfl
  have hsym : ∀ {k : Nat} {u v : Int}, Within m k u v → Within m k v u := fun hw => within_symm h hw
  refine ⟨g', ?_, r2, r3, by unfold Graph.nodeCount; rw [r5], ?_, ?_, ?_⟩
  · unfold Graph.power
    rw [h.isLo, h.nodeCount_eq, chk_ok hs.hi64, ok_bind, h.isDir,
      new_eq false (by omega) (by rw [show lo + (n : Int) - lo = n from by omega]; exact hs.n64), ok_bind]
    rw [h.isLo, h.nodeCount_eq] at h1
    rw [h1, ok_bind]
    exact r1
  · rw [hedges]
    unfold List.Nodup
    rw [List.pairwise_map]
    refine h2.imp fun {a b} hab he => hab (Or.inl ?_)
    exact ⟨(congrArg Prod.fst he).symm, (congrArg Prod.snd he).symm⟩
  · rw [hedges]; exact h3
  · intro u hu
    obtain ⟨s, b1, b2, b3⟩ := adjAt_ok g' r5 (u := u) (by rw [r3]; exact hu)
    have hsorted := r6.sorted s (List.mem_of_getElem? b2)
    obtain ⟨c1, c2⟩ := r6.mem _ s b2
    rw [b3] at c1 c2
    have hu64 := in_i64 hu hs.lo64 hs.hi64
    -- the record at an index, as an edge of the list
    have hrec : ∀ {i : Nat} {r : Rec E}, g'.edges[i]? = some r → ∃ e ∈ ts, ts[i]? = some e ∧ r = e.toRec := by
      intro i r hr
      rw [r4, List.getElem?_map] at hr
      obtain ⟨e, he, rfl⟩ := Option.map_eq_some_iff.1 hr
      exact ⟨e, List.mem_of_getElem? he, he, rfl⟩
    have hother : ∀ e ∈ ts, (e.src = u ∨ e.dst = u) → ∃ v, xorI e.toRec.fromXorTo u = v ∧ e.toRec.fromXorTo = xorI u v ∧ u ≠ v ∧ Within m k.toNat u v := by
      intro e he hinc
      obtain ⟨-, a2, a3, a4⟩ := (h3 e).1 he
      have hi := hvalid e he
      have hs64 := in_i64 hi.1 hs.lo64 hs.hi64
      have hd64 := in_i64 hi.2.1 hs.lo64 hs.hi64
      have hx : e.toRec.fromXorTo = xorI e.src e.dst := rfl
      rcases hinc with rfl | rfl
      · exact ⟨e.dst, by rw [hx, xorI_cancel_left hd64], hx, a3, a4⟩
      · exact ⟨e.src, by rw [hx, xorI_cancel hs64], by rw [hx, xorI_comm], a3.symm, hsym a4⟩
    obtain ⟨l, hl, hrel⟩ := mapM_rel (fun i => match g'.edges[i]? with
      | none => (.error .ub : Out (Edge E))
      | some r => .ok ⟨u, xorI r.fromXorTo u, r.data⟩)
      (fun i e => ∃ r, g'.edges[i]? = some r ∧ e = ⟨u, xorI r.fromXorTo u, r.data⟩) s (by
        intro i hi
        obtain ⟨r, hr, -⟩ := c1 i hi
        rw [← r4] at hr
        simp only [hr]
        exact ⟨_, rfl, r, rfl, rfl⟩)
    have hinc : ∀ i ∈ s, ∀ r, g'.edges[i]? = some r → ∃ e ∈ ts, r = e.toRec ∧ (e.src = u ∨ e.dst = u) := by
      intro i hi r hr
      obtain ⟨r', hr', hq⟩ := c1 i hi
      rw [← r4, hr] at hr'
      obtain rfl := Option.some.inj hr'
      obtain ⟨e, he, -, rfl⟩ := hrec hr
      rw [hsrc e he, hdst] at hq
      exact ⟨e, he, rfl, hq⟩
    have hnode : g'.assertNode u = .ok () := by
      unfold Graph.assertNode Graph.nodeCount
      rw [r3, r5, chk_ok hs.hi64, ok_bind]
      have h1 := hu.1
      have h2 := hu.2
      rw [decide_eq_false (by omega), decide_eq_false (by omega)]
      rfl
    refine ⟨l, ?_, ?_, ?_, ?_⟩
    · unfold Graph.neighbours
      rw [hnode, ok_bind, b1, ok_bind]
      exact hl
    · have hp : l.Pairwise fun a b => xorI a.dst u < xorI b.dst u := by
        rw [List.pairwise_iff_getElem]
        intro i j hi hj hij
        have hlen := hrel.length_eq
        obtain ⟨r, hr, he⟩ := hrel.get (i := i) (by omega) hi
        obtain ⟨q, hq, hf⟩ := hrel.get (i := j) (by omega) hj
        simp only [List.get_eq_getElem] at *
        rw [he, hf]
        simp only
        have hlt := (List.pairwise_iff_getElem.1 hsorted) i j (by omega) (by omega) hij
        rw [keyAt_some hr, keyAt_some hq] at hlt
        obtain ⟨e, he, -, rfl⟩ := hrec hr
        obtain ⟨f, hf, -, rfl⟩ := hrec hq
        have hx : ∀ e : Edge E, xorI (xorI e.toRec.fromXorTo u) u = e.toRec.fromXorTo := fun e => xorI_cancel (xorI_i64 e.src e.dst)
        rw [hx, hx]
        exact hlt
      rw [List.Nodup, List.pairwise_map]
      refine hp.imp ?_
      intro a b hab e
      rw [e] at hab
      exact lt_irrefl _ hab
    · intro e he
      obtain ⟨i, hi, r, hr, rfl⟩ := forall2_exists_left hrel he
      obtain ⟨f, hf, rfl, -⟩ := hinc i hi r hr
      exact ⟨rfl, ((h3 f).1 hf).1⟩
    · intro v
      constructor
      · intro hv
        obtain ⟨e, he, rfl⟩ := List.mem_map.1 hv
        obtain ⟨i, hi, r, hr, rfl⟩ := forall2_exists_left hrel he
        obtain ⟨f, hf, rfl, hq⟩ := hinc i hi r hr
        obtain ⟨v, hv1, -, hv2⟩ := hother f hf hq
        simp only [hv1]
        exact hv2
      · rintro ⟨hne, hw⟩
        have he : (⟨u, v, default⟩ : Edge E) ∈ ts := (h3 _).2 ⟨rfl, hu, hne, hw⟩
        obtain ⟨i, hi⟩ := List.getElem?_of_mem he
        have hri : (ts.map Edge.toRec)[i]? = some (Edge.toRec ⟨u, v, default⟩) := by rw [List.getElem?_map, hi]; rfl
        obtain ⟨j, hj, hkey⟩ := c2 i ⟨_, hri, Or.inl (hsrc _ he)⟩
        obtain ⟨r, hr, -⟩ := c1 j hj
        rw [r4, keyAt_some hr, keyAt_some hri] at hkey
        obtain ⟨e', he', q, hq, rfl⟩ := forall2_exists_right hrel hj
        rw [r4, hr] at hq
        obtain rfl := Option.some.inj hq
        refine List.mem_map.2 ⟨_, he', ?_⟩
        simp only
        rw [hkey]
        exact xorI_cancel_left (in_i64 (hvalid _ he).2.1 hs.lo64 hs.hi64)

/-- Not vacuous: the square of the path `0-1-2` (undirected) has six entries in the edge list and two neighbours at every vertex. -/
example : (do
    let g0 : Graph Unit ← Graph.new false 0 3
    let g3 ← ((g0.addEdge 0 1 ()).2.addEdge 1 2 ()).2.power 10 2
    let nb ← g3.neighbours 0
    pure (g3.getEdges.length, nb.map Edge.dst)) = .ok (6, [1, 2]) := by decide +kernel

end ICPC.Props
