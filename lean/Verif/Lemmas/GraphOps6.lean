import Verif.Lemmas.GraphOps5

/-!
# Line graphs, and parts of a graph
-/

namespace ICPC.Gen

open ICPC ICPC.Spec.EdgeMap ICPC.Props

/-- `C i a j b`: the edge from `i` to `j` is added for the edges `a` and `b` at these positions. -/
def LineStep (dir : Bool) (i : Nat) (a : Edge Int) (j : Nat) (b : Edge Int) : Prop :=
  if dir then a.dst = b.src else i < j ∧ (a.dst = b.src ∨ a.dst = b.dst ∨ a.src = b.src ∨ a.src = b.dst)

variable {g : Graph Int} {dir : Bool} {lo : Int} {n : Nat} {m : Map Int}

theorem Good.lineGraph (h : Good g dir lo n m) (hfit : I64 (g.getEdges.length : Int)) :
    ∃ g', g.lineGraph = .ok g' ∧ Good g' dir 0 g.getEdges.length (lineMap dir g.getEdges) := by
  set L := g.getEdges with hL
  set T : List (Edge Int) := L.mapIdx fun i e => ⟨e.src, e.dst, (i : Int)⟩ with hT
  have hTget : ∀ (i : Nat), T[i]? = L[i]?.map fun e => ⟨e.src, e.dst, (i : Int)⟩ := by
    intro i; rw [hT, List.getElem?_mapIdx]
  have hTmem : ∀ e, e ∈ T ↔ ∃ (i : Nat) (a : Edge Int), L[i]? = some a ∧ e = ⟨a.src, a.dst, (i : Int)⟩ := by
    intro e
    rw [List.mem_iff_getElem?]
    constructor
    · rintro ⟨i, hi⟩
      rw [hTget, Option.map_eq_some_iff] at hi
      obtain ⟨a, ha, rfl⟩ := hi
      exact ⟨i, a, ha, rfl⟩
    · rintro ⟨i, a, ha, rfl⟩
      exact ⟨i, by rw [hTget, ha]; rfl⟩
  have hlv : ∀ (i : Nat) (a : Edge Int), L[i]? = some a → In lo n a.src ∧ In lo n a.dst ∧ a.src ≠ a.dst :=
    fun i a ha => h.valid a (List.mem_of_getElem? ha)
  have hTv : Valid lo n T := by
    intro e he
    obtain ⟨i, a, ha, rfl⟩ := (hTmem e).1 he
    exact hlv i a ha
  have hTu : Uniq dir T := by
    unfold Uniq
    rw [List.pairwise_iff_getElem]
    intro i j hi hj hij he
    have ei := hTget i
    have ej := hTget j
    rw [List.getElem?_eq_getElem hi] at ei
    rw [List.getElem?_eq_getElem hj] at ej
    obtain ⟨a, ha, ha'⟩ := Option.map_eq_some_iff.1 ei.symm
    obtain ⟨b, hb, hb'⟩ := Option.map_eq_some_iff.1 ej.symm
    rw [← ha', ← hb'] at he
    have := uniq_inj h.uniq ha hb he
    omega
  have hTd : T.Pairwise fun a b => a.data ≠ b.data := by
    rw [List.pairwise_iff_getElem]
    intro i j hi hj hij he
    have ei := hTget i
    have ej := hTget j
    rw [List.getElem?_eq_getElem hi] at ei
    rw [List.getElem?_eq_getElem hj] at ej
    obtain ⟨a, ha, ha'⟩ := Option.map_eq_some_iff.1 ei.symm
    obtain ⟨b, hb, hb'⟩ := Option.map_eq_some_iff.1 ej.symm
    rw [← ha', ← hb'] at he
    simp only at he
    omega
  set mt := mapOf dir T with hmt
  have hmtiff : ∀ u v d, mt u v = some d ↔ ∃ (i : Nat) (a : Edge Int), L[i]? = some a ∧ d = i ∧ Same dir u v a.src a.dst := by
    intro u v d
    rw [hmt, mapOf_iff hTu]
    constructor
    · rintro ⟨e, he, hd, hs⟩
      obtain ⟨i, a, ha, rfl⟩ := (hTmem e).1 he
      exact ⟨i, a, ha, hd.symm, hs⟩
    · rintro ⟨i, a, ha, hd, hs⟩
      exact ⟨_, (hTmem _).2 ⟨i, a, ha, rfl⟩, hd.symm, hs⟩
  obtain ⟨tmp, res0, t1, t2, t3, ht, t5⟩ := h.fresh dir hTv hTu (m' := mt) (fun u v d => mapOf_iff hTu u v d)
  have htE : tmp.getEdges = T := getEdges_toRec (fun e he => in_i64 (hTv e he).1 h.simple.lo64 h.simple.hi64) t5
  -- neighbours of the auxiliary graph
  have hnb : ∀ u, In lo n u → ∃ nb, tmp.neighbours u = .ok nb ∧ (nb.map Edge.data).Nodup ∧
      ∀ e2, e2 ∈ nb ↔ e2.src = u ∧ ∃ (j : Nat) (b : Edge Int), L[j]? = some b ∧ e2.data = j ∧ Same dir u e2.dst b.src b.dst := by
    intro u hu
    obtain ⟨nb, h1, h2, h3⟩ := ht.neighbours hu
    have h4 : ∀ e2, e2 ∈ nb ↔ e2.src = u ∧ ∃ (j : Nat) (b : Edge Int), L[j]? = some b ∧ e2.data = j ∧ Same dir u e2.dst b.src b.dst := by
      intro e2
      rw [h3, hmtiff]
    refine ⟨nb, h1, ?_, h4⟩
    unfold List.Nodup at h2 ⊢
    rw [List.pairwise_map] at h2 ⊢
    refine h2.imp_of_mem ?_
    intro x y hx hy hne he
    obtain ⟨-, j, b, hb, hd, hs⟩ := (h4 x).1 hx
    obtain ⟨-, j', b', hb', hd', hs'⟩ := (h4 y).1 hy
    have hjj : j = j' := by omega
    subst hjj
    rw [hb] at hb'
    obtain rfl := Option.some.inj hb'
    have := hs.trans' hs'.symm'
    unfold Same at this
    omega
  have hrow : ∀ e1 ∈ T, ∃ r : List (Edge Int), Graph.lineRow dir tmp e1 = .ok (r.map Edge.toRec) ∧ Uniq dir r ∧
      ∀ (i : Nat) (a : Edge Int), L[i]? = some a → e1 = ⟨a.src, a.dst, (i : Int)⟩ → ∀ x, x ∈ r ↔ x.data = 0 ∧ x.src = i ∧
        ∃ (j : Nat) (b : Edge Int), L[j]? = some b ∧ x.dst = j ∧ LineStep dir i a j b := by
    intro e1 he1
    obtain ⟨i, a, ha, rfl⟩ := (hTmem e1).1 he1
    obtain ⟨v1, v2, v3⟩ := hlv i a ha
    obtain ⟨nb1, a1, a2, a3⟩ := hnb _ v2
    obtain ⟨nb2, b1, b2, b3⟩ := hnb _ v1
    have heq : ∀ (i' : Nat) (a' : Edge Int), L[i']? = some a' → (⟨a.src, a.dst, (i : Int)⟩ : Edge Int) = ⟨a'.src, a'.dst, (i' : Int)⟩ → i' = i ∧ a' = a := by
      intro i' a' ha' he
      injection he with _ _ he
      have : i' = i := by omega
      subst this
      rw [ha] at ha'
      exact ⟨rfl, (Option.some.inj ha').symm⟩
    unfold Graph.lineRow
    simp only [a1, b1, ok_bind, pure_out]
    cases hdir : dir with
    | true =>
      refine ⟨nb1.map fun e2 => ⟨(i : Int), e2.data, 0⟩, by rw [List.map_map]; rfl, ?_, ?_⟩
      · unfold Uniq
        rw [List.pairwise_map]
        unfold List.Nodup at a2
        rw [List.pairwise_map] at a2
        refine a2.imp ?_
        rintro x y hne (⟨-, h2⟩ | ⟨c, -⟩)
        · exact hne h2.symm
        · cases c
      · intro i' a' ha' he x
        obtain ⟨rfl, rfl⟩ := heq i' a' ha' he
        rw [List.mem_map]
        constructor
        · rintro ⟨e2, he2, rfl⟩
          obtain ⟨-, j, b, hb, hd, hs⟩ := (a3 e2).1 he2
          refine ⟨rfl, rfl, j, b, hb, hd, ?_⟩
          subst hdir
          unfold LineStep Same at *
          simp at hs ⊢
          exact hs.1.symm
        · rintro ⟨hd, hsrc, j, b, hb, hj, hc⟩
          refine ⟨⟨a'.dst, b.dst, (j : Int)⟩, (a3 _).2 ⟨rfl, j, b, hb, rfl, Or.inl ⟨?_, rfl⟩⟩, ?_⟩
          · unfold LineStep at hc
            simpa using hc.symm
          · cases x
            simp only at *
            rw [hd, hsrc, hj]
    | false =>
      refine ⟨((nb1 ++ nb2).filter fun e2 => decide ((i : Int) < e2.data)).map fun e2 => ⟨(i : Int), e2.data, 0⟩, by rw [List.map_map]; rfl, ?_, ?_⟩
      · unfold Uniq
        rw [List.pairwise_map, List.pairwise_filter, List.pairwise_append]
        unfold List.Nodup at a2 b2
        rw [List.pairwise_map] at a2 b2
        have hcl : ∀ x y : Edge Int, x.data ≠ y.data → (i : Int) < x.data → (i : Int) < y.data →
            ¬ EqEdge false (⟨(i : Int), x.data, 0⟩ : Edge Int) ⟨(i : Int), y.data, 0⟩ := by
          rintro x y hne hx hy (⟨-, h2⟩ | ⟨-, h1, h2⟩)
          · exact hne h2.symm
          · simp only at h1 h2; omega
        refine ⟨a2.imp ?_, b2.imp ?_, ?_⟩
        · intro x y hne hx hy
          exact hcl x y hne (by simpa using hx) (by simpa using hy)
        · intro x y hne hx hy
          exact hcl x y hne (by simpa using hx) (by simpa using hy)
        · intro x hx y hy hxi hyi
          refine hcl x y ?_ (by simpa using hxi) (by simpa using hyi)
          intro he
          obtain ⟨-, j, b, hb, hd, hs⟩ := (a3 x).1 hx
          obtain ⟨-, j', b', hb', hd', hs'⟩ := (b3 y).1 hy
          have hjj : j = j' := by omega
          subst hjj
          rw [hb] at hb'
          obtain rfl := Option.some.inj hb'
          have hne : i ≠ j := by
            intro hij
            simp only [decide_eq_true_eq] at hxi
            omega
          apply hne
          refine uniq_inj h.uniq ha hb ?_
          subst hdir
          unfold EqEdge
          unfold Same at *
          simp only [true_and] at *
          omega
      · intro i' a' ha' he x
        obtain ⟨rfl, rfl⟩ := heq i' a' ha' he
        rw [List.mem_map]
        constructor
        · rintro ⟨e2, he2, rfl⟩
          obtain ⟨he2, hlt⟩ := List.mem_filter.1 he2
          simp only [decide_eq_true_eq] at hlt
          rcases List.mem_append.1 he2 with he2 | he2
          · obtain ⟨-, j, b, hb, hd, hs⟩ := (a3 e2).1 he2
            refine ⟨rfl, rfl, j, b, hb, hd, ?_⟩
            unfold LineStep
            rw [if_neg (by simp)]
            unfold Same at hs
            omega
          · obtain ⟨-, j, b, hb, hd, hs⟩ := (b3 e2).1 he2
            refine ⟨rfl, rfl, j, b, hb, hd, ?_⟩
            unfold LineStep
            rw [if_neg (by simp)]
            unfold Same at hs
            omega
        · rintro ⟨hd, hsrc, j, b, hb, hj, hc⟩
          unfold LineStep at hc
          rw [if_neg (by simp)] at hc
          have hx : x = ⟨(i' : Int), (j : Int), 0⟩ := by
            cases x
            simp only at *
            rw [hd, hsrc, hj]
          obtain ⟨hlt, hc⟩ := hc
          subst hdir
          rcases hc with hc | hc | hc | hc
          · exact ⟨⟨a'.dst, b.dst, (j : Int)⟩, List.mem_filter.2 ⟨List.mem_append.2 (Or.inl ((a3 _).2 ⟨rfl, j, b, hb, rfl, Or.inl ⟨hc.symm, rfl⟩⟩)), by simpa using hlt⟩, hx.symm⟩
          · exact ⟨⟨a'.dst, b.src, (j : Int)⟩, List.mem_filter.2 ⟨List.mem_append.2 (Or.inl ((a3 _).2 ⟨rfl, j, b, hb, rfl, Or.inr ⟨rfl, rfl, hc.symm⟩⟩)), by simpa using hlt⟩, hx.symm⟩
          · exact ⟨⟨a'.src, b.dst, (j : Int)⟩, List.mem_filter.2 ⟨List.mem_append.2 (Or.inr ((b3 _).2 ⟨rfl, j, b, hb, rfl, Or.inl ⟨hc.symm, rfl⟩⟩)), by simpa using hlt⟩, hx.symm⟩
          · exact ⟨⟨a'.src, b.src, (j : Int)⟩, List.mem_filter.2 ⟨List.mem_append.2 (Or.inr ((b3 _).2 ⟨rfl, j, b, hb, rfl, Or.inr ⟨rfl, rfl, hc.symm⟩⟩)), by simpa using hlt⟩, hx.symm⟩
  choose! row hrow1 hrow2 hrow3 using hrow
  have hmapM : T.mapM (Graph.lineRow dir tmp) = .ok (T.map fun e => (row e).map Edge.toRec) := mapM_ok _ _ T hrow1
  have hflat : (T.map fun e => (row e).map Edge.toRec).flatten = (T.flatMap row).map Edge.toRec := by
    rw [List.flatMap_def, List.map_flatten, List.map_map]; rfl
  have hmem : ∀ x : Edge Int, x ∈ T.flatMap row ↔ x.data = 0 ∧ ∃ (i j : Nat) (a b : Edge Int), x.src = i ∧ x.dst = j ∧ L[i]? = some a ∧ L[j]? = some b ∧ LineStep dir i a j b := by
    intro x
    rw [List.mem_flatMap]
    constructor
    · rintro ⟨e, he, hx⟩
      obtain ⟨i, a, ha, rfl⟩ := (hTmem e).1 he
      obtain ⟨h1, h2, j, b, h3, h4, h5⟩ := (hrow3 _ he i a ha rfl x).1 hx
      exact ⟨h1, i, j, a, b, h2, h4, ha, h3, h5⟩
    · rintro ⟨h1, i, j, a, b, h2, h4, ha, h3, h5⟩
      have he := (hTmem _).2 ⟨i, a, ha, rfl⟩
      exact ⟨_, he, (hrow3 _ he i a ha rfl x).2 ⟨h1, h2, j, b, h3, h4, h5⟩⟩
  have hne : ∀ (i j : Nat) (a b : Edge Int), L[i]? = some a → L[j]? = some b → LineStep dir i a j b → i ≠ j := by
    rintro i j a b ha hb hc rfl
    rw [ha] at hb
    obtain rfl := Option.some.inj hb
    have := (hlv i a ha).2.2
    unfold LineStep at hc
    split at hc
    · exact this hc.symm
    · omega
  obtain ⟨g', res, r1, r2, r3, -⟩ := ofSize_build (m := lineMap dir L) (dir := dir) (k := L.length) hfit (ts := T.flatMap row) (by
    intro x hx
    obtain ⟨-, i, j, a, b, h2, h4, ha, hb, hc⟩ := (hmem x).1 hx
    have hi := (List.getElem?_eq_some_iff.1 ha).1
    have hj := (List.getElem?_eq_some_iff.1 hb).1
    have := hne i j a b ha hb hc
    exact ⟨⟨by omega, by omega⟩, ⟨by omega, by omega⟩, by omega⟩) (by
    unfold Uniq
    rw [List.pairwise_flatMap]
    refine ⟨hrow2, hTd.imp_of_mem ?_⟩
    intro e e' he he' hd x hx y hy hs
    obtain ⟨i, a, ha, rfl⟩ := (hTmem e).1 he
    obtain ⟨i', a', ha', rfl⟩ := (hTmem e').1 he'
    obtain ⟨-, h2, j, b, h3, h4, h5⟩ := (hrow3 _ he i a ha rfl x).1 hx
    obtain ⟨-, h2', j', b', h3', h4', h5'⟩ := (hrow3 _ he' i' a' ha' rfl y).1 hy
    simp only at hd
    rcases hs with ⟨s1, -⟩ | ⟨hf, s1, s2⟩
    · omega
    · subst hf
      unfold LineStep at h5 h5'
      rw [if_neg (by simp)] at h5 h5'
      omega) (by
    intro u v d
    unfold lineMap
    constructor
    · intro hd
      split at hd
      · rename_i hc
        obtain ⟨i, j, a, b, rfl, rfl, hij, ha, hb, hc⟩ := hc
        have hd0 := Option.some.inj hd
        cases hdir : dir with
        | true =>
          refine ⟨⟨i, j, 0⟩, (hmem _).2 ⟨rfl, i, j, a, b, rfl, rfl, ha, hb, ?_⟩, hd0, Or.inl ⟨rfl, rfl⟩⟩
          unfold LineStep
          rw [hdir] at hc ⊢
          simpa using hc
        | false =>
          rw [hdir] at hc
          simp only [true_and] at hc
          rcases Nat.lt_or_ge i j with hlt | hge
          · refine ⟨⟨i, j, 0⟩, (hmem _).2 ⟨rfl, i, j, a, b, rfl, rfl, ha, hb, ?_⟩, hd0, Or.inl ⟨rfl, rfl⟩⟩
            unfold LineStep
            rw [hdir, if_neg (by simp)]
            exact ⟨hlt, hc⟩
          · refine ⟨⟨j, i, 0⟩, (hmem _).2 ⟨rfl, j, i, b, a, rfl, rfl, hb, ha, ?_⟩, hd0, Or.inr ⟨rfl, rfl, rfl⟩⟩
            unfold LineStep
            rw [hdir, if_neg (by simp)]
            exact ⟨by omega, by omega⟩
      · cases hd
    · rintro ⟨x, hx, hd, hs⟩
      obtain ⟨h1, i, j, a, b, h2, h4, ha, hb, hc⟩ := (hmem x).1 hx
      have hij := hne i j a b ha hb hc
      rw [← hd, h1]
      rw [h2, h4] at hs
      unfold LineStep at hc
      rcases hs with ⟨s1, s2⟩ | ⟨hf, s1, s2⟩
      · refine if_pos ⟨i, j, a, b, s1.symm, s2.symm, hij, ha, hb, ?_⟩
        split at hc
        · exact Or.inl hc
        · rename_i hdd
          rcases hc.2 with hc | hc
          · exact Or.inl hc
          · exact Or.inr ⟨by simpa using hdd, hc⟩
      · refine if_pos ⟨j, i, b, a, s2.symm, s1.symm, hij.symm, hb, ha, ?_⟩
        subst hf
        rw [if_neg (by simp)] at hc
        simp only [true_and]
        omega)
  refine ⟨g', ?_, r3⟩
  unfold Graph.lineGraph
  rw [t1, ok_bind, h.isDir, t2, ok_bind]
  have hlist : (g.getEdges.mapIdx fun i e => Graph.mkRec e.src e.dst (i : Int)) = T.map Edge.toRec := by
    rw [hT, ← hL]
    apply List.ext_getElem?
    intro i
    simp only [List.getElem?_mapIdx, List.getElem?_map, Option.map_map]
    rfl
  have hlen : g.edges.length = L.length := by rw [hL]; unfold Graph.getEdges; simp
  rw [hlist, t3, ok_bind, hlen, r1, ok_bind, htE, hmapM, ok_bind, hflat]
  exact r2

theorem foldlM_filter {α σ : Type} (p : α → Prop) [DecidablePred p] (f : σ → α → Out σ) : ∀ (l : List α) (s : σ),
    l.foldlM (fun s e => if p e then f s e else pure s) s = (l.filter fun e => decide (p e)).foldlM f s
  | [], _ => rfl
  | x :: l, s => by
    rw [List.foldlM_cons, List.filter_cons]
    by_cases hx : p x
    · rw [if_pos hx, if_pos (by simpa using hx), List.foldlM_cons]
      congr 1
      funext s'
      exact foldlM_filter p f l s'
    · rw [if_neg hx, if_neg (by simpa using hx), pure_out, ok_bind, foldlM_filter p f l s]

/-- `range` for graphs that start at vertex 0. -/
theorem Good.range {E : Type} {g : Graph E} {m : Map E} (h : Good g dir 0 n m) {l r : Int} (hlr : l ≤ r) (hl : I64 l) (hr : I64 r)
    (hlen : I64 (r - l)) : ∃ g', g.range l r = .ok g' ∧
    Good g' dir l (r - l).toNat (fun u v => if In l (r - l).toNat u ∧ In l (r - l).toNat v then m u v else none) := by
  unfold Graph.range
  rw [decide_eq_true hlr, judgeAssert_true, ok_bind, h.isDir, h.isLo]
  obtain ⟨g1, h1, h2, -⟩ := new_good (E := E) dir hl hr hlr hlen
  rw [h1, ok_bind, sub_zero, sub_zero, chk_ok hl, ok_bind, chk_ok hr, ok_bind, h.nodeCount_eq]
  dsimp only
  rw [foldlM_filter (fun e : Edge E => e.src ≥ max 0 l ∧ e.src < min (n : Int) r ∧ e.dst ≥ max 0 l ∧ e.dst < min (n : Int) r)
    (fun (res : Graph E) (e : Edge E) => res.add e.src e.dst e.data) g.getEdges g1]
  set ts := g.getEdges.filter fun e : Edge E => decide (e.src ≥ max 0 l ∧ e.src < min (n : Int) r ∧ e.dst ≥ max 0 l ∧ e.dst < min (n : Int) r) with hts
  have hmem : ∀ e, e ∈ ts ↔ e ∈ g.getEdges ∧ In l (r - l).toNat e.src ∧ In l (r - l).toNat e.dst := by
    intro e
    rw [hts, List.mem_filter, decide_eq_true_eq]
    constructor
    · rintro ⟨h1, h2⟩
      unfold In
      exact ⟨h1, ⟨by omega, by omega⟩, by omega, by omega⟩
    · rintro ⟨h1, h2, h3⟩
      obtain ⟨v1, v2, -⟩ := h.valid e h1
      unfold In at *
      exact ⟨h1, by omega⟩
  obtain ⟨g', r1, r2⟩ := h2.addAll ts (fun e he => ⟨((hmem e).1 he).2.1, ((hmem e).1 he).2.2, (h.valid e ((hmem e).1 he).1).2.2⟩)
  refine ⟨g', r1, ?_⟩
  have hu : Uniq dir ts := h.uniq.filter _
  suffices heq : (fun u v => if In l (r - l).toNat u ∧ In l (r - l).toNat v then m u v else none) =
      ts.foldl (fun m t => put dir m t.src t.dst t.data) (fun _ _ => none) by
    rw [heq]; exact r2
  funext u v
  by_cases hin : In l (r - l).toNat u ∧ In l (r - l).toNat v
  · rw [if_pos hin]
    cases hm : m u v with
    | none =>
      rw [putAll_notin]
      intro e he hs
      have := (h.map_iff u v e.data).2 ⟨e, ((hmem e).1 he).1, rfl, hs⟩
      rw [hm] at this
      cases this
    | some d =>
      obtain ⟨e, he, hd, hs⟩ := (h.map_iff u v d).1 hm
      rw [putAll_mem ts _ u v e hu ((hmem e).2 ⟨he, ?_⟩) hs, hd]
      rcases hs with ⟨s1, s2⟩ | ⟨-, s1, s2⟩ <;> rw [s1, s2]
      · exact hin
      · exact hin.symm
  · rw [if_neg hin, putAll_notin]
    intro e he hs
    apply hin
    obtain ⟨-, e1, e2⟩ := (hmem e).1 he
    rcases hs with ⟨s1, s2⟩ | ⟨-, s1, s2⟩ <;> rw [s1] at e1 <;> rw [s2] at e2
    · exact ⟨e1, e2⟩
    · exact ⟨e2, e1⟩

end ICPC.Gen
