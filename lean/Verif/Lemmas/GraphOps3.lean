import Verif.Lemmas.GraphOps2
import Mathlib.Data.List.GetD

/-!
# Complement, renumbering, subgraphs, ranges
-/

namespace ICPC.Gen

open ICPC ICPC.Spec.EdgeMap ICPC.Props

variable {E : Type} {g : Graph E} {dir : Bool} {lo : Int} {n : Nat} {m : Map E}

theorem mem_intRange {a b x : Int} : x ∈ intRange a b ↔ a ≤ x ∧ x < b := by
  unfold intRange
  simp only [List.mem_map, List.mem_range]
  constructor
  · rintro ⟨k, hk, rfl⟩
    omega
  · intro h
    exact ⟨(x - a).toNat, by omega, by omega⟩

theorem intRange_pairwise (a b : Int) : (intRange a b).Pairwise (· < ·) := by
  unfold intRange
  rw [List.pairwise_map]
  exact List.pairwise_lt_range.imp fun h => by omega

theorem filterOut_ok {α : Type} {p : α → Out Bool} (b : α → Bool) : ∀ (l : List α), (∀ x ∈ l, p x = .ok (b x)) → filterOut p l = .ok (l.filter b)
  | [], _ => rfl
  | x :: l, h => by
    unfold filterOut
    rw [h x (by simp), ok_bind, filterOut_ok b l fun y hy => h y (by simp [hy]), ok_bind, pure_out, List.filter_cons]

/-- Candidates in `complement`. -/
def candPairs (dir : Bool) (lo k : Int) : List (Int × Int) := (intRange 0 k).flatMap fun i => (intRange 0 i).flatMap fun j =>
  (i + lo, j + lo) :: (if dir then [(j + lo, i + lo)] else [])

theorem mem_candPairs {k u v : Int} : (u, v) ∈ candPairs dir lo k ↔
    lo ≤ u ∧ u < lo + k ∧ lo ≤ v ∧ v < lo + k ∧ (v < u ∨ (dir = true ∧ u < v)) := by
  unfold candPairs
  simp only [List.mem_flatMap, mem_intRange, List.mem_cons, Prod.mk.injEq]
  constructor
  · rintro ⟨i, hi, j, hj, h | h⟩
    · omega
    · cases dir
      · simp at h
      · simp at h
        refine ⟨by omega, by omega, by omega, by omega, Or.inr ⟨rfl, by omega⟩⟩
  · rintro ⟨h1, h2, h3, h4, h | ⟨rfl, h⟩⟩
    · exact ⟨u - lo, by omega, v - lo, by omega, Or.inl ⟨by omega, by omega⟩⟩
    · exact ⟨v - lo, by omega, u - lo, by omega, Or.inr (by simp)⟩

theorem candPairs_uniq (k : Int) : (candPairs dir lo k).Pairwise fun p q => ¬ Same dir p.1 p.2 q.1 q.2 := by
  have hmem : ∀ (i j : Int) (p : Int × Int), p ∈ (i + lo, j + lo) :: (if dir then [(j + lo, i + lo)] else []) →
      (p.1 = i + lo ∧ p.2 = j + lo) ∨ (dir = true ∧ p.1 = j + lo ∧ p.2 = i + lo) := by
    intro i j p hp
    rcases List.mem_cons.1 hp with rfl | hp
    · simp
    · cases dir
      · simp at hp
      · simp at hp; subst hp; simp
  unfold candPairs
  rw [List.pairwise_flatMap]
  constructor
  · intro i hi
    rw [List.pairwise_flatMap]
    constructor
    · intro j hj
      rw [mem_intRange] at hj
      cases dir
      · simp
      · simp [Same]; omega
    · refine (intRange_pairwise 0 i).imp_of_mem ?_
      intro j j' hj hj' hlt p hp q hq hs
      rw [mem_intRange] at hj hj'
      unfold Same at hs
      rcases hmem _ _ _ hp with h1 | ⟨d1, h1⟩ <;> rcases hmem _ _ _ hq with h2 | ⟨d2, h2⟩ <;> rcases hs with h3 | ⟨d3, h3⟩ <;>
        omega
  · refine (intRange_pairwise 0 k).imp_of_mem ?_
    intro i i' hi hi' hlt p hp q hq hs
    obtain ⟨j, hj, hp⟩ := List.mem_flatMap.1 hp
    obtain ⟨j', hj', hq⟩ := List.mem_flatMap.1 hq
    rw [mem_intRange] at hj hj'
    unfold Same at hs
    rcases hmem _ _ _ hp with h1 | ⟨d1, h1⟩ <;> rcases hmem _ _ _ hq with h2 | ⟨d2, h2⟩ <;> rcases hs with h3 | ⟨d3, h3⟩ <;>
      omega

theorem Good.complement [Inhabited E] (h : Good g dir lo n m) : ∃ g', g.complement = .ok g' ∧ Good g' dir lo n (complMap lo n m) := by
  set ps := (candPairs dir lo n).filter fun p => !(m p.1 p.2).isSome with hps
  have hfil : filterOut (fun p => do let b ← g.hasEdge p.1 p.2; pure !b) (candPairs dir lo n) = .ok ps := by
    rw [hps]
    refine filterOut_ok _ _ ?_
    rintro ⟨u, v⟩ hp
    rw [mem_candPairs] at hp
    simp only
    rw [h.hasEdge, if_pos ⟨⟨by omega, by omega⟩, ⟨by omega, by omega⟩⟩]
    rfl
  have hmem : ∀ u v, (u, v) ∈ ps ↔ In lo n u ∧ In lo n v ∧ m u v = none ∧ (v < u ∨ (dir = true ∧ u < v)) := by
    intro u v
    rw [hps, List.mem_filter, mem_candPairs]
    unfold In
    have : ((!(m u v).isSome) = true) ↔ m u v = none := by cases m u v <;> simp
    rw [this]
    tauto
  obtain ⟨g', res, h1, h2, h3, h4, -⟩ := h.fresh dir (ts := ps.map fun p => ⟨p.1, p.2, default⟩) (m' := complMap lo n m) (by
    intro e he
    obtain ⟨⟨u, v⟩, hp, rfl⟩ := List.mem_map.1 he
    have := (hmem u v).1 hp
    exact ⟨this.1, this.2.1, by simp only; omega⟩) (by
    unfold Uniq
    rw [List.pairwise_map]
    exact (candPairs_uniq (dir := dir) (lo := lo) n).filter _) (by
    intro u v d
    unfold complMap
    constructor
    · intro hd
      split at hd
      · rename_i hc
        obtain ⟨c1, c2, c3, c4⟩ := hc
        have hd' := Option.some.inj hd
        rcases lt_or_gt_of_ne c3 with hlt | hlt
        · cases dir with
          | false =>
            refine ⟨⟨v, u, default⟩, List.mem_map.2 ⟨(v, u), (hmem v u).2 ⟨c2, c1, ?_, Or.inl hlt⟩, rfl⟩, hd', Or.inr ⟨rfl, rfl, rfl⟩⟩
            rw [h.map_symm]; exact c4
          | true => exact ⟨⟨u, v, default⟩, List.mem_map.2 ⟨(u, v), (hmem u v).2 ⟨c1, c2, c4, Or.inr ⟨rfl, hlt⟩⟩, rfl⟩, hd', Or.inl ⟨rfl, rfl⟩⟩
        · exact ⟨⟨u, v, default⟩, List.mem_map.2 ⟨(u, v), (hmem u v).2 ⟨c1, c2, c4, Or.inl hlt⟩, rfl⟩, hd', Or.inl ⟨rfl, rfl⟩⟩
      · cases hd
    · rintro ⟨e, he, hd, hs⟩
      obtain ⟨⟨x, y⟩, hp, rfl⟩ := List.mem_map.1 he
      have := (hmem x y).1 hp
      simp only at hs hd
      rcases hs with ⟨rfl, rfl⟩ | ⟨rfl, rfl, rfl⟩
      · rw [if_pos ⟨this.1, this.2.1, by omega, this.2.2.1⟩, hd]
      · rw [h.map_symm] at this
        rw [if_pos ⟨this.2.1, this.1, by omega, this.2.2.1⟩, hd])
  refine ⟨g', ?_, h4⟩
  unfold Graph.complement
  rw [h1, ok_bind, h.isDir, h2, ok_bind, h.nodeCount_eq, h.isLo]
  show (filterOut _ (candPairs dir lo n) >>= _) = _
  rw [hfil, ok_bind]
  rw [List.map_map] at h3
  exact h3

/-! ## Renumbering -/

theorem coinIf_sat (dir : Bool) : SatOk (Graph.coinIf dir) fun b => b = true → dir = false := by
  cases dir
  · intro b; exact ⟨b, rfl, fun _ => rfl⟩
  · exact satOk_done (by simp)

theorem flipLoop_sat : ∀ (ts : List (Edge E)), (∀ e ∈ ts, I64 e.src) → SatOk (Graph.flipLoop dir (ts.map Edge.toRec)) fun es =>
    ∃ ts' : List (Edge E), es = ts'.map Edge.toRec ∧
      List.Forall₂ (fun e e' : Edge E => e'.data = e.data ∧ Same dir e.src e.dst e'.src e'.dst) ts ts'
  | [], _ => satOk_done ⟨[], rfl, .nil⟩
  | e :: ts, h => by
    rw [List.map_cons]
    unfold Graph.flipLoop
    refine SatOk.bind (coinIf_sat dir) fun b hb => ?_
    refine SatOk.bind (flipLoop_sat ts fun e he => h e (by simp [he])) ?_
    rintro es ⟨ts', rfl, hr⟩
    refine satOk_done ⟨(if b then ⟨e.dst, e.src, e.data⟩ else e) :: ts', ?_, .cons ?_ hr⟩
    · cases b
      · rfl
      · simp only [if_true, List.map_cons]; rw [turn_toRec e (h e (by simp))]
    · cases b
      · exact ⟨rfl, Or.inl ⟨rfl, rfl⟩⟩
      · exact ⟨rfl, Or.inr ⟨hb rfl, rfl, rfl⟩⟩

theorem forall2_perm_valid {f : Int → Int} {lo' : Int} {n' : Nat} (h : Good g dir lo n m) {ts ts' : List (Edge E)} (hp : ts.Perm g.getEdges)
    (hf : ∀ u, In lo n u → In lo' n' (f u)) (hinj : ∀ u v, In lo n u → In lo n v → f u = f v → u = v)
    (hr : List.Forall₂ (fun e e' : Edge E => e'.data = e.data ∧ Same dir (f e.src) (f e.dst) e'.src e'.dst) ts ts') :
    Valid lo' n' ts' ∧ Uniq dir ts' ∧ ∀ u v d, In lo n u → In lo n v → (m u v = some d ↔ mapOf dir ts' (f u) (f v) = some d) := by
  obtain ⟨h1, h2, h3⟩ := relabel f (fun e he => h.valid e (hp.subset he)) (h.uniq.perm hp.symm) hf hinj hr
  refine ⟨h1, h2, fun u v d hu hv => ?_⟩
  rw [mapOf_iff h2, ← h3 u v d hu hv, h.map_iff]
  constructor
  · rintro ⟨e, he, h⟩; exact ⟨e, hp.symm.subset he, h⟩
  · rintro ⟨e, he, h⟩; exact ⟨e, hp.subset he, h⟩

theorem getEdges_toRec {ts : List (Edge E)} (h : ∀ e ∈ ts, I64 e.src) (he : g.edges = ts.map Edge.toRec) : g.getEdges = ts := by
  unfold Graph.getEdges
  rw [he, List.map_map]
  conv_rhs => rw [← List.map_id ts]
  refine List.map_congr_left fun e h' => ?_
  show (⟨e.toRec.src, e.dst, e.data⟩ : Edge E) = e
  rw [show e.toRec.src = e.src from mkRec_src (h e h')]

theorem Good.permutateEdges (h : Good g dir lo n m) (hlen : g.edges.length < 2 ^ 63) : SatOk g.permutateEdges fun g' => Good g' dir lo n m := by
  unfold Graph.permutateEdges
  have hsh := C03_shuffle_perm g.getEdges (by unfold Graph.getEdges; simpa using hlen)
  have e0 : shuffle g.edges = shuffle g.getEdges >>= fun r => pure (r.map Edge.toRec) := by
    rw [← C03_shuffle_values_irrelevant, ← h.edges_eq]
  rw [e0, Rand.bind_assoc]
  refine SatOk.bind hsh fun ts hp => ?_
  rw [Rand.pure_def, Rand.bind_done_ok, h.isDir]
  refine SatOk.bind (flipLoop_sat ts fun e he => (good_I64 h (hp.subset he)).1) ?_
  rintro es ⟨ts', rfl, hr⟩
  obtain ⟨hv, hu, hm⟩ := forall2_perm_valid (f := id) h hp (fun u hu => hu) (fun u v _ _ h => h) hr
  obtain ⟨g', h1, h2, -⟩ := h.replace hv hu (m' := m) (by
    intro u v d
    rw [← mapOf_iff hu]
    by_cases hin : In lo n u ∧ In lo n v
    · exact hm u v d hin.1 hin.2
    · constructor
      · intro hd; have := h.map_in hd; exact absurd ⟨this.1, this.2.1⟩ hin
      · intro hd
        obtain ⟨e, he, -, hs⟩ := (mapOf_iff hu u v d).1 hd
        obtain ⟨a, b, -⟩ := hv e he
        exfalso; apply hin
        rcases hs with ⟨x, y⟩ | ⟨-, x, y⟩
        · rw [← x, ← y]; exact ⟨a, b⟩
        · rw [← x, ← y]; exact ⟨b, a⟩)
  rw [h1]
  exact satOk_done h2

theorem permAt_ok {perm : List Int} {k : Int} (h0 : 0 ≤ k) (h1 : k < perm.length) : Graph.permAt perm k = .ok (perm.getD k.toNat 0) := by
  unfold Graph.permAt
  rw [if_pos h0, List.getElem?_eq_getElem (by omega), List.getD_eq_getElem _ _ (by omega)]

theorem permLoop_sat (perm : List Int) (hl : perm.length = n) (h1 : I64 lo) (h2 : I64 (lo + n)) : ∀ (ts : List (Edge E)), Valid lo n ts →
    SatOk (Graph.permLoop dir lo perm (ts.map Edge.toRec)) fun es => ∃ ts' : List (Edge E), es = ts'.map Edge.toRec ∧
      List.Forall₂ (fun e e' : Edge E => e'.data = e.data ∧
        Same dir (perm.getD (e.src - lo).toNat 0) (perm.getD (e.dst - lo).toNat 0) e'.src e'.dst) ts ts'
  | [], _ => satOk_done ⟨[], rfl, .nil⟩
  | e :: ts, h => by
    rw [List.map_cons]
    unfold Graph.permLoop
    refine SatOk.bind (coinIf_sat dir) fun b hb => ?_
    obtain ⟨a1, a2, -⟩ := h e (by simp)
    have b1 := a1.1
    have b2 := a1.2
    have b3 := a2.1
    have b4 := a2.2
    have i1 := in_i64 a1 h1 h2
    have i2 := in_i64 a2 h1 h2
    have ih := permLoop_sat perm hl h1 h2 ts fun e he => h e (by simp [he])
    cases b
    · simp only [Bool.false_eq_true, if_false]
      rw [show e.toRec.src = e.src from mkRec_src i1, permAt_ok (by omega) (by omega), Rand.lift_ok, Rand.bind_done_ok,
        show e.toRec.dst = e.dst from rfl, permAt_ok (by omega) (by omega), Rand.lift_ok, Rand.bind_done_ok]
      refine SatOk.bind ih ?_
      rintro es ⟨ts', rfl, hr⟩
      exact satOk_done ⟨⟨_, _, e.data⟩ :: ts', rfl, .cons ⟨rfl, Or.inl ⟨rfl, rfl⟩⟩ hr⟩
    · simp only [if_true]
      rw [turn_toRec e i1, show (⟨e.dst, e.src, e.data⟩ : Edge E).toRec.src = e.dst from mkRec_src i2, permAt_ok (by omega) (by omega), Rand.lift_ok,
        Rand.bind_done_ok, show (⟨e.dst, e.src, e.data⟩ : Edge E).toRec.dst = e.src from rfl, permAt_ok (by omega) (by omega), Rand.lift_ok,
        Rand.bind_done_ok]
      refine SatOk.bind ih ?_
      rintro es ⟨ts', rfl, hr⟩
      exact satOk_done ⟨⟨_, _, e.data⟩ :: ts', rfl, .cons ⟨rfl, Or.inr ⟨hb rfl, rfl, rfl⟩⟩ hr⟩

theorem Good.permutate (h : Good g dir lo n m) (hlen : g.edges.length < 2 ^ 63) (perm : List Int) (hl : perm.length = n)
    (hp : Spec.IsPermutationFrom lo perm) : SatOk (g.permutate perm) fun g' => ∃ m', Good g' dir lo n m' ∧
      ∀ i j (hi : i < perm.length) (hj : j < perm.length), m' perm[i] perm[j] = m (lo + i) (lo + j) := by
  obtain ⟨hnd, hr⟩ := isPermutationFrom_iff.1 hp
  have n64 := h.simple.n64.2
  obtain ⟨b, hb, hb1, -⟩ := C17_isPerm_partial perm lo (fun x hx => by have := (hr x hx).2; omega) (by omega)
  unfold Graph.permutate
  rw [h.isLo, hb, Rand.lift_ok, Rand.bind_done_ok, hb1.2 hp, judgeAssert_true, Rand.lift_ok, Rand.bind_done_ok]
  have hsh := C03_shuffle_perm g.getEdges (by unfold Graph.getEdges; simpa using hlen)
  have e0 : shuffle g.edges = shuffle g.getEdges >>= fun r => pure (r.map Edge.toRec) := by
    rw [← C03_shuffle_values_irrelevant, ← h.edges_eq]
  rw [e0, Rand.bind_assoc]
  refine SatOk.bind hsh fun ts hpe => ?_
  rw [Rand.pure_def, Rand.bind_done_ok, h.isDir]
  refine SatOk.bind (permLoop_sat perm hl h.simple.lo64 h.simple.hi64 ts fun e he => h.valid e (hpe.subset he)) ?_
  rintro es ⟨ts', rfl, hrel⟩
  have hget : ∀ u, In lo n u → ∃ hlt : (u - lo).toNat < perm.length, perm.getD (u - lo).toNat 0 = perm[(u - lo).toNat] := by
    intro u hu
    have := hu.1
    have := hu.2
    exact ⟨by omega, List.getD_eq_getElem _ _ (by omega)⟩
  obtain ⟨hv, hu, hm⟩ := forall2_perm_valid (f := fun u => perm.getD (u - lo).toNat 0) (lo' := lo) (n' := n) h hpe (by
    intro u hu
    obtain ⟨hlt, he⟩ := hget u hu
    rw [he]
    have := hr _ (List.getElem_mem hlt)
    rw [hl] at this
    exact this) (by
    intro u v hu hv he
    obtain ⟨h1, e1⟩ := hget u hu
    obtain ⟨h2, e2⟩ := hget v hv
    rw [e1, e2, hnd.getElem_inj_iff] at he
    have := hu.1
    have := hv.1
    omega) hrel
  obtain ⟨g', h1, h2, -⟩ := h.replace hv hu (m' := mapOf dir ts') (mapOf_iff hu)
  rw [h1]
  refine satOk_done ⟨_, h2, ?_⟩
  intro i j hi hj
  refine Option.ext fun d => ?_
  have := hm (lo + i) (lo + j) d ⟨by omega, by omega⟩ ⟨by omega, by omega⟩
  simp only [show (lo + (i : Int) - lo).toNat = i from by omega, show (lo + (j : Int) - lo).toNat = j from by omega] at this
  rw [List.getD_eq_getElem _ _ hi, List.getD_eq_getElem _ _ hj] at this
  exact this.symm

theorem Good.permutateRandom (h : Good g dir lo n m) (hlen : g.edges.length < 2 ^ 63) : SatOk g.permutateRandom fun g' => ∃ m',
    ∃ perm : List Int, perm.length = n ∧ Spec.IsPermutationFrom lo perm ∧ Good g' dir lo n m' ∧
      ∀ i j (hi : i < perm.length) (hj : j < perm.length), m' perm[i] perm[j] = m (lo + i) (lo + j) := by
  unfold Graph.permutateRandom
  rw [h.size, h.isLo]
  have n64 := h.simple.n64.2
  refine SatOk.bind (C03_shuffle_perm _ (by simp; omega)) fun perm hp => ?_
  have hl : perm.length = n := by rw [hp.length_eq]; simp
  have hpf : Spec.IsPermutationFrom lo perm := by
    rw [isPermutationFrom_iff]
    constructor
    · rw [hp.nodup_iff]
      exact (List.nodup_range).map fun a b hab => by simpa using hab
    · intro x hx
      obtain ⟨k, hk, rfl⟩ := List.mem_map.1 (hp.subset hx)
      rw [List.mem_range] at hk
      omega
  refine SatOk.mono (h.permutate hlen perm hl hpf) ?_
  rintro g' ⟨m', h1, h2⟩
  exact ⟨m', perm, hl, hpf, h1, h2⟩

/-! ## Subgraphs -/

theorem Good.subgraph (h : Good g dir lo n m) (hlen : g.edges.length < 2 ^ 63) (k : Int) (h0 : 0 ≤ k) : SatOk (g.subgraph k) fun g' =>
    ∃ m', Good g' dir lo n m' ∧ (g'.edges.length : Int) = min k g.edges.length ∧ ∀ u v d, m' u v = some d → m u v = some d := by
  unfold Graph.subgraph Graph.edgeCount
  by_cases hk : k ≥ (g.edges.length : Int)
  · rw [if_pos hk]
    obtain ⟨g', h1, h2, h3⟩ := h.copy
    rw [h1]
    exact satOk_done ⟨m, h2, by rw [h3, min_eq_right hk], fun _ _ _ h => h⟩
  · rw [if_neg hk]
    have hs := h.simple
    rw [h.isLo, h.nodeCount_eq, chk_ok hs.hi64, Rand.lift_ok, Rand.bind_done_ok,
      new_eq g.dir (by omega) (by rw [show lo + (n : Int) - lo = n from by omega]; exact hs.n64), Rand.lift_ok, Rand.bind_done_ok]
    refine SatOk.bind (C04_distinct k 0 g.edges.length i64_zero ⟨by omega, by omega⟩ h0 (by omega)) ?_
    rintro todo ⟨t1, t2, t3⟩
    have hge : ∀ id ∈ todo, ∃ e ∈ g.getEdges, g.edges[id.toNat]? = some e.toRec ∧ g.getEdges[id.toNat]? = some e := by
      intro id hid
      have hb := t3 id hid
      have hl : g.getEdges.length = g.edges.length := by unfold Graph.getEdges; simp
      refine ⟨g.getEdges[id.toNat]'(by omega), List.getElem_mem _, ?_, List.getElem?_eq_getElem _⟩
      conv_lhs => rw [h.edges_eq]
      rw [List.getElem?_map, List.getElem?_eq_getElem (by omega)]
      rfl
    obtain ⟨es, he1, he2⟩ := Good.mapM_rel (Graph.edgeAt g.edges)
      (fun id r => ∃ e : Edge E, g.getEdges[id.toNat]? = some e ∧ r = e.toRec) todo (by
        intro id hid
        obtain ⟨e, -, h2, h3⟩ := hge id hid
        exact ⟨_, by unfold Graph.edgeAt; rw [h2], e, h3, rfl⟩)
    rw [he1, Rand.lift_ok, Rand.bind_done_ok]
    have hts : ∀ (todo : List Int) (es : List (Rec E)), List.Forall₂ (fun (id : Int) r => ∃ e : Edge E, g.getEdges[id.toNat]? = some e ∧ r = e.toRec) todo es →
        ∃ ts : List (Edge E), es = ts.map Edge.toRec ∧ List.Forall₂ (fun (id : Int) e => g.getEdges[id.toNat]? = some e) todo ts := by
      intro todo es hr
      induction hr with
      | nil => exact ⟨[], rfl, .nil⟩
      | cons h1 _ ih =>
        obtain ⟨e, he, rfl⟩ := h1
        obtain ⟨ts, rfl, hr⟩ := ih
        exact ⟨e :: ts, rfl, .cons he hr⟩
    obtain ⟨ts, rfl, hr⟩ := hts todo es he2
    have hsub : ∀ e ∈ ts, e ∈ g.getEdges := by
      intro e he
      obtain ⟨id, -, h⟩ := Good.forall2_exists_left hr he
      exact List.mem_of_getElem? h
    have hu : Uniq dir ts := by
      unfold Uniq
      rw [List.pairwise_iff_getElem]
      intro i j hi hj hij he
      have hlen := hr.length_eq
      have ha := hr.get (i := i) (by omega) hi
      have hb := hr.get (i := j) (by omega) hj
      simp only [List.get_eq_getElem] at ha hb
      have hid := uniq_inj h.uniq ha hb he
      have c1 := t3 todo[i] (List.getElem_mem _)
      have c2 := t3 todo[j] (List.getElem_mem _)
      have hnd : todo.Nodup := List.pairwise_iff_getElem.2 t2
      have := hnd.getElem_inj_iff.1 (show todo[i] = todo[j] by omega)
      omega
    obtain ⟨g', h1, h2, h3⟩ := build_list (m := mapOf dir ts) (g := ⟨g.dir, List.replicate (lo + (n : Int) - lo).toNat [], ts.map Edge.toRec, lo⟩)
      hs.lo64 hs.hi64 hs.n64 (fun e he => h.valid e (hsub e he)) hu (mapOf_iff hu) h.isDir rfl (by simp) (fun s hs => List.eq_of_mem_replicate hs) rfl
    rw [h1]
    refine satOk_done ⟨_, h2, ?_, ?_⟩
    · rw [h3, List.length_map, ← hr.length_eq, t1]
      omega
    · intro u v d hd
      obtain ⟨e, he, hx⟩ := (mapOf_iff hu u v d).1 hd
      exact (h.map_iff u v d).2 ⟨e, hsub e he, hx⟩

end ICPC.Gen
