import Verif.Lemmas.GraphOps
import Verif.Lemmas.Rand
import Verif.Props.Shuffle
import Verif.Props.Distinct
import Verif.Props.Seq

/-!
# Operators
-/

namespace ICPC.Gen

open ICPC ICPC.Spec.EdgeMap

variable {E : Type} {g : Graph E} {dir : Bool} {lo : Int} {n : Nat} {m : Map E}

/-- The map of a list of edges. -/
def mapOf (dir : Bool) (ts : List (Edge E)) : Map E := fun u v => (ts.find? fun e => decide (Same dir u v e.src e.dst)).map Edge.data

theorem mapOf_iff {ts : List (Edge E)} (hu : Uniq dir ts) (u v : Int) (d : E) :
    mapOf dir ts u v = some d ↔ ∃ e ∈ ts, e.data = d ∧ Same dir u v e.src e.dst := by
  unfold mapOf
  rw [Option.map_eq_some_iff]
  constructor
  · rintro ⟨e, he, hd⟩
    exact ⟨e, List.mem_of_find?_eq_some he, hd, by simpa using List.find?_some he⟩
  · rintro ⟨e, he, hd, hs⟩
    cases hf : ts.find? fun e => decide (Same dir u v e.src e.dst) with
    | none => exact absurd hs (by simpa using List.find?_eq_none.1 hf e he)
    | some e' =>
      refine ⟨e', rfl, ?_⟩
      have h1 := List.mem_of_find?_eq_some hf
      have h2 : Same dir u v e'.src e'.dst := by simpa using List.find?_some hf
      obtain ⟨i, hi⟩ := List.getElem?_of_mem he
      obtain ⟨j, hj⟩ := List.getElem?_of_mem h1
      have := uniq_inj hu hi hj (hs.symm'.trans' h2)
      subst this
      rw [hi] at hj
      rw [← Option.some.inj hj, hd]

theorem Uniq.perm {ts ts' : List (Edge E)} (h : Uniq dir ts) (hp : ts.Perm ts') : Uniq dir ts' :=
  (hp.pairwise_iff fun hab hba => hab (Same.symm' hba)).1 h

/-- Renaming vertices, and turning undirected edges. -/
theorem relabel {lo' : Int} {n' : Nat} {ts ts' : List (Edge E)} (f : Int → Int) (hv : Valid lo n ts) (hu : Uniq dir ts)
    (hf : ∀ u, In lo n u → In lo' n' (f u)) (hinj : ∀ u v, In lo n u → In lo n v → f u = f v → u = v)
    (hr : List.Forall₂ (fun e e' : Edge E => e'.data = e.data ∧ Same dir (f e.src) (f e.dst) e'.src e'.dst) ts ts') :
    Valid lo' n' ts' ∧ Uniq dir ts' ∧ (∀ u v d, In lo n u → In lo n v →
      ((∃ e ∈ ts, e.data = d ∧ Same dir u v e.src e.dst) ↔ ∃ e ∈ ts', e.data = d ∧ Same dir (f u) (f v) e.src e.dst)) := by
  have hsame : ∀ u v u' v', In lo n u → In lo n v → In lo n u' → In lo n v' → (Same dir (f u) (f v) (f u') (f v') ↔ Same dir u v u' v') := by
    intro u v u' v' h1 h2 h3 h4
    constructor
    · rintro (⟨a, b⟩ | ⟨c, a, b⟩)
      · exact Or.inl ⟨hinj _ _ h3 h1 a, hinj _ _ h4 h2 b⟩
      · exact Or.inr ⟨c, hinj _ _ h3 h2 a, hinj _ _ h4 h1 b⟩
    · rintro (⟨rfl, rfl⟩ | ⟨c, rfl, rfl⟩)
      · exact Or.inl ⟨rfl, rfl⟩
      · exact Or.inr ⟨c, rfl, rfl⟩
  refine ⟨?_, ?_, ?_⟩
  · intro e he
    obtain ⟨e0, he0, -, hs⟩ := Good.forall2_exists_left hr he
    obtain ⟨h1, h2, h3⟩ := hv e0 he0
    have hne : f e0.src ≠ f e0.dst := fun h => h3 (hinj _ _ h1 h2 h)
    rcases hs with ⟨a, b⟩ | ⟨-, a, b⟩
    · rw [a, b]; exact ⟨hf _ h1, hf _ h2, hne⟩
    · rw [a, b]; exact ⟨hf _ h2, hf _ h1, hne.symm⟩
  · unfold Uniq
    rw [List.pairwise_iff_getElem]
    intro i j hi hj hij he
    have hlen := hr.length_eq
    obtain ⟨-, ha⟩ := hr.get (i := i) (by omega) hi
    obtain ⟨-, hb⟩ := hr.get (i := j) (by omega) hj
    simp only [List.get_eq_getElem] at ha hb
    have hc := (ha.trans' he).trans' hb.symm'
    have hvi := hv ts[i] (List.getElem_mem _)
    have hvj := hv ts[j] (List.getElem_mem _)
    rw [hsame _ _ _ _ hvi.1 hvi.2.1 hvj.1 hvj.2.1] at hc
    exact (List.pairwise_iff_getElem.1 hu) i j (by omega) (by omega) hij hc
  · intro u v d h1 h2
    constructor
    · rintro ⟨e, he, hd, hs⟩
      obtain ⟨e', he', hd', hs'⟩ := Good.forall2_exists_right hr he
      refine ⟨e', he', hd'.trans hd, ?_⟩
      exact ((hsame _ _ _ _ h1 h2 (hv e he).1 (hv e he).2.1).2 hs).trans' hs'
    · rintro ⟨e', he', hd, hs⟩
      obtain ⟨e, he, hd', hs'⟩ := Good.forall2_exists_left hr he'
      refine ⟨e, he, hd'.symm.trans hd, ?_⟩
      exact (hsame _ _ _ _ h1 h2 (hv e he).1 (hv e he).2.1).1 (hs.trans' hs'.symm')

theorem turn_toRec (e : Edge E) (hs : I64 e.src) : Graph.turn e.toRec = (⟨e.dst, e.src, e.data⟩ : Edge E).toRec := by
  unfold Graph.turn Edge.toRec Graph.mkRec
  simp only
  rw [xorI_comm e.dst (xorI e.src e.dst), xorI_cancel hs, xorI_comm e.src e.dst]

theorem good_I64 (h : Good g dir lo n m) {e : Edge E} (he : e ∈ g.getEdges) : I64 e.src ∧ I64 e.dst :=
  ⟨in_i64 (h.valid e he).1 h.simple.lo64 h.simple.hi64, in_i64 (h.valid e he).2.1 h.simple.lo64 h.simple.hi64⟩

/-- Replacing all edges of a graph. -/
theorem Good.replace (h : Good g dir lo n m) {ts : List (Edge E)} {m' : Map E} (hv : Valid lo n ts) (hu : Uniq dir ts)
    (hm : ∀ u v d, m' u v = some d ↔ ∃ e ∈ ts, e.data = d ∧ Same dir u v e.src e.dst) :
    ∃ g', Graph.buildAdj { g.clearAdj with edges := ts.map Edge.toRec } = .ok g' ∧ Good g' dir lo n m' ∧ g'.edges = ts.map Edge.toRec :=
  build_list h.simple.lo64 h.simple.hi64 h.simple.n64 hv hu hm h.isDir h.isLo (by simp [Graph.clearAdj, h.size])
    (by intro s hs; simp [Graph.clearAdj] at hs; exact hs.2) rfl

theorem Good.reverse (h : Good g true lo n m) : ∃ g', g.reverse = .ok g' ∧ Good g' true lo n (rev m) := by
  have he : g.edges.map Graph.turn = (g.getEdges.map fun e => (⟨e.dst, e.src, e.data⟩ : Edge E)).map Edge.toRec := by
    rw [h.edges_eq, List.map_map, List.map_map]
    refine List.map_congr_left fun e he => turn_toRec e (good_I64 h he).1
  unfold Graph.reverse
  rw [he]
  refine (h.replace (m' := rev m) ?_ ?_ ?_).imp fun g' h' => ⟨h'.1, h'.2.1⟩
  · intro e' he'
    obtain ⟨e, he, rfl⟩ := List.mem_map.1 he'
    obtain ⟨h1, h2, h3⟩ := h.valid e he
    exact ⟨h2, h1, h3.symm⟩
  · unfold Uniq
    rw [List.pairwise_map]
    refine h.uniq.imp ?_
    rintro a b hab (⟨h1, h2⟩ | ⟨c, -⟩)
    · exact hab (Or.inl ⟨h2, h1⟩)
    · cases c
  · intro u v d
    unfold rev
    rw [h.map_iff]
    constructor
    · rintro ⟨e, he, hd, hs⟩
      refine ⟨_, List.mem_map_of_mem he, hd, ?_⟩
      rcases hs with ⟨a, b⟩ | ⟨c, -⟩
      · exact Or.inl ⟨b, a⟩
      · cases c
    · rintro ⟨e', he', hd, hs⟩
      obtain ⟨e, he, rfl⟩ := List.mem_map.1 he'
      refine ⟨e, he, hd, ?_⟩
      rcases hs with ⟨a, b⟩ | ⟨c, -⟩
      · exact Or.inl ⟨b, a⟩
      · cases c

theorem Good.undirected (h : Good g true lo n m) : ∃ g' m', g.undirected = .ok g' ∧ Good g' false lo n m' ∧
    (∀ u v, (m' u v).isSome ↔ (m u v).isSome ∨ (m v u).isSome) ∧ ∀ u v d, m' u v = some d → m u v = some d ∨ m v u = some d := by
  have hs := h.simple
  unfold Graph.undirected
  rw [h.isLo, h.nodeCount_eq, chk_ok hs.hi64, ok_bind]
  obtain ⟨g1, h1, h2, -⟩ := new_good (E := E) false hs.lo64 hs.hi64 (by omega) (by rw [show lo + (n : Int) - lo = n from by omega]; exact hs.n64)
  rw [h1, ok_bind]
  rw [show (lo + (n : Int) - lo).toNat = n from by omega] at h2
  obtain ⟨g', h3, h4⟩ := h2.addAll g.getEdges h.valid
  refine ⟨g', _, h3, h4, ?_, ?_⟩
  · intro u v
    rw [putAll_isSome]
    have key : ∀ u v, (m u v).isSome ↔ ∃ e ∈ g.getEdges, e.src = u ∧ e.dst = v := by
      intro u v
      rw [Option.isSome_iff_exists]
      simp only [h.map_iff]
      constructor
      · rintro ⟨d, e, he, -, hs⟩
        rcases hs with hs | ⟨c, -⟩
        · exact ⟨e, he, hs⟩
        · cases c
      · rintro ⟨e, he, hs⟩
        exact ⟨e.data, e, he, rfl, Or.inl hs⟩
    rw [key, key]
    unfold Same
    constructor
    · rintro (h | ⟨e, he, h | ⟨-, h⟩⟩)
      · simp at h
      · exact Or.inl ⟨e, he, h⟩
      · exact Or.inr ⟨e, he, h⟩
    · rintro (⟨e, he, h⟩ | ⟨e, he, h⟩)
      · exact Or.inr ⟨e, he, Or.inl h⟩
      · exact Or.inr ⟨e, he, Or.inr ⟨rfl, h⟩⟩
  · intro u v d hd
    rcases putAll_some u v d hd with hd | ⟨e, he, hd, hs⟩
    · cases hd
    · rcases hs with ⟨a, b⟩ | ⟨-, a, b⟩
      · exact Or.inl (by rw [← a, ← b, ← hd]; exact h.map_mem he)
      · exact Or.inr (by rw [← a, ← b, ← hd]; exact h.map_mem he)

theorem Good.directedBy (h : Good g false lo n m) (p : Int → Int → E → Bool) :
    ∃ g', g.directedBy p = .ok g' ∧ Good g' true lo n (keep p m) := by
  set ts : List (Edge E) := g.getEdges.flatMap fun e =>
    (if p e.src e.dst e.data then [e] else []) ++ (if p e.dst e.src e.data then [⟨e.dst, e.src, e.data⟩] else []) with hts
  have hmem : ∀ e' : Edge E, e' ∈ ts ↔ ∃ e ∈ g.getEdges, p e'.src e'.dst e'.data ∧ (e' = e ∨ e' = ⟨e.dst, e.src, e.data⟩) := by
    intro e'
    rw [hts, List.mem_flatMap]
    refine exists_congr fun e => and_congr_right fun he => ?_
    rw [List.mem_append]
    constructor
    · rintro (h | h)
      · split at h
        · rw [List.mem_singleton] at h; subst h; exact ⟨‹_›, Or.inl rfl⟩
        · simp at h
      · split at h
        · rw [List.mem_singleton] at h; subst h; exact ⟨‹_›, Or.inr rfl⟩
        · simp at h
    · rintro ⟨hp, rfl | rfl⟩
      · left; rw [if_pos hp]; simp
      · right; simp only at hp; rw [if_pos hp]; simp
  have he : (g.getEdges.flatMap fun e => (if p e.src e.dst e.data then [Graph.mkRec e.src e.dst e.data] else []) ++
      (if p e.dst e.src e.data then [Graph.mkRec e.dst e.src e.data] else [])) = ts.map Edge.toRec := by
    rw [hts, List.map_flatMap]
    refine List.flatMap_congr fun e _ => ?_
    split <;> split <;> rfl
  obtain ⟨g', res, h1, h2, h3, h4, -⟩ := h.fresh true (ts := ts) (m' := keep p m) (by
    intro e' he'
    obtain ⟨e, he, -, hc⟩ := (hmem e').1 he'
    obtain ⟨h1, h2, h3⟩ := h.valid e he
    rcases hc with rfl | rfl
    · exact ⟨h1, h2, h3⟩
    · exact ⟨h2, h1, h3.symm⟩) (by
    rw [hts]
    unfold Uniq
    rw [List.pairwise_flatMap]
    constructor
    · intro e he
      have hne := (h.valid e he).2.2
      split <;> split <;> simp [EqEdge, Same]
      intro h; exact absurd h.symm hne
    · refine h.uniq.imp ?_
      intro a b hab x hx y hy hxy
      apply hab
      have hx' : x = a ∨ x = ⟨a.dst, a.src, a.data⟩ := by
        rw [List.mem_append] at hx
        rcases hx with hx | hx <;> split at hx <;> simp at hx <;> tauto
      have hy' : y = b ∨ y = ⟨b.dst, b.src, b.data⟩ := by
        rw [List.mem_append] at hy
        rcases hy with hy | hy <;> split at hy <;> simp at hy <;> tauto
      unfold EqEdge Same at *
      rcases hx' with rfl | rfl <;> rcases hy' with rfl | rfl <;> (try simp only at hxy) <;> simp at hxy ⊢ <;> tauto) (by
    intro u v d
    unfold keep
    rw [Option.filter_eq_some_iff, h.map_iff]
    constructor
    · rintro ⟨⟨e, he, hd, hs⟩, hp⟩
      refine ⟨⟨u, v, d⟩, (hmem _).2 ⟨e, he, hp, ?_⟩, rfl, Or.inl ⟨rfl, rfl⟩⟩
      rcases hs with ⟨a, b⟩ | ⟨-, a, b⟩
      · left; cases e; simp at *; exact ⟨a.symm, b.symm, hd.symm⟩
      · right; cases e; simp at *; exact ⟨b.symm, a.symm, hd.symm⟩
    · rintro ⟨e', he', hd, hs⟩
      obtain ⟨e, he, hp, hc⟩ := (hmem e').1 he'
      have hs' : e'.src = u ∧ e'.dst = v := by
        rcases hs with hs | ⟨c, -⟩
        · exact hs
        · cases c
      rw [hs'.1, hs'.2, hd] at hp
      refine ⟨⟨e, he, ?_, ?_⟩, hp⟩
      · rcases hc with rfl | rfl <;> exact hd
      · rcases hc with rfl | rfl
        · exact Or.inl hs'
        · exact Or.inr ⟨rfl, hs'.2, hs'.1⟩)
  refine ⟨g', ?_, h4⟩
  unfold Graph.directedBy
  rw [h1, ok_bind, h2, ok_bind, he, h3]

/-! ## Vertices at both ends -/

/-- The same edges on a larger range of vertices. -/
theorem Good.extend (h : Good g dir lo n m) (a b : Nat) (h1 : I64 (lo - a)) (h2 : I64 (lo + n + b)) (h3 : I64 (a + n + b)) :
    Good { g with minId := lo - a, adj := List.replicate a [] ++ g.adj ++ List.replicate b [] } dir (lo - a) (a + n + b) m := by
  have hin : ∀ x, In lo n x → In (lo - a) (a + n + b) x := by
    intro x hx
    have := hx.1
    have := hx.2
    exact ⟨by omega, by push_cast; omega⟩
  refine ⟨h.isDir, rfl, by simp [h.size]; omega, ⟨h1, ?_, by push_cast; exact h3, h.simple.key, fun r hr => hin _ (h.simple.src r hr),
    fun r hr => hin _ (h.simple.dst r hr), h.simple.ne, h.simple.uniq⟩, ⟨?_, ?_⟩, h.map⟩
  · push_cast
    rw [show lo - (a : Int) + (a + n + b) = lo + n + b from by omega]
    exact h2
  · intro s hs
    simp only [List.mem_append] at hs
    rcases hs with (hs | hs) | hs
    · rw [List.eq_of_mem_replicate hs]; exact List.Pairwise.nil
    · exact h.adj.sorted s hs
    · rw [List.eq_of_mem_replicate hs]; exact List.Pairwise.nil
  · intro v s hs i
    simp only at hs ⊢
    have hno : ¬ In lo n (lo - a + (v : Int)) → s = [] → (i ∈ s ↔ i < g.edges.length ∧
        ∃ r, g.edges[i]? = some r ∧ Inc g.dir r (lo - a + (v : Int))) := by
      intro hn hs
      subst hs
      constructor
      · intro h; simp at h
      · rintro ⟨-, r, hr, hi⟩
        have hm := List.mem_of_getElem? hr
        rcases hi with hi | ⟨-, hi⟩
        · exact absurd (hi ▸ h.simple.src r hm) hn
        · exact absurd (hi ▸ h.simple.dst r hm) hn
    have hsz := h.size
    by_cases c1 : v < a
    · refine hno (fun hh => ?_) ?_
      · have := hh.1; omega
      · rw [List.append_assoc, List.getElem?_append_left (by simpa using c1)] at hs
        exact List.eq_of_mem_replicate (List.mem_of_getElem? hs)
    · by_cases c2 : v < a + n
      · rw [List.append_assoc, List.getElem?_append_right (by simp; omega), List.getElem?_append_left (by simp; omega)] at hs
        have := h.adj.mem _ s hs i
        rw [this, h.isLo]
        simp only [List.length_replicate]
        rw [show lo + ((v - a : Nat) : Int) = lo - a + v from by omega]
      · refine hno (fun hh => ?_) ?_
        · have := hh.2; omega
        · rw [List.getElem?_append_right (by simp; omega)] at hs
          exact List.eq_of_mem_replicate (List.mem_of_getElem? hs)

theorem foldlM_edges (g : Graph E) {σ : Type} (f : σ → Int → Int → E → Out σ) (s : σ) :
    g.edges.foldlM (fun s r => f s r.src r.dst r.data) s = g.getEdges.foldlM (fun s e => f s e.src e.dst e.data) s := by
  unfold Graph.getEdges
  rw [List.foldlM_map]

theorem Good.combine {o : Graph E} {lo' : Int} {n' : Nat} {m' : Map E} (h : Good g dir lo n m) (ho : Good o dir lo' n' m')
    (hfit : I64 (max (lo + n) (lo' + n') - min lo lo')) : ∃ g', g.combine o = .ok g' ∧
    Good g' dir (min lo lo') (max (lo + n) (lo' + n') - min lo lo').toNat (union m m') := by
  set a := (lo - lo').toNat with ha
  set b := (lo' + n' - (lo + n)).toNat with hb
  have hlo : lo - (a : Int) = min lo lo' := by omega
  have hhi : lo + n + (b : Int) = max (lo + n) (lo' + n') := by omega
  have hmin : I64 (min lo lo') := by
    rcases min_choice lo lo' with e | e <;> rw [e]
    · exact h.simple.lo64
    · exact ho.simple.lo64
  have hmax : I64 (max (lo + n) (lo' + n')) := by
    rcases max_choice (lo + n) (lo' + n') with e | e <;> rw [e]
    · exact h.simple.hi64
    · exact ho.simple.hi64
  have hext := h.extend a b (by rw [hlo]; exact hmin) (by rw [hhi]; exact hmax)
    (by rw [show ((a : Int) + n + b) = max (lo + n) (lo' + n') - min lo lo' from by omega]; exact hfit)
  obtain ⟨g', h1, h2⟩ := hext.addAll o.getEdges (by
    intro e he
    obtain ⟨h1, h2, h3⟩ := ho.valid e he
    have := h1.1
    have := h1.2
    have := h2.1
    have := h2.2
    refine ⟨⟨by omega, by push_cast; omega⟩, ⟨by omega, by push_cast; omega⟩, h3⟩)
  refine ⟨g', ?_, ?_⟩
  · unfold Graph.combine
    simp only [Graph.nodeCount, List.length_append, List.length_replicate, h.isLo, ho.isLo, h.size, ho.size]
    rw [← ha]
    have e1 : min lo lo' + ((a + n : Nat) : Int) = lo + n := by push_cast; omega
    rw [e1, chk_ok h.simple.hi64, ok_bind, chk_ok ho.simple.hi64, ok_bind, ← hb]
    rw [foldlM_edges o (fun (g : Graph E) u v d => g.add u v d), ← hlo]
    exact h1
  · rw [hlo, show a + n + b = (max (lo + n) (lo' + n') - min lo lo').toNat from by omega] at h2
    refine h2.congr fun u v => ?_
    unfold union
    cases hm : m' u v with
    | none =>
      rw [putAll_notin]
      · rfl
      · intro e he hs
        rw [(ho.map_iff u v e.data).2 ⟨e, he, rfl, hs⟩] at hm
        cases hm
    | some d =>
      obtain ⟨e, he, hd, hs⟩ := (ho.map_iff u v d).1 hm
      rw [putAll_mem _ _ u v e ho.uniq he hs, hd]
      rfl

theorem Good.append {o : Graph E} {lo' : Int} {n' : Nat} {m' : Map E} (h : Good g dir lo n m) (ho : Good o dir lo' n' m')
    (hfit : I64 (lo + n + n')) (hfit' : I64 (n + n' : Int)) (hdiff : I64 (lo + n - lo')) : ∃ g', g.append o = .ok g' ∧
    Good g' dir lo (n + n') (union m (shift m' (lo + n - lo'))) := by
  have hext := h.extend 0 n' (by simpa using h.simple.lo64) hfit (by simpa using hfit')
  simp only [Nat.cast_zero, sub_zero, List.replicate_zero, List.nil_append, Nat.zero_add] at hext
  obtain ⟨g', h1, h2⟩ := hext.addAll (o.getEdges.map fun e => ⟨e.src + (lo + n - lo'), e.dst + (lo + n - lo'), e.data⟩) (by
    intro e' he'
    obtain ⟨e, he, rfl⟩ := List.mem_map.1 he'
    obtain ⟨h1, h2, h3⟩ := ho.valid e he
    have := h1.1
    have := h1.2
    have := h2.1
    have := h2.2
    refine ⟨⟨by simp only; omega, by push_cast; omega⟩, ⟨by simp only; omega, by push_cast; omega⟩, by simp only; omega⟩)
  refine ⟨g', ?_, ?_⟩
  · unfold Graph.append
    simp only [Graph.nodeCount, h.isLo, ho.isLo, h.size, ho.size]
    rw [show (n : Int) + lo = lo + n from by omega, chk_ok h.simple.hi64, ok_bind, chk_ok hdiff, ok_bind]
    rw [List.foldlM_map] at h1
    rw [foldlM_edges o (fun (g : Graph E) u v d => do
      let u ← chk (u + (lo + n - lo'))
      let v ← chk (v + (lo + n - lo'))
      g.add u v d)]
    have e0 : (⟨g.dir, g.adj ++ List.replicate n' [], g.edges, lo⟩ : Graph E) = { g with adj := g.adj ++ List.replicate n' [] } := by
      rw [← h.isLo]
    rw [← h1]
    have hcong : ∀ (l : List (Edge E)) (s : Graph E), (∀ e ∈ l, e ∈ o.getEdges) → l.foldlM (fun g e => do
        let u ← chk (e.src + (lo + n - lo'))
        let v ← chk (e.dst + (lo + n - lo'))
        g.add u v e.data) s = l.foldlM (fun g e => g.add (e.src + (lo + n - lo')) (e.dst + (lo + n - lo')) e.data) s := by
      intro l
      induction l with
      | nil => intro s _; rfl
      | cons e l ih =>
        intro s hl
        obtain ⟨h1, h2, h3⟩ := ho.valid e (hl e (by simp))
        have a1 := h1.1
        have a2 := h1.2
        have a3 := h2.1
        have a4 := h2.2
        have b1 := h.simple.lo64.1
        have b2 := hfit.2
        rw [List.foldlM_cons, List.foldlM_cons, chk_ok ⟨by omega, by omega⟩, ok_bind, chk_ok ⟨by omega, by omega⟩, ok_bind]
        congr 1
        funext s
        exact ih s fun e he => hl e (by simp [he])
    rw [hcong o.getEdges _ fun _ h => h, e0]
  · refine h2.congr fun u v => ?_
    unfold union shift
    have hs' : ∀ e : Edge E, Same dir u v (e.src + (lo + n - lo')) (e.dst + (lo + n - lo')) ↔
        Same dir (u - (lo + n - lo')) (v - (lo + n - lo')) e.src e.dst := by
      intro e
      unfold Same
      constructor
      · rintro (⟨a, b⟩ | ⟨c, a, b⟩)
        · exact Or.inl ⟨by omega, by omega⟩
        · exact Or.inr ⟨c, by omega, by omega⟩
      · rintro (⟨a, b⟩ | ⟨c, a, b⟩)
        · exact Or.inl ⟨by omega, by omega⟩
        · exact Or.inr ⟨c, by omega, by omega⟩
    have huniq : Uniq dir (o.getEdges.map fun e => (⟨e.src + (lo + n - lo'), e.dst + (lo + n - lo'), e.data⟩ : Edge E)) := by
      unfold Uniq
      rw [List.pairwise_map]
      refine ho.uniq.imp ?_
      intro x y hxy hc
      apply hxy
      unfold EqEdge Same at *
      simp only at hc
      rcases hc with ⟨a, b⟩ | ⟨c, a, b⟩
      · exact Or.inl ⟨by omega, by omega⟩
      · exact Or.inr ⟨c, by omega, by omega⟩
    cases hm : m' (u - (lo + n - lo')) (v - (lo + n - lo')) with
    | none =>
      rw [putAll_notin]
      · rfl
      · intro e' he' hs
        obtain ⟨e, he, rfl⟩ := List.mem_map.1 he'
        rw [(ho.map_iff _ _ e.data).2 ⟨e, he, rfl, (hs' e).1 hs⟩] at hm
        cases hm
    | some d =>
      obtain ⟨e, he, hd, hs⟩ := (ho.map_iff _ _ d).1 hm
      rw [putAll_mem _ _ u v _ huniq (List.mem_map_of_mem he) ((hs' e).2 hs)]
      simp [hd]

end ICPC.Gen
