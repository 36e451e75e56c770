import Verif.Spec.GraphGen
import Verif.Lemmas.Shuffle

/-!
# The class invariant of `GraphType`
-/

namespace ICPC.Gen

open ICPC ICPC.Spec.EdgeMap

variable {E : Type}

/-! ## Exclusive or -/

theorem xorI_i64 (a b : Int) : I64 (xorI a b) := by
  unfold xorI I64
  have h1 := BitVec.toInt_lt (x := BitVec.ofInt 64 a ^^^ BitVec.ofInt 64 b)
  have h2 := BitVec.le_toInt (x := BitVec.ofInt 64 a ^^^ BitVec.ofInt 64 b)
  constructor
  · simpa using h2
  · simpa using h1

theorem ofInt_toInt {a : Int} (ha : I64 a) : (BitVec.ofInt 64 a).toInt = a := by
  rw [BitVec.toInt_ofInt]
  have h1 := ha.1
  have h2 := ha.2
  apply Int.bmod_eq_of_le <;> omega

theorem xorI_comm (a b : Int) : xorI a b = xorI b a := by unfold xorI; rw [BitVec.xor_comm]

theorem xorI_cancel {a b : Int} (ha : I64 a) : xorI (xorI a b) b = a := by
  unfold xorI
  rw [BitVec.ofInt_toInt, BitVec.xor_assoc, BitVec.xor_self, BitVec.xor_zero, ofInt_toInt ha]

theorem xorI_cancel_left {a b : Int} (hb : I64 b) : xorI (xorI a b) a = b := by
  rw [xorI_comm a b, xorI_cancel hb]

theorem xorI_inj {a b c : Int} (hb : I64 b) (hc : I64 c) (h : xorI a b = xorI a c) : b = c := by
  rw [← xorI_cancel_left (a := a) hb, h, xorI_cancel_left hc]

/-! ## Sets -/

/-- The set is in ascending order of keys. -/
def SetSorted (edges : List (Rec E)) (s : List Nat) : Prop := s.Pairwise fun i j => keyAt edges i < keyAt edges j

theorem setInsert_spec (edges : List (Rec E)) (i : Nat) : ∀ (s : List Nat), SetSorted edges s → (∀ j ∈ s, keyAt edges j ≠ keyAt edges i) →
    SetSorted edges (setInsert edges i s).1 ∧ (setInsert edges i s).2 = i ∧ ∀ j, j ∈ (setInsert edges i s).1 ↔ j = i ∨ j ∈ s
  | [], _, _ => by simp [setInsert, SetSorted]
  | k :: s, hs, hk => by
    have hs' := List.pairwise_cons.1 hs
    unfold setInsert
    split
    · rename_i h
      refine ⟨?_, rfl, fun j => by simp⟩
      refine List.pairwise_cons.2 ⟨?_, hs⟩
      intro j hj
      rcases List.mem_cons.1 hj with rfl | hj
      · exact h
      · exact lt_trans h (hs'.1 j hj)
    · rename_i h
      rw [if_pos (by have := hk k (by simp); omega)]
      obtain ⟨h1, h2, h3⟩ := setInsert_spec edges i s hs'.2 fun j hj => hk j (by simp [hj])
      refine ⟨?_, h2, ?_⟩
      · refine List.pairwise_cons.2 ⟨?_, h1⟩
        intro j hj
        rcases (h3 j).1 hj with rfl | hj
        · have := hk k (by simp)
          omega
        · exact hs'.1 j hj
      · intro j
        simp only [List.mem_cons, h3]
        tauto

theorem setErase_mem {edges : List (Rec E)} {s : List Nat} {i j : Nat} :
    j ∈ setErase edges s i ↔ j ∈ s ∧ keyAt edges j ≠ keyAt edges i := by
  unfold setErase; simp

theorem setErase_sorted {edges : List (Rec E)} {s : List Nat} {i : Nat} (h : SetSorted edges s) : SetSorted edges (setErase edges s i) :=
  List.Pairwise.filter _ h

/-! ## Edges -/

/-- The edge has an end at `w` from which it can be used. -/
def Inc (dir : Bool) (r : Rec E) (w : Int) : Prop := r.src = w ∨ (dir = false ∧ r.dst = w)

/-- Edges between different vertices, no two of them between the same pair. -/
structure Simple (dir : Bool) (lo : Int) (n : Nat) (edges : List (Rec E)) : Prop where
  lo64 : I64 lo
  hi64 : I64 (lo + n)
  n64 : I64 n
  key : ∀ r ∈ edges, I64 r.fromXorTo
  src : ∀ r ∈ edges, In lo n r.src
  dst : ∀ r ∈ edges, In lo n r.dst
  ne : ∀ r ∈ edges, r.src ≠ r.dst
  uniq : ∀ (i j : Nat) (r s : Rec E), edges[i]? = some r → edges[j]? = some s → Same dir r.src r.dst s.src s.dst → i = j

theorem in_i64 {lo : Int} {n : Nat} {u : Int} (h : In lo n u) (h1 : I64 lo) (h2 : I64 (lo + n)) : I64 u :=
  i64_of_le h1 h2 h.1 (le_of_lt h.2)

namespace Simple
variable {dir : Bool} {lo : Int} {n : Nat} {edges : List (Rec E)}

theorem key_eq (h : Simple dir lo n edges) {r : Rec E} (hr : r ∈ edges) : r.fromXorTo = xorI r.src r.dst := by
  unfold Rec.src
  exact (xorI_cancel (h.key r hr)).symm

theorem src64 (h : Simple dir lo n edges) {r : Rec E} (hr : r ∈ edges) : I64 r.src := in_i64 (h.src r hr) h.lo64 h.hi64
theorem dst64 (h : Simple dir lo n edges) {r : Rec E} (hr : r ∈ edges) : I64 r.dst := in_i64 (h.dst r hr) h.lo64 h.hi64

/-- An edge at `u` with the key of `u` and `v` joins `u` and `v`. -/
theorem joins (h : Simple dir lo n edges) {r : Rec E} (hr : r ∈ edges) {u v : Int} (hv : I64 v) (hi : Inc dir r u)
    (hk : r.fromXorTo = xorI u v) : Same dir u v r.src r.dst := by
  rw [h.key_eq hr] at hk
  rcases hi with hi | ⟨hd, hi⟩
  · subst hi
    exact Or.inl ⟨rfl, xorI_inj (h.dst64 hr) hv hk⟩
  · subst hi
    rw [xorI_comm] at hk
    exact Or.inr ⟨hd, xorI_inj (h.src64 hr) hv hk, rfl⟩

theorem key_of_joins (h : Simple dir lo n edges) {r : Rec E} (hr : r ∈ edges) {u v : Int} (hj : Same dir u v r.src r.dst) :
    Inc dir r u ∧ r.fromXorTo = xorI u v := by
  rw [h.key_eq hr]
  rcases hj with ⟨h1, h2⟩ | ⟨hd, h1, h2⟩
  · rw [h1, h2]; exact ⟨Or.inl h1, rfl⟩
  · rw [h1, h2, xorI_comm]; exact ⟨Or.inr ⟨hd, h2⟩, rfl⟩

/-- Edges at the same vertex have different keys. -/
theorem key_inj (h : Simple dir lo n edges) {i j : Nat} {r s : Rec E} (hi : edges[i]? = some r) (hj : edges[j]? = some s) {w : Int}
    (h1 : Inc dir r w) (h2 : Inc dir s w) (hk : r.fromXorTo = s.fromXorTo) : i = j := by
  have hr := List.mem_of_getElem? hi
  have hs := List.mem_of_getElem? hj
  have hw64 : I64 w := by
    rcases h1 with h1 | h1
    · rw [← h1]; exact h.src64 hr
    · rw [← h1.2]; exact h.dst64 hr
  obtain ⟨v, hv, hrv⟩ : ∃ v, I64 v ∧ r.fromXorTo = xorI w v := by
    rcases h1 with h1 | h1
    · exact ⟨r.dst, h.dst64 hr, by rw [h.key_eq hr, h1]⟩
    · exact ⟨r.src, h.src64 hr, by rw [h.key_eq hr, h1.2, xorI_comm]⟩
  have j1 := h.joins hr hv h1 hrv
  have j2 := h.joins hs hv h2 (hk ▸ hrv)
  refine h.uniq i j r s hi hj ?_
  unfold Same at *
  rcases j1 with ⟨a1, a2⟩ | ⟨a0, a1, a2⟩ <;> rcases j2 with ⟨b1, b2⟩ | ⟨b0, b1, b2⟩
  · exact Or.inl ⟨by omega, by omega⟩
  · exact Or.inr ⟨b0, by omega, by omega⟩
  · exact Or.inr ⟨a0, by omega, by omega⟩
  · exact Or.inl ⟨by omega, by omega⟩

end Simple

theorem keyAt_some {edges : List (Rec E)} {i : Nat} {r : Rec E} (h : edges[i]? = some r) : keyAt edges i = r.fromXorTo := by
  unfold keyAt; rw [h]; rfl

/-- The sets contain exactly the incident edges among those that satisfy `P`. -/
structure AdjOk (g : Graph E) (P : Nat → Prop) : Prop where
  sorted : ∀ s ∈ g.adj, SetSorted g.edges s
  mem : ∀ (v : Nat) (s : List Nat), g.adj[v]? = some s → ∀ i, i ∈ s ↔ P i ∧ ∃ r, g.edges[i]? = some r ∧ Inc g.dir r (g.minId + v)

theorem adjAt_ok (g : Graph E) {n : Nat} (hn : g.adj.length = n) {u : Int} (hu : In g.minId n u) :
    ∃ s, g.adjAt u = .ok s ∧ g.adj[(u - g.minId).toNat]? = some s ∧ g.minId + ((u - g.minId).toNat : Int) = u := by
  have h1 := hu.1
  have h2 := hu.2
  have hlt : (u - g.minId).toNat < g.adj.length := by omega
  refine ⟨g.adj[(u - g.minId).toNat], ?_, List.getElem?_eq_getElem hlt, by omega⟩
  unfold Graph.adjAt
  rw [if_pos (by omega), List.getElem?_eq_getElem hlt]

/-- Replacing one set. -/
theorem adjOk_set {g : Graph E} {v : Nat} {s' : List Nat} (hs : SetSorted g.edges s')
    (hold : ∀ s ∈ g.adj, SetSorted g.edges s) : ∀ s ∈ g.adj.set v s', SetSorted g.edges s := by
  intro s h
  rcases List.mem_or_eq_of_mem_set h with h | h
  · exact hold s h
  · exact h ▸ hs

/-- The edge with position `i` at the vertices that satisfy `W` has been entered. -/
structure AdjPart (g : Graph E) (P : Nat → Prop) (i : Nat) (W : Int → Prop) : Prop where
  sorted : ∀ s ∈ g.adj, SetSorted g.edges s
  mem : ∀ (v : Nat) (s : List Nat), g.adj[v]? = some s → ∀ j, j ∈ s ↔
    (P j ∨ (j = i ∧ W (g.minId + v))) ∧ ∃ r, g.edges[j]? = some r ∧ Inc g.dir r (g.minId + v)

theorem AdjPart.of_ok {g : Graph E} {P : Nat → Prop} (h : AdjOk g P) (i : Nat) : AdjPart g P i fun _ => False :=
  ⟨h.sorted, fun v s hs j => by rw [h.mem v s hs]; simp⟩

/-- `adj[w].emplace(i)`. -/
theorem insertAt_part {g : Graph E} {P : Nat → Prop} {i : Nat} {W : Int → Prop} {n : Nat} (hn : g.adj.length = n)
    (hsim : Simple g.dir g.minId n g.edges) (h : AdjPart g P i W) (hi : ¬ P i) {w : Int} (hw : In g.minId n w) (hW : ¬ W w)
    {r : Rec E} (hr : g.edges[i]? = some r) (hinc : Inc g.dir r w) :
    ∃ g', g.insertAt w i = .ok (g', i) ∧ g'.dir = g.dir ∧ g'.minId = g.minId ∧ g'.edges = g.edges ∧ g'.adj.length = n ∧
      AdjPart g' P i fun x => W x ∨ x = w := by
  obtain ⟨s, h1, h2, h3⟩ := adjAt_ok g hn hw
  have hmem := h.mem _ s h2
  rw [h3] at hmem
  have hkey : ∀ j ∈ s, keyAt g.edges j ≠ keyAt g.edges i := by
    intro j hj e
    obtain ⟨hj1, r', hr', hinc'⟩ := (hmem j).1 hj
    rw [keyAt_some hr', keyAt_some hr] at e
    have := hsim.key_inj hr' hr hinc' hinc e
    subst this
    rcases hj1 with hj1 | hj1
    · exact hi hj1
    · exact hW hj1.2
  obtain ⟨k1, k2, k3⟩ := setInsert_spec g.edges i s (h.sorted s (List.mem_of_getElem? h2)) hkey
  refine ⟨g.setAdj w (setInsert g.edges i s).1, ?_, rfl, rfl, rfl, by simp [Graph.setAdj, hn], ?_, ?_⟩
  · unfold Graph.insertAt
    rw [h1, ok_bind, k2, pure_out]
  · exact adjOk_set k1 h.sorted
  · intro v t ht j
    change (g.adj.set (w - g.minId).toNat (setInsert g.edges i s).1)[v]? = some t at ht
    change j ∈ t ↔ (P j ∨ (j = i ∧ (W (g.minId + v) ∨ g.minId + v = w))) ∧ ∃ r, g.edges[j]? = some r ∧ Inc g.dir r (g.minId + v)
    by_cases hv : v = (w - g.minId).toNat
    · subst hv
      rw [List.getElem?_set_self (List.getElem?_eq_some_iff.1 h2).1] at ht
      obtain rfl : _ = t := Option.some.inj ht
      rw [k3, hmem, h3]
      constructor
      · rintro (rfl | ⟨ha, hb⟩)
        · exact ⟨Or.inr ⟨rfl, Or.inr rfl⟩, r, hr, hinc⟩
        · refine ⟨?_, hb⟩
          rcases ha with ha | ha
          · exact Or.inl ha
          · exact Or.inr ⟨ha.1, Or.inl ha.2⟩
      · rintro ⟨ha, hb⟩
        rcases ha with ha | ⟨ha, -⟩
        · exact Or.inr ⟨Or.inl ha, hb⟩
        · exact Or.inl ha
    · rw [List.getElem?_set_ne (by omega)] at ht
      have hne : g.minId + (v : Int) ≠ w := by omega
      rw [h.mem v t ht]
      simp [hne]

/-- `addEdge(InternalEdge*)`. -/
theorem addInternal_ok {g : Graph E} {P : Nat → Prop} {i : Nat} {n : Nat} (hn : g.adj.length = n) (hsim : Simple g.dir g.minId n g.edges)
    (h : AdjOk g P) (hi : ¬ P i) (hlen : i < g.edges.length) :
    ∃ g', g.addInternal i = .ok (g', i) ∧ g'.dir = g.dir ∧ g'.minId = g.minId ∧ g'.edges = g.edges ∧ g'.adj.length = n ∧
      AdjOk g' fun j => P j ∨ j = i := by
  have hr : g.edges[i]? = some g.edges[i] := List.getElem?_eq_getElem hlen
  generalize g.edges[i] = r at hr
  have hmem := List.mem_of_getElem? hr
  have fin : ∀ g' : Graph E, g'.dir = g.dir → g'.minId = g.minId → g'.edges = g.edges → ∀ W, (∀ x, Inc g.dir r x → W x) →
      AdjPart g' P i W → AdjOk g' fun j => P j ∨ j = i := by
    intro g' e1 e2 e3 W hW hp
    refine ⟨hp.sorted, fun v s hs j => ?_⟩
    rw [hp.mem v s hs]
    constructor
    · rintro ⟨ha | ha, hb⟩
      · exact ⟨Or.inl ha, hb⟩
      · exact ⟨Or.inr ha.1, hb⟩
    · rintro ⟨ha | ha, r', hb, hc⟩
      · exact ⟨Or.inl ha, r', hb, hc⟩
      · refine ⟨Or.inr ⟨ha, ?_⟩, r', hb, hc⟩
        subst ha
        rw [e3, hr] at hb
        obtain rfl := Option.some.inj hb
        rw [e1] at hc
        exact hW _ hc
  unfold Graph.addInternal
  rw [hr]
  simp only
  by_cases hd : g.dir = true
  · rw [hd]
    simp only [Bool.not_true, Bool.false_and, Bool.false_eq_true, ↓reduceIte, pure_out, ok_bind]
    obtain ⟨g', h1, h2, h3, h4, h5, h6⟩ := insertAt_part hn hsim (AdjPart.of_ok h i) hi (hsim.src r hmem) id hr (Or.inl rfl)
    refine ⟨g', h1, h2.trans hd, h3, h4, h5, fin g' h2 h3 h4 _ ?_ h6⟩
    rintro x (hx | ⟨hx, -⟩)
    · exact Or.inr hx.symm
    · rw [hd] at hx; exact absurd hx (by simp)
  · have hd : g.dir = false := by simpa using hd
    obtain ⟨g1, h1, h2, h3, h4, h5, h6⟩ := insertAt_part hn hsim (AdjPart.of_ok h i) hi (hsim.dst r hmem) id hr (Or.inr ⟨hd, rfl⟩)
    rw [hd, decide_eq_true (hsim.ne r hmem), h1]
    simp only [Bool.not_false, Bool.and_self, ↓reduceIte, pure_out, ok_bind]
    have hne := hsim.ne r hmem
    obtain ⟨g', k1, k2, k3, k4, k5, k6⟩ := insertAt_part (g := g1) h5 (by rw [h2, h3, h4]; exact hsim) h6 hi
      (by rw [h3]; exact hsim.src r hmem) (by simpa using hne) (by rw [h4]; exact hr) (Or.inl rfl)
    refine ⟨g', k1, k2.trans (h2.trans hd), k3.trans h3, k4.trans h4, k5, fin g' (k2.trans h2) (k3.trans h3) (k4.trans h4) _ ?_ k6⟩
    rintro x (hx | ⟨-, hx⟩)
    · exact Or.inr hx.symm
    · exact Or.inl (Or.inr hx.symm)

/-- The class invariant: the edges are simple and the sets contain all of them; `m` is the abstract value. -/
structure Good (g : Graph E) (dir : Bool) (lo : Int) (n : Nat) (m : Map E) : Prop where
  isDir : g.dir = dir
  isLo : g.minId = lo
  size : g.adj.length = n
  simple : Simple dir lo n g.edges
  adj : AdjOk g fun i => i < g.edges.length
  map : ∀ u v d, m u v = some d ↔ ∃ r ∈ g.edges, r.data = d ∧ Same dir u v r.src r.dst

/-- `buildAdj` after all sets were cleared. -/
theorem buildAdj_ok {g : Graph E} {n : Nat} (hn : g.adj.length = n) (hsim : Simple g.dir g.minId n g.edges) (hempty : ∀ s ∈ g.adj, s = []) :
    ∃ g', g.buildAdj = .ok g' ∧ g'.dir = g.dir ∧ g'.minId = g.minId ∧ g'.edges = g.edges ∧ g'.adj.length = n ∧
      AdjOk g' fun i => i < g'.edges.length := by
  have key : ∀ k, k ≤ g.edges.length → ∃ g', (List.range k).foldlM (fun g i => do let x ← Graph.addInternal g i; pure x.1) g = .ok g' ∧
      g'.dir = g.dir ∧ g'.minId = g.minId ∧ g'.edges = g.edges ∧ g'.adj.length = n ∧ AdjOk g' fun i => i < k := by
    intro k
    induction k with
    | zero =>
      intro _
      refine ⟨g, rfl, rfl, rfl, rfl, hn, ?_, ?_⟩
      · intro s hs
        rw [hempty s hs]
        exact List.Pairwise.nil
      · intro v s hs i
        rw [hempty s (List.mem_of_getElem? hs)]
        simp
    | succ k ih =>
      intro hk
      obtain ⟨g1, h1, h2, h3, h4, h5, h6⟩ := ih (by omega)
      obtain ⟨g2, k1, k2, k3, k4, k5, k6⟩ := addInternal_ok (g := g1) h5 (by rw [h2, h3, h4]; exact hsim) h6 (i := k) (by omega) (by rw [h4]; omega)
      refine ⟨g2, ?_, k2.trans h2, k3.trans h3, k4.trans h4, k5, ?_⟩
      · rw [List.range_succ, List.foldlM_append, h1, ok_bind]
        simp [k1, ok_bind, pure_out]
      · refine ⟨k6.sorted, fun v s hs i => ?_⟩
        rw [k6.mem v s hs, show i < k ∨ i = k ↔ i < k + 1 from by omega]
  obtain ⟨g', h1, h2, h3, h4, h5, h6⟩ := key _ le_rfl
  exact ⟨g', h1, h2, h3, h4, h5, by rw [h4]; exact h6⟩

end ICPC.Gen
