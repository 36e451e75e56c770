import Verif.Lemmas.Simple2

/-!
# The status of the sweep line: one insertion, one removal
-/

namespace ICPC.Sweep
open ICPC ICPC.Spec

/-- Edge number `i` of a polygon as a segment. -/
def segOf (pts : List Pt) (i : Nat) : Seg :=
  let a := vertex pts i
  let b := vertex pts (i + 1)
  ⟨if swapped a b then b else a, if swapped a b then a else b, i⟩

@[simp] theorem segOf_id (pts : List Pt) (i : Nat) : (segOf pts i).id = i := rfl

theorem segOf_cases (pts : List Pt) (i : Nat) :
    ((segOf pts i).l = vertex pts i ∧ (segOf pts i).r = vertex pts (i + 1)) ∨
    ((segOf pts i).l = vertex pts (i + 1) ∧ (segOf pts i).r = vertex pts i) := by
  unfold segOf
  dsimp only
  split
  · right; exact ⟨rfl, rfl⟩
  · left; exact ⟨rfl, rfl⟩

theorem onEdge_iff (pts : List Pt) (i : Nat) (p : ℝ × ℝ) :
    OnEdge pts i p ↔ OnSegment (segOf pts i).l (segOf pts i).r p := by
  unfold OnEdge
  rcases segOf_cases pts i with ⟨h1, h2⟩ | ⟨h1, h2⟩
  · rw [h1, h2]
  · rw [h1, h2, onSegment_comm]

theorem vertex_small {pts : List Pt} (hsm : ∀ p ∈ pts, Small p) (i : Nat) : Small (vertex pts i) := by
  unfold vertex
  rw [List.getD_eq_getElem?_getD]
  cases h : pts[i % pts.length]? with
  | none => exact ⟨⟨by norm_num, by norm_num⟩, by norm_num, by norm_num⟩
  | some p => exact hsm p (List.mem_of_getElem? h)

theorem vertex_mod (pts : List Pt) (i : Nat) : vertex pts (i % pts.length) = vertex pts i := by
  unfold vertex
  rw [Nat.mod_mod]

theorem vertex_mod_succ (pts : List Pt) (i : Nat) : vertex pts (i % pts.length + 1) = vertex pts (i + 1) := by
  unfold vertex
  rw [Nat.mod_add_mod]

theorem segOf_proper {pts : List Pt} (hsm : ∀ p ∈ pts, Small p) {i : Nat} (hne : vertex pts i ≠ vertex pts (i + 1)) :
    Proper (segOf pts i) := by
  have h1 := vertex_small hsm i
  have h2 := vertex_small hsm (i + 1)
  have key : X (segOf pts i).l < X (segOf pts i).r := by
    unfold segOf
    dsimp only
    by_cases hsw : swapped (vertex pts i) (vertex pts (i + 1)) = true
    · rw [if_pos hsw, if_pos hsw, X_lt h2 h1]
      simp only [swapped, Bool.or_eq_true, Bool.and_eq_true, decide_eq_true_eq] at hsw
      omega
    · rw [if_neg hsw, if_neg hsw, X_lt h1 h2]
      simp only [swapped, Bool.or_eq_true, Bool.and_eq_true, decide_eq_true_eq] at hsw
      by_contra h3
      apply hne
      apply Prod.ext <;> omega
  rcases segOf_cases pts i with ⟨h3, h4⟩ | ⟨h3, h4⟩
  · exact ⟨h3 ▸ h1, h4 ▸ h2, key⟩
  · exact ⟨h3 ▸ h2, h4 ▸ h1, key⟩

/-- A polygon with at least three vertices, small coordinates and no spikes. -/
structure Poly (pts : List Pt) : Prop where
  small : ∀ p ∈ pts, Small p
  three : 3 ≤ pts.length
  ne : ∀ i < pts.length, vertex pts i ≠ vertex pts (i + 1)
  spike : ∀ i < pts.length, ∀ p, OnEdge pts i p → OnEdge pts (i + 1) p → IsVertex pts (i + 1) p

theorem Poly.proper {pts : List Pt} (h : Poly pts) {i : Nat} (hi : i < pts.length) : Proper (segOf pts i) :=
  segOf_proper h.small (h.ne i hi)

theorem onEdge_mod (pts : List Pt) (i : Nat) (p : ℝ × ℝ) : OnEdge pts (i % pts.length) p ↔ OnEdge pts i p := by
  unfold OnEdge
  rw [vertex_mod, vertex_mod_succ]

theorem adj_cases {n i j : Nat} (hi : i < n) (hj : j < n) (h3 : 3 ≤ n) (h : Adj n i j) :
    (j = (i + 1) % n) ∨ (i = (j + 1) % n) := by
  unfold Adj distN at h
  by_cases hij : i > j
  · rw [if_pos hij] at h
    rcases h with h | h
    · right
      rw [Nat.mod_eq_of_lt (by omega)]
      omega
    · left
      have : i + 1 = n := by omega
      rw [this, Nat.mod_self]
      omega
  · rw [if_neg hij] at h
    rcases h with h | h
    · left
      rw [Nat.mod_eq_of_lt (by omega)]
      omega
    · right
      have : j + 1 = n := by omega
      rw [this, Nat.mod_self]
      omega

/-- A common point of neighbours is the vertex between them. -/
theorem Poly.common {pts : List Pt} (h : Poly pts) {i : Nat} (hi : i < pts.length) {j : Nat}
    (hj : j < pts.length) (hji : j = (i + 1) % pts.length) {x : ℝ} (h1 : In (segOf pts i) x) (h2 : In (segOf pts j) x)
    (h3 : line (segOf pts i) x = line (segOf pts j) x) : x = X (vertex pts (i + 1)) := by
  have e : (4294967296 * ((x - line (segOf pts i) x) / 4294967296) + line (segOf pts i) x : ℝ) = x := by ring
  have key := h.spike i hi ((x - line (segOf pts i) x) / 4294967296, line (segOf pts i) x) ?_ ?_
  · unfold IsVertex at key
    rw [Prod.mk.injEq] at key
    obtain ⟨k1, k2⟩ := key
    rw [k1, k2] at e
    rw [← e]
    simp only [X]
    push_cast
    ring
  · rw [onEdge_iff, on_iff (h.proper hi)]
    simp only [e]
    exact ⟨h1, trivial⟩
  · rw [← onEdge_mod, ← hji, onEdge_iff, on_iff (h.proper hj)]
    simp only [e]
    exact ⟨h2, h3⟩

theorem Poly.shared {pts : List Pt} (h : Poly pts) {i j : Nat} (hi : i < pts.length) (hj : j < pts.length)
    (hadj : Adj pts.length i j) {x : ℝ} (h1 : In (segOf pts i) x) (h2 : In (segOf pts j) x)
    (h3 : line (segOf pts i) x = line (segOf pts j) x) :
    (j = (i + 1) % pts.length ∧ x = X (vertex pts (i + 1))) ∨ (i = (j + 1) % pts.length ∧ x = X (vertex pts i)) := by
  rcases adj_cases hi hj h.three hadj with h4 | h4
  · exact Or.inl ⟨h4, h.common hi hj h4 h1 h2 h3⟩
  · refine Or.inr ⟨h4, ?_⟩
    have := h.common hj hi h4 h2 h1 h3.symm
    rw [this, ← vertex_mod pts (j + 1), ← h4]

theorem vertex_end (pts : List Pt) (i : Nat) {x : ℝ} (h : x = X (vertex pts i) ∨ x = X (vertex pts (i + 1))) :
    x = X (segOf pts i).l ∨ x = X (segOf pts i).r := by
  rcases segOf_cases pts i with ⟨h1, h2⟩ | ⟨h1, h2⟩
  · rw [h1, h2]; exact h
  · rw [h1, h2]; exact h.symm

theorem Poly.onlyEnd {pts : List Pt} (h : Poly pts) {i j : Nat} (hi : i < pts.length) (hj : j < pts.length) :
    OnlyEnd pts.length (segOf pts i) (segOf pts j) := by
  intro hadj x h1 h2 h3
  have h3n := h.three
  have hs := h.shared hi hj hadj h1 h2 h3
  refine ⟨vertex_end pts i ?_, vertex_end pts j ?_, ?_⟩
  · rcases hs with ⟨-, hs⟩ | ⟨-, hs⟩
    · exact Or.inr hs
    · exact Or.inl hs
  · rcases hs with ⟨ha, hs⟩ | ⟨ha, hs⟩
    · left; rw [hs, ha, vertex_mod]
    · right; rw [hs, ha, vertex_mod]
  · intro y h4 h5 h6
    have hs' := h.shared hi hj hadj h4 h5 h6
    have contra : j = (i + 1) % pts.length → i = (j + 1) % pts.length → False := by
      intro ha hb
      rw [ha, Nat.mod_add_mod] at hb
      rcases lt_or_ge (i + 2) pts.length with hlt | hge
      · rw [show i + 1 + 1 = i + 2 by omega, Nat.mod_eq_of_lt hlt] at hb
        omega
      · rw [show i + 1 + 1 = (i + 2 - pts.length) + pts.length by omega, Nat.add_mod_right,
          Nat.mod_eq_of_lt (by omega)] at hb
        omega
    rcases hs with ⟨ha, hs⟩ | ⟨ha, hs⟩
    · rcases hs' with ⟨hb, hs'⟩ | ⟨hb, hs'⟩
      · rw [hs, hs']
      · exact (contra ha hb).elim
    · rcases hs' with ⟨hb, hs'⟩ | ⟨hb, hs'⟩
      · exact (contra hb ha).elim
      · rw [hs, hs']

/-- No three edges touch in one point if the first and the last are neighbours of the second. -/
theorem Poly.no_three {pts : List Pt} (h : Poly pts) {i j k : Nat} (hi : i < pts.length) (hj : j < pts.length)
    (hk : k < pts.length) (hjk : j ≠ k) (a1 : Adj pts.length i j) (a2 : Adj pts.length i k) {x : ℝ}
    (h1 : In (segOf pts i) x) (h2 : In (segOf pts j) x) (h3 : In (segOf pts k) x)
    (e1 : line (segOf pts i) x = line (segOf pts j) x) (e2 : line (segOf pts i) x = line (segOf pts k) x) : False := by
  have h3n := h.three
  have ne : (X (vertex pts (i + 1)) : ℝ) ≠ X (vertex pts i) := by
    intro hc
    exact h.ne i hi (X_inj (vertex_small h.small _) (vertex_small h.small _) (by exact_mod_cast hc.symm))
  have inj : i = (j + 1) % pts.length → i = (k + 1) % pts.length → False := by
    intro hc hd
    rcases lt_or_ge (j + 1) pts.length with h5 | h5
    · rw [Nat.mod_eq_of_lt h5] at hc
      rcases lt_or_ge (k + 1) pts.length with h6 | h6
      · rw [Nat.mod_eq_of_lt h6] at hd
        omega
      · rw [show k + 1 = pts.length by omega, Nat.mod_self] at hd
        omega
    · rw [show j + 1 = pts.length by omega, Nat.mod_self] at hc
      rcases lt_or_ge (k + 1) pts.length with h6 | h6
      · rw [Nat.mod_eq_of_lt h6] at hd
        omega
      · omega
  rcases h.shared hi hj a1 h1 h2 e1 with ⟨b1, c1⟩ | ⟨b1, c1⟩
  · rcases h.shared hi hk a2 h1 h3 e2 with ⟨b2, c2⟩ | ⟨b2, c2⟩
    · omega
    · exact ne (c1.symm.trans c2)
  · rcases h.shared hi hk a2 h1 h3 e2 with ⟨b2, c2⟩ | ⟨b2, c2⟩
    · exact ne (c2.symm.trans c1)
    · exact inj b1 b2

/-- Two edges that are not neighbours have a common point. -/
def Crossing (pts : List Pt) : Prop :=
  ∃ i j, i < pts.length ∧ j < pts.length ∧ i ≠ j ∧ ¬ Adj pts.length i j ∧ Meet (segOf pts i) (segOf pts j)

/-- The status of the sweep line: different edges of the polygon, each below the next. -/
structure Status (pts : List Pt) (A : List Seg) : Prop where
  edge : ∀ s ∈ A, s.id < pts.length ∧ s = segOf pts s.id
  nodup : (A.map Seg.id).Nodup
  bel : ∀ k (h : k + 1 < A.length), Bel pts.length A[k] A[k + 1]

theorem Status.proper {pts : List Pt} (hp : Poly pts) {A : List Seg} (h : Status pts A) {s : Seg} (hs : s ∈ A) :
    Proper s := by
  obtain ⟨h1, h2⟩ := h.edge s hs
  rw [h2]
  exact hp.proper h1

theorem Status.id_ne {pts : List Pt} {A : List Seg} (h : Status pts A) {i j : Nat} (hi : i < A.length) (hj : j < A.length)
    (hij : i ≠ j) : A[i].id ≠ A[j].id := by
  intro hc
  apply hij
  have := (List.nodup_iff_injective_getElem.1 h.nodup)
  have h2 := @this ⟨i, by simpa using hi⟩ ⟨j, by simpa using hj⟩ (by simpa using hc)
  simpa using h2

theorem Status.mono {pts : List Pt} {A : List Seg} (h : Status pts A) {x : ℝ} (hx : ∀ s ∈ A, In s x) :
    ∀ d i (hd : i + d < A.length), line (A[i]'(by omega)) x ≤ line A[i + d] x := by
  intro d
  induction d with
  | zero => intro i hd; exact le_rfl
  | succ d ih =>
    intro i hd
    refine (ih i (by omega)).trans ?_
    exact (h.bel (i + d) hd x (hx _ (List.getElem_mem _)) (hx _ (List.getElem_mem _))).1

/-- The segments at abscissa `x` are sorted, and only neighbours are equal. -/
theorem Status.sorted {pts : List Pt} (hp : Poly pts) {A : List Seg} (h : Status pts A) {x : ℝ} (hx : ∀ s ∈ A, In s x)
    {i j : Nat} (hij : i < j) (hj : j < A.length) :
    line (A[i]'(by omega)) x ≤ line A[j] x ∧
    (line (A[i]'(by omega)) x = line A[j] x → j = i + 1 ∧ Adj pts.length (A[i]'(by omega)).id A[j].id) := by
  have hm := h.mono hx
  have h1 : line (A[i]'(by omega)) x ≤ line A[j] x := by
    have := hm (j - i) i (by omega)
    simpa only [show i + (j - i) = j by omega] using this
  refine ⟨h1, fun heq => ?_⟩
  by_cases hji : j = i + 1
  · subst hji
    exact ⟨rfl, (h.bel i hj x (hx _ (List.getElem_mem _)) (hx _ (List.getElem_mem _))).2 heq⟩
  · exfalso
    have a := h.bel i (by omega) x (hx _ (List.getElem_mem _)) (hx _ (List.getElem_mem _))
    have b := h.bel (i + 1) (by omega) x (hx _ (List.getElem_mem _)) (hx _ (List.getElem_mem _))
    have c : line (A[i + 1 + 1]'(by omega)) x ≤ line A[j] x := by
      have := hm (j - (i + 1 + 1)) (i + 1 + 1) (by omega)
      simpa only [show i + 1 + 1 + (j - (i + 1 + 1)) = j by omega] using this
    have e1 : line (A[i]'(by omega)) x = line (A[i + 1]'(by omega)) x := le_antisymm a.1 (by linarith [b.1])
    have e2 : line (A[i + 1]'(by omega)) x = line (A[i + 1 + 1]'(by omega)) x := le_antisymm b.1 (by linarith [a.1])
    have ha := adj_comm.1 (a.2 e1)
    have hb := b.2 e2
    have m0 := h.edge _ (List.getElem_mem (l := A) (n := i) (by omega))
    have m1 := h.edge _ (List.getElem_mem (l := A) (n := i + 1) (by omega))
    have m2 := h.edge _ (List.getElem_mem (l := A) (n := i + 1 + 1) (by omega))
    have x0 := hx _ (List.getElem_mem (l := A) (n := i) (by omega))
    have x1 := hx _ (List.getElem_mem (l := A) (n := i + 1) (by omega))
    have x2 := hx _ (List.getElem_mem (l := A) (n := i + 1 + 1) (by omega))
    have hne := h.id_ne (i := i) (j := i + 1 + 1) (by omega) (by omega) (by omega)
    refine hp.no_three m1.1 m0.1 m2.1 hne ha hb (x := x) ?_ ?_ ?_ ?_ ?_
    · rw [← m1.2]; exact x1
    · rw [← m0.2]; exact x0
    · rw [← m2.2]; exact x2
    · rw [← m1.2, ← m0.2]; exact e1.symm
    · rw [← m1.2, ← m2.2]; exact e2

/-! ### Removal -/

theorem segAt_lt {A : List Seg} {k : Nat} (h : k < A.length) : segAt A k = .ok A[k] := by
  unfold segAt
  rw [List.getElem?_eq_getElem h]

theorem Status.onlyEnd {pts : List Pt} (hp : Poly pts) {A : List Seg} (h : Status pts A) {s o : Seg} (hs : s ∈ A)
    (ho : o ∈ A) : OnlyEnd pts.length s o := by
  have h1 := h.edge s hs
  have h2 := h.edge o ho
  rw [h1.2, h2.2]
  exact hp.onlyEnd h1.1 h2.1

theorem crossing_of {pts : List Pt} {s o : Seg} (h1 : s.id < pts.length ∧ s = segOf pts s.id)
    (h2 : o.id < pts.length ∧ o = segOf pts o.id) (hne : s.id ≠ o.id) (h : Meet s o ∧ ¬ Adj pts.length s.id o.id) :
    Crossing pts :=
  ⟨s.id, o.id, h1.1, h2.1, hne, h.2, by rw [← h1.2, ← h2.2]; exact h.1⟩

theorem sweepRemove_ok {pts : List Pt} (hp : Poly pts) {A : List Seg} (h : Status pts A) {i : Nat} {q : ℝ}
    (hi : i ∈ A.map Seg.id) (hx : ∀ s ∈ A, In s q) :
    (sweepRemove pts.length i A = .ok none ∧ Crossing pts) ∨
    ∃ A', sweepRemove pts.length i A = .ok (some A') ∧ Status pts A' ∧
      ∀ j, j ∈ A'.map Seg.id ↔ j ∈ A.map Seg.id ∧ j ≠ i := by
  obtain ⟨s, hs, rfl⟩ := List.mem_map.1 hi
  obtain ⟨k, hk⟩ : ∃ k, A.findIdx? (fun t => t.id == s.id) = some k := by
    rw [← Option.isSome_iff_exists, List.findIdx?_isSome, List.any_eq_true]
    exact ⟨s, hs, by simp⟩
  obtain ⟨hklt, hkid, -⟩ := List.findIdx?_eq_some_iff_getElem.1 hk
  rw [beq_iff_eq] at hkid
  have hedge : ∀ t ∈ A.eraseIdx k, t.id < pts.length ∧ t = segOf pts t.id :=
    fun t ht => h.edge t (List.mem_of_mem_eraseIdx ht)
  have hnodup : ((A.eraseIdx k).map Seg.id).Nodup := h.nodup.sublist ((List.eraseIdx_sublist A k).map _)
  have hmem : ∀ j, j ∈ (A.eraseIdx k).map Seg.id ↔ j ∈ A.map Seg.id ∧ j ≠ s.id := by
    intro j
    constructor
    · intro hj
      obtain ⟨t, ht, rfl⟩ := List.mem_map.1 hj
      obtain ⟨m, hm, hmk, rfl⟩ := List.mem_eraseIdx_iff_getElem.1 ht
      refine ⟨List.mem_map_of_mem (List.getElem_mem _), ?_⟩
      rw [← hkid]
      exact h.id_ne _ _ hmk
    · rintro ⟨hj, hne⟩
      obtain ⟨t, ht, rfl⟩ := List.mem_map.1 hj
      obtain ⟨m, hm, rfl⟩ := List.getElem_of_mem ht
      refine List.mem_map_of_mem (List.mem_eraseIdx_iff_getElem.2 ⟨m, hm, ?_, rfl⟩)
      rintro rfl
      exact hne hkid
  have hlen : (A.eraseIdx k).length = A.length - 1 := List.length_eraseIdx_of_lt hklt
  -- the order, given the new pair of neighbours
  have hbel : (∀ (h0 : k ≠ 0) (h2 : k - 1 < A.length) (h1 : k + 1 < A.length), Bel pts.length A[k - 1] A[k + 1]) →
      ∀ m (hm : m + 1 < (A.eraseIdx k).length), Bel pts.length (A.eraseIdx k)[m] (A.eraseIdx k)[m + 1] := by
    intro hnew m hm
    rw [hlen] at hm
    rw [List.getElem_eraseIdx, List.getElem_eraseIdx]
    by_cases h1 : m + 1 < k
    · rw [dif_pos h1, dif_pos (by omega)]
      exact h.bel m (by omega)
    · rw [dif_neg h1]
      by_cases h2 : m < k
      · rw [dif_pos h2]
        have hmk : m = k - 1 := by omega
        subst hmk
        have := hnew (by omega) (by omega) (by omega)
        simpa only [show k - 1 + 1 + 1 = k + 1 by omega] using this
      · rw [dif_neg h2]
        exact h.bel (m + 1) (by omega)
  unfold sweepRemove
  rw [hk]
  dsimp only
  by_cases hcond : k ≠ 0 ∧ k < (A.eraseIdx k).length
  · obtain ⟨h0, h1⟩ := hcond
    have h1' : k + 1 < A.length := by clear hbel; omega
    have es : (A.eraseIdx k)[k] = A[k + 1] := by
      rw [List.getElem_eraseIdx, dif_neg (by omega)]
    have eo : (A.eraseIdx k)[k - 1]'(by omega) = A[k - 1]'(by omega) := by
      rw [List.getElem_eraseIdx, dif_pos (by omega)]
    have ms : A[k + 1] ∈ A := List.getElem_mem _
    have mo : A[k - 1]'(by omega) ∈ A := List.getElem_mem _
    have hbad : hitsPrev pts.length (A.eraseIdx k) k = segIntersect pts.length A[k + 1] (A[k - 1]'(by omega)) := by
      unfold hitsPrev
      rw [if_pos ⟨h0, h1⟩, segAt_lt h1, ok_bind, segAt_lt (by omega), ok_bind, es, eo]
    obtain ⟨b, hb, hbi⟩ := segIntersect_ok (n := pts.length) (h.proper hp ms) (h.proper hp mo) (hx _ ms) (hx _ mo)
    rw [hbad, hb, ok_bind]
    cases b with
    | true =>
      left
      exact ⟨rfl, crossing_of (h.edge _ ms) (h.edge _ mo) (h.id_ne _ _ (by omega)) (hbi.1 rfl)⟩
    | false =>
      right
      refine ⟨A.eraseIdx k, rfl, ⟨hedge, hnodup, hbel fun _ _ _ => ?_⟩, hmem⟩
      have hsort := h.sorted hp hx (i := k - 1) (j := k + 1) (by omega) h1'
      refine bel_of_strict (hx _ mo) (hx _ ms) (lt_of_le_of_ne hsort.1 fun hc => ?_) ?_ (h.onlyEnd hp mo ms)
      · have := (hsort.2 hc).1
        omega
      · rintro ⟨hm, hna⟩
        exact absurd (hbi.2 ⟨hm.symm, fun hc => hna (adj_comm.1 hc)⟩) (by simp)
  · right
    have hbad : hitsPrev pts.length (A.eraseIdx k) k = .ok false := by
      unfold hitsPrev
      rw [if_neg hcond]
    rw [hbad, ok_bind]
    refine ⟨A.eraseIdx k, rfl, ⟨hedge, hnodup, hbel fun h0 _ h1 => ?_⟩, hmem⟩
    exact absurd ⟨h0, by omega⟩ hcond

/-! ### Insertion -/

/-- What the descent in the search tree finds. -/
theorem descend_ok {pick : Nat → Nat → Nat} {s : Seg} {A : List Seg} (hs : Proper s) (hA : ∀ o ∈ A, Proper o) :
    ∀ f lo hi, lo ≤ hi → hi ≤ A.length → hi - lo ≤ f →
      (∀ (_ : lo ≠ 0) (h2 : lo - 1 < A.length), ltP s A[lo - 1] = false) →
      (∀ h : hi < A.length, ltP s A[hi] = true) →
      ∃ k, descend pick s A f lo hi = .ok k ∧ k ≤ A.length ∧
        (∀ (_ : k ≠ 0) (h2 : k - 1 < A.length), ltP s A[k - 1] = false) ∧
        (∀ h : k < A.length, ltP s A[k] = true) := by
  intro f
  induction f with
  | zero =>
    intro lo hi h1 h2 h3 h4 h5
    have : lo = hi := by omega
    subst this
    exact ⟨lo, rfl, h2, h4, h5⟩
  | succ f ih =>
    intro lo hi h1 h2 h3 h4 h5
    unfold descend
    by_cases hlt : lo < hi
    · rw [if_pos hlt]
      dsimp only
      generalize hm : max lo (min (pick lo hi) (hi - 1)) = m
      have hm1 : lo ≤ m := by omega
      have hm2 : m < hi := by omega
      have hml : m < A.length := by omega
      rw [segAt_lt hml, ok_bind, segLt_ok hs (hA _ (List.getElem_mem _)), ok_bind]
      cases hb : ltP s A[m] with
      | true =>
        simp only [if_true]
        exact ih lo m hm1 (by omega) (by omega) h4 (fun _ => hb)
      | false =>
        simp only [Bool.false_eq_true, if_false]
        exact ih (m + 1) hi (by omega) h2 (by omega) (fun _ _ => by simpa using hb) h5
    · rw [if_neg hlt]
      have : lo = hi := by omega
      subst this
      exact ⟨lo, rfl, h2, h4, h5⟩

theorem ptAt_vertex {pts : List Pt} {i : Nat} (hi : i < pts.length) : ptAt pts i = .ok (vertex pts i) := by
  unfold ptAt vertex
  rw [Nat.mod_eq_of_lt hi, List.getElem?_eq_getElem hi, List.getD_eq_getElem?_getD, List.getElem?_eq_getElem hi]
  rfl

theorem sweepInsert_ok {pts : List Pt} (hp : Poly pts) {A : List Seg} (h : Status pts A) {i : Nat} (hi : i < pts.length)
    (hni : i ∉ A.map Seg.id) (hx : ∀ s ∈ A, In s (X (segOf pts i).l)) (pick : Nat → Nat → Nat) :
    (sweepInsert pick pts (swapped (vertex pts i) (vertex pts (i + 1))) i A = .ok none ∧ Crossing pts) ∨
    ∃ A', sweepInsert pick pts (swapped (vertex pts i) (vertex pts (i + 1))) i A = .ok (some A') ∧ Status pts A' ∧
      ∀ j, j ∈ A'.map Seg.id ↔ j ∈ A.map Seg.id ∨ j = i := by
  have hs := hp.proper hi
  have hmod : (i + 1) % pts.length < pts.length := Nat.mod_lt _ (by omega)
  obtain ⟨k, hk, hkl, hkprev, hknext⟩ := descend_ok (pick := pick) hs (fun o ho => h.proper hp ho) A.length 0 A.length
    (by omega) le_rfl (by omega) (fun h => absurd rfl h) (fun h => absurd h (lt_irrefl _))
  have hmk : (⟨if swapped (vertex pts i) (vertex pts (i + 1)) then vertex pts (i + 1) else vertex pts i,
      if swapped (vertex pts i) (vertex pts (i + 1)) then vertex pts i else vertex pts (i + 1), i⟩ : Seg) = segOf pts i := rfl
  unfold sweepInsert
  rw [ptAt_vertex hi, ok_bind, ptAt_vertex hmod, ok_bind, vertex_mod, hmk]
  dsimp only
  rw [hk, ok_bind]
  have hsid : ∀ o ∈ A, o.id ≠ (segOf pts i).id := by
    intro o ho hc
    exact hni (List.mem_map.2 ⟨o, ho, hc⟩)
  have hsedge : (segOf pts i).id < pts.length ∧ segOf pts i = segOf pts (segOf pts i).id := ⟨hi, rfl⟩
  generalize hseg : segOf pts i = s at *
  have hsidi : s.id = i := by rw [← hseg]; rfl
  have hend : ∀ o ∈ A, OnlyEnd pts.length s o := by
    intro o ho
    have h2 := h.edge o ho
    rw [h2.2, ← hseg]
    exact hp.onlyEnd hi h2.1
  have hsin : In s (X s.l) := ⟨le_rfl, hs.lt'.le⟩
  have hlen : (A.insertIdx k s).length = A.length + 1 := List.length_insertIdx_of_le_length hkl s
  -- whether the set takes the segment
  obtain ⟨fits, hfits, hfit⟩ : ∃ b, fitsAfter A k s = .ok b ∧
      ((b = false ∧ Crossing pts) ∨ (b = true ∧ ∀ (h0 : k ≠ 0) (h2 : k - 1 < A.length), ltP A[k - 1] s = true)) := by
    unfold fitsAfter
    by_cases h0 : k = 0
    · exact ⟨true, by rw [if_pos h0], Or.inr ⟨rfl, fun hc => absurd h0 hc⟩⟩
    · have hk1 : k - 1 < A.length := by omega
      have hm : A[k - 1] ∈ A := List.getElem_mem _
      rw [if_neg h0, segAt_lt hk1, ok_bind, segLt_ok (h.proper hp hm) hs]
      refine ⟨_, rfl, ?_⟩
      cases hb : ltP A[k - 1] s with
      | true => exact Or.inr ⟨rfl, fun _ _ => hb⟩
      | false =>
        left
        exact ⟨rfl, crossing_of (h.edge _ hm) hsedge (hsid _ hm)
          (meet_of_equiv (h.proper hp hm) hs (hx _ hm) (hkprev h0 hk1) hb (hend _ hm).symm)⟩
  rw [hfits, ok_bind]
  rcases hfit with ⟨rfl, hcr⟩ | ⟨rfl, hprev⟩
  · left
    exact ⟨rfl, hcr⟩
  simp only [Bool.not_true, Bool.false_eq_true, if_false]
  have ek : (A.insertIdx k s)[k]'(by omega) = s := List.getElem_insertIdx_self _
  -- the two tests
  obtain ⟨b1, hb1, hc1⟩ : ∃ b, hitsPrev pts.length (A.insertIdx k s) k = .ok b ∧
      ((b = true ∧ Crossing pts) ∨ (b = false ∧ ∀ (h0 : k ≠ 0) (h2 : k - 1 < A.length), Bel pts.length A[k - 1] s)) := by
    unfold hitsPrev
    by_cases h0 : k = 0
    · exact ⟨false, by rw [if_neg (by omega)], Or.inr ⟨rfl, fun hc => absurd h0 hc⟩⟩
    · have hk1 : k - 1 < A.length := by omega
      have hm : A[k - 1] ∈ A := List.getElem_mem _
      have eo : (A.insertIdx k s)[k - 1]'(by omega) = A[k - 1] := List.getElem_insertIdx_of_lt (by omega) _
      rw [if_pos ⟨h0, by omega⟩, segAt_lt (by omega), ok_bind, segAt_lt (by omega), ok_bind, ek, eo]
      obtain ⟨b, hb, hbi⟩ := segIntersect_ok (n := pts.length) hs (h.proper hp hm) hsin (hx _ hm)
      refine ⟨b, hb, ?_⟩
      cases b with
      | true => exact Or.inl ⟨rfl, crossing_of hsedge (h.edge _ hm) (hsid _ hm).symm (hbi.1 rfl)⟩
      | false =>
        right
        refine ⟨rfl, fun _ _ => bel_insert_below (h.proper hp hm) hs (hx _ hm) (hprev h0 hk1) ?_ (hend _ hm).symm⟩
        rintro ⟨h1, h2⟩
        exact absurd (hbi.2 ⟨h1.symm, fun hc => h2 (adj_comm.1 hc)⟩) (by simp)
  rw [hb1, ok_bind]
  rcases hc1 with ⟨rfl, hcr⟩ | ⟨rfl, hbel1⟩
  · left
    exact ⟨rfl, hcr⟩
  simp only [Bool.false_eq_true, if_false]
  obtain ⟨b2, hb2, hc2⟩ : ∃ b, hitsNext pts.length (A.insertIdx k s) k = .ok b ∧
      ((b = true ∧ Crossing pts) ∨ (b = false ∧ ∀ (h2 : k < A.length), Bel pts.length s A[k])) := by
    unfold hitsNext
    by_cases h0 : k < A.length
    · have hm : A[k] ∈ A := List.getElem_mem _
      have eo : (A.insertIdx k s)[k + 1]'(by omega) = A[k] := by
        rw [List.getElem_insertIdx_of_gt (by omega)]
        rfl
      rw [if_pos (by omega), segAt_lt (by omega), ok_bind, segAt_lt (by omega), ok_bind, ek, eo]
      obtain ⟨b, hb, hbi⟩ := segIntersect_ok (n := pts.length) hs (h.proper hp hm) hsin (hx _ hm)
      refine ⟨b, hb, ?_⟩
      cases b with
      | true => exact Or.inl ⟨rfl, crossing_of hsedge (h.edge _ hm) (hsid _ hm).symm (hbi.1 rfl)⟩
      | false =>
        right
        refine ⟨rfl, fun _ => bel_insert_above (h.proper hp hm) hs (hx _ hm) (hknext h0) ?_ (hend _ hm)⟩
        intro hc
        exact absurd (hbi.2 hc) (by simp)
    · exact ⟨false, by rw [if_neg (by omega)], Or.inr ⟨rfl, fun hc => absurd hc h0⟩⟩
  rw [hb2, ok_bind]
  rcases hc2 with ⟨rfl, hcr⟩ | ⟨rfl, hbel2⟩
  · left
    exact ⟨rfl, hcr⟩
  right
  have hmem : ∀ t, t ∈ A.insertIdx k s ↔ t = s ∨ t ∈ A := fun t => List.mem_insertIdx hkl
  refine ⟨A.insertIdx k s, rfl, ⟨?_, ?_, ?_⟩, ?_⟩
  · intro t ht
    rcases (hmem t).1 ht with rfl | ht
    · exact hsedge
    · exact h.edge t ht
  · have hperm : ((A.insertIdx k s).map Seg.id).Perm ((s :: A).map Seg.id) := (List.perm_insertIdx s A hkl).map _
    rw [hperm.nodup_iff, List.map_cons, List.nodup_cons]
    exact ⟨by rw [hsidi]; exact hni, h.nodup⟩
  · intro m hm
    rw [hlen] at hm
    rcases lt_trichotomy (m + 1) k with h1 | h1 | h1
    · rw [List.getElem_insertIdx_of_lt (by omega), List.getElem_insertIdx_of_lt (by omega)]
      exact h.bel m (by omega)
    · subst h1
      rw [List.getElem_insertIdx_of_lt (by omega), List.getElem_insertIdx_self]
      exact hbel1 (by omega) (by omega)
    · rw [List.getElem_insertIdx_of_gt (j := m + 1) h1]
      by_cases h2 : m = k
      · subst h2
        rw [List.getElem_insertIdx_self]
        exact hbel2 (by omega)
      · rw [List.getElem_insertIdx_of_gt (j := m) (by omega)]
        have := h.bel (m - 1) (by omega)
        simpa only [show m - 1 + 1 = m by omega, Nat.add_sub_cancel] using this
  · intro j
    simp only [List.mem_map, hmem]
    constructor
    · rintro ⟨t, rfl | ht, rfl⟩
      · exact Or.inr hsidi
      · exact Or.inl ⟨t, ht, rfl⟩
    · rintro (⟨t, ht, rfl⟩ | rfl)
      · exact ⟨t, Or.inr ht, rfl⟩
      · exact ⟨s, Or.inl rfl, hsidi⟩

end ICPC.Sweep
