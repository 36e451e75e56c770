import Verif.Lemmas.Simple3

/-!
# The whole sweep
-/

namespace ICPC.Sweep
open ICPC ICPC.Spec

/-- Whether edge `i` is listed with its ends swapped. -/
def swp (pts : List Pt) (i : Nat) : Bool := swapped (vertex pts i) (vertex pts (i + 1))

/-- The event that starts edge `i`. -/
def ins (pts : List Pt) (i : Nat) : Ev := mkEv (segOf pts i).l.1 (segOf pts i).l.2 false (swp pts i) i

/-- The event that ends edge `i`. -/
def rem (pts : List Pt) (i : Nat) : Ev := mkEv (segOf pts i).r.1 (segOf pts i).r.2 true (swp pts i) i

theorem eventsLoop_ok {pts : List Pt} (is : List Nat) (h : ∀ i ∈ is, i < pts.length) :
    eventsLoop pts is = .ok (is.flatMap fun i => [ins pts i, rem pts i]) := by
  induction is with
  | nil => rfl
  | cons i is ih =>
    have hi := h i List.mem_cons_self
    unfold eventsLoop
    rw [ptAt_vertex hi, ok_bind, ptAt_vertex (Nat.mod_lt _ (by omega)), ok_bind, vertex_mod]
    dsimp only
    rw [ih (fun j hj => h j (List.mem_cons_of_mem _ hj)), ok_bind]
    rfl

/-- The point of an event. -/
def pt (e : Ev) : Pt := ((ofLex e).1, (ofLex (ofLex e).2).1)

/-- Whether an event ends an edge. -/
def ends (e : Ev) : Bool := (ofLex (ofLex (ofLex e).2).2).1

theorem pt_ins (pts : List Pt) (i : Nat) : pt (ins pts i) = (segOf pts i).l := rfl
theorem pt_rem (pts : List Pt) (i : Nat) : pt (rem pts i) = (segOf pts i).r := rfl
theorem ends_ins (pts : List Pt) (i : Nat) : ends (ins pts i) = false := rfl
theorem ends_rem (pts : List Pt) (i : Nat) : ends (rem pts i) = true := rfl

/-- Events are ordered by their points, starts before ends. -/
theorem ev_le {e f : Ev} (he : Small (pt e)) (hf : Small (pt f)) (h : e ≤ f) :
    X (pt e) < X (pt f) ∨ (X (pt e) = X (pt f) ∧ (ends e = true → ends f = true)) := by
  rw [X_lt he hf]
  rcases (Prod.Lex.le_iff (x := e) (y := f)).1 h with h1 | ⟨h1, h2⟩
  · exact Or.inl (Or.inl h1)
  · rcases (Prod.Lex.le_iff (x := (ofLex e).2) (y := (ofLex f).2)).1 h2 with h3 | ⟨h3, h4⟩
    · exact Or.inl (Or.inr ⟨h1, h3⟩)
    · refine Or.inr ⟨?_, ?_⟩
      · have : pt e = pt f := Prod.ext h1 h3
        rw [this]
      · intro h5
        rcases (Prod.Lex.le_iff (x := (ofLex (ofLex e).2).2) (y := (ofLex (ofLex f).2).2)).1 h4 with h6 | ⟨h6, -⟩
        · unfold ends at h5
          rw [h5] at h6
          exact absurd h6 (by simp)
        · unfold ends at *
          rw [← h6]; exact h5

/-- All events of a polygon. -/
def allEvents (pts : List Pt) : List Ev := (List.range pts.length).flatMap fun i => [ins pts i, rem pts i]

theorem mem_allEvents {pts : List Pt} {e : Ev} : e ∈ allEvents pts ↔ ∃ i < pts.length, e = ins pts i ∨ e = rem pts i := by
  unfold allEvents
  simp only [List.mem_flatMap, List.mem_range, List.mem_cons, List.not_mem_nil, or_false]

theorem ins_inj {pts : List Pt} {i j : Nat} (h : ins pts i = ins pts j) : i = j := by
  have := congrArg (fun e : Ev => (ofLex (ofLex (ofLex (ofLex e).2).2).2).2) h
  exact this

theorem rem_inj {pts : List Pt} {i j : Nat} (h : rem pts i = rem pts j) : i = j := by
  have := congrArg (fun e : Ev => (ofLex (ofLex (ofLex (ofLex e).2).2).2).2) h
  exact this

theorem ins_ne_rem {pts : List Pt} {i j : Nat} : ins pts i ≠ rem pts j := by
  intro h
  have := congrArg ends h
  rw [ends_ins, ends_rem] at this
  exact absurd this (by simp)

theorem allEvents_nodup (pts : List Pt) : (allEvents pts).Nodup := by
  unfold allEvents
  rw [List.nodup_flatMap]
  refine ⟨fun i _ => ?_, ?_⟩
  · simp [ins_ne_rem]
  · refine List.nodup_range.imp ?_
    intro i j hij e h1 h2
    simp only [List.mem_cons, List.not_mem_nil, or_false] at h1 h2
    rcases h1 with rfl | rfl <;> rcases h2 with h2 | h2
    · exact hij (ins_inj h2)
    · exact ins_ne_rem h2
    · exact ins_ne_rem h2.symm
    · exact hij (rem_inj h2)

/-- The events in order. -/
def evs (pts : List Pt) : List Ev := stdSort (allEvents pts)

theorem mem_evs {pts : List Pt} {e : Ev} : e ∈ evs pts ↔ ∃ i < pts.length, e = ins pts i ∨ e = rem pts i := by
  unfold evs
  rw [mem_stdSort, mem_allEvents]

theorem evs_nodup (pts : List Pt) : (evs pts).Nodup := (stdSort_perm _).nodup_iff.2 (allEvents_nodup pts)

theorem evs_small {pts : List Pt} (hp : Poly pts) {e : Ev} (he : e ∈ evs pts) : Small (pt e) := by
  obtain ⟨i, hi, rfl | rfl⟩ := mem_evs.1 he
  · exact (hp.proper hi).hl
  · exact (hp.proper hi).hr

/-- The status after the events `done`: the edges started and not ended. -/
structure Inv (pts : List Pt) (done : List Ev) (A : List Seg) : Prop where
  status : Status pts A
  active : ∀ i, i ∈ A.map Seg.id ↔ ins pts i ∈ done ∧ rem pts i ∉ done

theorem Inv.mem {pts : List Pt} {done : List Ev} {A : List Seg} (h : Inv pts done A) {s : Seg} (hs : s ∈ A) :
    s.id < pts.length ∧ s = segOf pts s.id ∧ ins pts s.id ∈ done ∧ rem pts s.id ∉ done := by
  obtain ⟨h1, h2⟩ := h.status.edge s hs
  exact ⟨h1, h2, (h.active s.id).1 (List.mem_map_of_mem hs)⟩

/-- At the next event, all edges in the status are there. -/
theorem Inv.inAt {pts : List Pt} (hp : Poly pts) {done rest : List Ev} {e : Ev} {A : List Seg} (h : Inv pts done A)
    (hev : evs pts = done ++ e :: rest) : ∀ s ∈ A, In s (X (pt e)) := by
  have hsort : (evs pts).Pairwise (· ≤ ·) := stdSort_sorted _
  rw [hev, List.pairwise_append] at hsort
  obtain ⟨-, hs2, hs3⟩ := hsort
  rw [List.pairwise_cons] at hs2
  have he : e ∈ evs pts := by rw [hev]; simp
  intro s hs
  obtain ⟨h1, h2, h3, h4⟩ := h.mem hs
  refine ⟨?_, ?_⟩
  · have h5 : ins pts s.id ∈ evs pts := mem_evs.2 ⟨_, h1, Or.inl rfl⟩
    have := ev_le (evs_small hp h5) (evs_small hp he) (hs3 _ h3 e List.mem_cons_self)
    rw [pt_ins, ← h2] at this
    have : X s.l ≤ X (pt e) := by omega
    exact_mod_cast this
  · have h5 : rem pts s.id ∈ evs pts := mem_evs.2 ⟨_, h1, Or.inr rfl⟩
    have h6 : e ≤ rem pts s.id := by
      have : rem pts s.id ∈ done ++ e :: rest := hev ▸ h5
      rw [List.mem_append, List.mem_cons] at this
      rcases this with h7 | h7 | h7
      · exact absurd h7 h4
      · exact h7.symm.le
      · exact hs2.1 _ h7
    have := ev_le (evs_small hp he) (evs_small hp h5) h6
    rw [pt_rem, ← h2] at this
    have : X (pt e) ≤ X s.r := by omega
    exact_mod_cast this

theorem sweep_cons (shape : Nat → Nat → Nat → Nat) (pts : List Pt) (t : Nat) (e : Ev) (es : List Ev) (A : List Seg) :
    sweep shape pts t (e :: es) A = (sweepStep shape pts t e A) >>= fun res => match res with
      | none => .ok false
      | some A' => sweep shape pts (t + 1) es A' := rfl

theorem step_ok {pts : List Pt} (hp : Poly pts) {done rest : List Ev} {e : Ev} {A : List Seg} (h : Inv pts done A)
    (hev : evs pts = done ++ e :: rest) (shape : Nat → Nat → Nat → Nat) (t : Nat) :
    (sweepStep shape pts t e A = .ok none ∧ Crossing pts) ∨
    ∃ A', sweepStep shape pts t e A = .ok (some A') ∧ Inv pts (done ++ [e]) A' := by
  have hin := h.inAt hp hev
  have hnd := evs_nodup pts
  have hsort : (evs pts).Pairwise (· ≤ ·) := stdSort_sorted _
  have he : e ∈ evs pts := by rw [hev]; simp
  rw [hev, List.nodup_append] at hnd
  obtain ⟨-, hnd2, hnd3⟩ := hnd
  have hed : e ∉ done := fun hc => hnd3 e hc e List.mem_cons_self rfl
  rw [hev, List.pairwise_append] at hsort
  obtain ⟨-, hs2, -⟩ := hsort
  rw [List.pairwise_cons] at hs2
  obtain ⟨i, hi, rfl | rfl⟩ := mem_evs.1 he
  · have hni : i ∉ A.map Seg.id := fun hc => hed ((h.active i).1 hc).1
    rcases sweepInsert_ok hp h.status hi hni hin (shape t) with ⟨h1, h2⟩ | ⟨A', h1, h2, h3⟩
    · exact Or.inl ⟨h1, h2⟩
    · refine Or.inr ⟨A', h1, h2, fun j => ?_⟩
      rw [h3, h.active]
      simp only [List.mem_append, List.mem_singleton]
      have hrem : rem pts i ∉ done := by
        intro hc
        have h5 : rem pts i ∈ evs pts := mem_evs.2 ⟨_, hi, Or.inr rfl⟩
        have hsort : (evs pts).Pairwise (· ≤ ·) := stdSort_sorted _
        rw [hev, List.pairwise_append] at hsort
        have := ev_le (evs_small hp h5) (evs_small hp he) (hsort.2.2 _ hc _ List.mem_cons_self)
        rw [pt_rem, pt_ins] at this
        have := (hp.proper hi).lt
        omega
      constructor
      · rintro (⟨h4, h5⟩ | rfl)
        · refine ⟨Or.inl h4, ?_⟩
          rintro (h6 | h6)
          · exact h5 h6
          · exact ins_ne_rem h6.symm
        · refine ⟨Or.inr rfl, ?_⟩
          rintro (h6 | h6)
          · exact hrem h6
          · exact ins_ne_rem h6.symm
      · rintro ⟨h4 | h4, h5⟩
        · exact Or.inl ⟨h4, fun hc => h5 (Or.inl hc)⟩
        · exact Or.inr (ins_inj h4)
  · have hins : ins pts i ∈ done := by
      have h5 : ins pts i ∈ evs pts := mem_evs.2 ⟨_, hi, Or.inl rfl⟩
      have h5' := h5
      rw [hev, List.mem_append, List.mem_cons] at h5'
      rcases h5' with h6 | h6 | h6
      · exact h6
      · exact absurd h6 ins_ne_rem
      · have := ev_le (evs_small hp he) (evs_small hp h5) (hs2.1 _ h6)
        rw [pt_rem, pt_ins] at this
        have := (hp.proper hi).lt
        omega
    have hmem : i ∈ A.map Seg.id := (h.active i).2 ⟨hins, hed⟩
    rcases sweepRemove_ok hp h.status hmem hin with ⟨h1, h2⟩ | ⟨A', h1, h2, h3⟩
    · exact Or.inl ⟨h1, h2⟩
    · refine Or.inr ⟨A', h1, h2, fun j => ?_⟩
      rw [h3, h.active]
      simp only [List.mem_append, List.mem_singleton]
      constructor
      · rintro ⟨⟨h4, h5⟩, h6⟩
        refine ⟨Or.inl h4, ?_⟩
        rintro (h7 | h7)
        · exact h5 h7
        · exact h6 (rem_inj h7)
      · rintro ⟨h4 | h4, h5⟩
        · exact ⟨⟨h4, fun hc => h5 (Or.inl hc)⟩, fun hc => h5 (Or.inr (hc ▸ rfl))⟩
        · exact absurd h4 ins_ne_rem

theorem sweep_ok {pts : List Pt} (hp : Poly pts) (shape : Nat → Nat → Nat → Nat) : ∀ (rest done : List Ev) (t : Nat)
    (A : List Seg), evs pts = done ++ rest → Inv pts done A →
    (sweep shape pts t rest A = .ok false ∧ Crossing pts) ∨
    (sweep shape pts t rest A = .ok true ∧ ∀ r1 r2, rest = r1 ++ r2 → ∃ A', Inv pts (done ++ r1) A') := by
  intro rest
  induction rest with
  | nil =>
    intro done t A hev hinv
    right
    refine ⟨rfl, fun r1 r2 h => ?_⟩
    have : r1 = [] := (List.append_eq_nil_iff.1 h.symm).1
    subst this
    exact ⟨A, by simpa using hinv⟩
  | cons e rest ih =>
    intro done t A hev hinv
    rw [sweep_cons]
    rcases step_ok hp hinv hev shape t with ⟨h1, h2⟩ | ⟨A', h1, h2⟩
    · left
      rw [h1, ok_bind]
      exact ⟨rfl, h2⟩
    · rw [h1, ok_bind]
      dsimp only
      rcases ih (done ++ [e]) (t + 1) A' (by simpa using hev) h2 with h3 | ⟨h3, h4⟩
      · exact Or.inl h3
      · refine Or.inr ⟨h3, fun r1 r2 h => ?_⟩
        cases r1 with
        | nil => exact ⟨A, by simpa using hinv⟩
        | cons f r1 =>
          rw [List.cons_append, List.cons.injEq] at h
          obtain ⟨rfl, h⟩ := h
          obtain ⟨A'', h5⟩ := h4 r1 r2 h
          exact ⟨A'', by simpa using h5⟩

/-- A sorted list splits at a downward closed condition. -/
theorem split_sorted {α : Type} [LinearOrder α] (p : α → Prop) (l : List α) (hl : l.Pairwise (· ≤ ·))
    (hp : ∀ a ∈ l, ∀ b ∈ l, a ≤ b → p b → p a) : ∃ l1 l2, l = l1 ++ l2 ∧ (∀ a ∈ l1, p a) ∧ ∀ a ∈ l2, ¬ p a := by
  induction l with
  | nil => exact ⟨[], [], rfl, by simp, by simp⟩
  | cons a l ih =>
    rw [List.pairwise_cons] at hl
    by_cases ha : p a
    · obtain ⟨l1, l2, h1, h2, h3⟩ := ih hl.2 (fun x hx y hy => hp x (List.mem_cons_of_mem _ hx) y (List.mem_cons_of_mem _ hy))
      refine ⟨a :: l1, l2, by rw [h1]; rfl, ?_, h3⟩
      intro x hx
      rcases List.mem_cons.1 hx with rfl | hx
      · exact ha
      · exact h2 x hx
    · refine ⟨[], a :: l, rfl, by simp, ?_⟩
      intro x hx hpx
      rcases List.mem_cons.1 hx with rfl | hx'
      · exact ha hpx
      · exact ha (hp a List.mem_cons_self x hx (hl.1 x hx') hpx)

/-- If the sweep finishes, no two edges cross. -/
theorem no_crossing {pts : List Pt} (hp : Poly pts) (h : ∀ r1 r2, evs pts = r1 ++ r2 → ∃ A, Inv pts r1 A) :
    ¬ Crossing pts := by
  rintro ⟨i, j, hi, hj, hij, hna, x, hxi, hxj, heq⟩
  obtain ⟨l1, l2, hl, hl1, hl2⟩ := split_sorted
    (fun e : Ev => (X (pt e) : ℝ) < x ∨ ((X (pt e) : ℝ) = x ∧ ends e = false)) (evs pts) (stdSort_sorted _) (by
      intro a ha b hb hab hpb
      rcases ev_le (evs_small hp ha) (evs_small hp hb) hab with h1 | ⟨h1, h2⟩
      · have h1' : (X (pt a) : ℝ) < X (pt b) := by exact_mod_cast h1
        left
        rcases hpb with h3 | ⟨h3, -⟩ <;> linarith
      · rw [h1]
        rcases hpb with h3 | ⟨h3, h4⟩
        · exact Or.inl h3
        · refine Or.inr ⟨h3, ?_⟩
          cases hc : ends a with
          | false => rfl
          | true => rw [h2 hc] at h4; exact absurd h4 (by simp))
  obtain ⟨A, hA⟩ := h l1 l2 hl
  have hact : ∀ k, k < pts.length → In (segOf pts k) x → k ∈ A.map Seg.id := by
    intro k hk hin
    rw [hA.active]
    have h1 : ins pts k ∈ l1 ++ l2 := hl ▸ mem_evs.2 ⟨k, hk, Or.inl rfl⟩
    refine ⟨?_, fun hc => ?_⟩
    · rcases List.mem_append.1 h1 with h2 | h2
      · exact h2
      · exfalso
        refine hl2 _ h2 ?_
        rw [pt_ins, ends_ins]
        rcases hin.1.lt_or_eq with h3 | h3
        · exact Or.inl h3
        · exact Or.inr ⟨h3, rfl⟩
    · have := hl1 _ hc
      rw [pt_rem, ends_rem] at this
      rcases this with h3 | ⟨-, h3⟩
      · linarith [hin.2]
      · exact absurd h3 (by simp)
  have hall : ∀ s ∈ A, In s x := by
    intro s hs
    obtain ⟨h1, h2, h3, h4⟩ := hA.mem hs
    refine ⟨?_, ?_⟩
    · have := hl1 _ h3
      rw [pt_ins, ← h2] at this
      rcases this with h5 | ⟨h5, -⟩ <;> linarith
    · have h5 : rem pts s.id ∈ l1 ++ l2 := hl ▸ mem_evs.2 ⟨_, h1, Or.inr rfl⟩
      rcases List.mem_append.1 h5 with h6 | h6
      · exact absurd h6 h4
      · have := hl2 _ h6
        rw [pt_rem, ← h2] at this
        by_contra hc
        exact this (Or.inl (not_le.1 hc))
  obtain ⟨s, hs, hsi⟩ := List.mem_map.1 (hact i hi hxi)
  obtain ⟨o, ho, hoj⟩ := List.mem_map.1 (hact j hj hxj)
  have es : s = segOf pts i := by rw [(hA.mem hs).2.1, hsi]
  have eo : o = segOf pts j := by rw [(hA.mem ho).2.1, hoj]
  obtain ⟨a, ha, rfl⟩ := List.getElem_of_mem hs
  obtain ⟨b, hb, rfl⟩ := List.getElem_of_mem ho
  rcases lt_trichotomy a b with h1 | h1 | h1
  · have := (hA.status.sorted hp hall h1 hb).2 (by rw [es, eo]; exact heq)
    rw [hsi, hoj] at this
    exact hna this.2
  · subst h1
    exact hij (hsi.symm.trans hoj)
  · have := (hA.status.sorted hp hall h1 ha).2 (by rw [es, eo]; exact heq.symm)
    rw [hsi, hoj] at this
    exact hna (adj_comm.1 this.2)

/-- The sweep decides whether two edges cross. -/
theorem sweep_decides {pts : List Pt} (hp : Poly pts) (shape : Nat → Nat → Nat → Nat) :
    (sweep shape pts 0 (evs pts) [] = .ok false ∧ Crossing pts) ∨
    (sweep shape pts 0 (evs pts) [] = .ok true ∧ ¬ Crossing pts) := by
  have h0 : Inv pts [] [] :=
    ⟨⟨by simp, by simp, fun k h => by simp at h⟩, by simp⟩
  rcases sweep_ok hp shape (evs pts) [] 0 [] rfl h0 with h | ⟨h1, h2⟩
  · exact Or.inl h
  · exact Or.inr ⟨h1, no_crossing hp (by simpa using h2)⟩

end ICPC.Sweep
