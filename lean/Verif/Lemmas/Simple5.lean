import Verif.Lemmas.Simple4

/-!
# The sweep on any list of points with small coordinates: it always returns
-/

namespace ICPC.Sweep
open ICPC ICPC.Spec

/-- Both ends have small coordinates. -/
def SmallSeg (s : Seg) : Prop := Small s.l ∧ Small s.r

theorem segOf_small {pts : List Pt} (hsm : ∀ p ∈ pts, Small p) (i : Nat) : SmallSeg (segOf pts i) := by
  have h1 := vertex_small hsm i
  have h2 := vertex_small hsm (i + 1)
  rcases segOf_cases pts i with ⟨h3, h4⟩ | ⟨h3, h4⟩
  · exact ⟨h3 ▸ h1, h4 ▸ h2⟩
  · exact ⟨h3 ▸ h2, h4 ▸ h1⟩

theorem segLt_returns {s o : Seg} (hs : SmallSeg s) (ho : SmallSeg o) : ∃ b, segLt s o = .ok b := by
  unfold segLt
  split
  · rw [segLtDirect_ok ho.1 ho.2 hs.1 hs.2]
    exact ⟨_, rfl⟩
  · exact ⟨_, segLtDirect_ok hs.1 hs.2 ho.1 ho.2⟩

theorem segIntersect_returns (n : Nat) {s o : Seg} (hs : SmallSeg s) (ho : SmallSeg o) :
    ∃ b, segIntersect n s o = .ok b := by
  unfold segIntersect
  split
  · exact ⟨false, rfl⟩
  · rw [Props.crossP_ok hs.1 hs.2 ho.1, ok_bind, Props.crossP_ok hs.1 hs.2 ho.2, ok_bind,
      chk_sign (turn_bound hs.1 hs.2 ho.2), ok_bind]
    split
    · exact ⟨false, rfl⟩
    · rw [Props.crossP_ok ho.1 ho.2 hs.1, ok_bind, Props.crossP_ok ho.1 ho.2 hs.2, ok_bind,
        chk_sign (turn_bound ho.1 ho.2 hs.2), ok_bind]
      exact ⟨_, rfl⟩

theorem descend_returns {pick : Nat → Nat → Nat} {s : Seg} {A : List Seg} (hs : SmallSeg s) (hA : ∀ o ∈ A, SmallSeg o) :
    ∀ f lo hi, lo ≤ hi → hi ≤ A.length → ∃ k, descend pick s A f lo hi = .ok k ∧ k ≤ A.length := by
  intro f
  induction f with
  | zero => intro lo hi h1 h2; exact ⟨lo, rfl, by omega⟩
  | succ f ih =>
    intro lo hi h1 h2
    unfold descend
    by_cases hlt : lo < hi
    · rw [if_pos hlt]
      dsimp only
      generalize hm : max lo (min (pick lo hi) (hi - 1)) = m
      have hm1 : lo ≤ m := by omega
      have hm2 : m < hi := by omega
      have hml : m < A.length := by omega
      obtain ⟨b, hb⟩ := segLt_returns hs (hA _ (List.getElem_mem hml))
      rw [segAt_lt hml, ok_bind, hb, ok_bind]
      cases b with
      | true => exact ih lo m hm1 (by omega)
      | false => exact ih (m + 1) hi (by omega) h2
    · rw [if_neg hlt]
      exact ⟨lo, rfl, by omega⟩

/-- The status in general: edges that started and did not end. -/
structure Inv0 (pts : List Pt) (done : List Ev) (A : List Seg) : Prop where
  edge : ∀ s ∈ A, s = segOf pts s.id
  nodup : (A.map Seg.id).Nodup
  active : ∀ i, i ∈ A.map Seg.id ↔ ins pts i ∈ done ∧ rem pts i ∉ done

theorem hitsPrev_returns (n : Nat) {A : List Seg} (hA : ∀ o ∈ A, SmallSeg o) (k : Nat) : ∃ b, hitsPrev n A k = .ok b := by
  unfold hitsPrev
  split
  · rename_i h
    rw [segAt_lt h.2, ok_bind, segAt_lt (by omega), ok_bind]
    exact segIntersect_returns n (hA _ (List.getElem_mem _)) (hA _ (List.getElem_mem _))
  · exact ⟨false, rfl⟩

theorem hitsNext_returns (n : Nat) {A : List Seg} (hA : ∀ o ∈ A, SmallSeg o) (k : Nat) : ∃ b, hitsNext n A k = .ok b := by
  unfold hitsNext
  split
  · rename_i h
    rw [segAt_lt (by omega), ok_bind, segAt_lt h, ok_bind]
    exact segIntersect_returns n (hA _ (List.getElem_mem _)) (hA _ (List.getElem_mem _))
  · exact ⟨false, rfl⟩

theorem ins_le_rem {pts : List Pt} (hsm : ∀ p ∈ pts, Small p) (i : Nat) : ins pts i < rem pts i := by
  have h1 := vertex_small hsm i
  have h2 := vertex_small hsm (i + 1)
  have hle : (segOf pts i).l.1 < (segOf pts i).r.1 ∨
      ((segOf pts i).l.1 = (segOf pts i).r.1 ∧ (segOf pts i).l.2 ≤ (segOf pts i).r.2) := by
    unfold segOf
    dsimp only
    by_cases hsw : swapped (vertex pts i) (vertex pts (i + 1)) = true
    · rw [if_pos hsw, if_pos hsw]
      simp only [swapped, Bool.or_eq_true, Bool.and_eq_true, decide_eq_true_eq] at hsw
      omega
    · rw [if_neg hsw, if_neg hsw]
      simp only [swapped, Bool.or_eq_true, Bool.and_eq_true, decide_eq_true_eq] at hsw
      omega
  unfold ins rem mkEv
  rw [Prod.Lex.toLex_lt_toLex]
  rcases hle with h | ⟨h, h'⟩
  · exact Or.inl h
  · refine Or.inr ⟨h, ?_⟩
    rw [Prod.Lex.toLex_lt_toLex]
    rcases h'.lt_or_eq with h'' | h''
    · exact Or.inl h''
    · refine Or.inr ⟨h'', ?_⟩
      rw [Prod.Lex.toLex_lt_toLex]
      exact Or.inl (show false < true by decide)

theorem step_returns {pts : List Pt} (hsm : ∀ p ∈ pts, Small p) {done rest : List Ev} {e : Ev}
    {A : List Seg} (h : Inv0 pts done A)
    (hev : evs pts = done ++ e :: rest) (shape : Nat → Nat → Nat → Nat) (t : Nat) :
    sweepStep shape pts t e A = .ok none ∨
    ∃ A', sweepStep shape pts t e A = .ok (some A') ∧ Inv0 pts (done ++ [e]) A' := by
  have hA : ∀ s ∈ A, SmallSeg s := fun s hs => by rw [h.edge s hs]; exact segOf_small hsm _
  have hnd := evs_nodup pts
  have hsort : (evs pts).Pairwise (· ≤ ·) := stdSort_sorted _
  have he : e ∈ evs pts := by rw [hev]; simp
  rw [hev, List.nodup_append] at hnd
  obtain ⟨-, hnd2, hnd3⟩ := hnd
  have hed : e ∉ done := fun hc => hnd3 e hc e List.mem_cons_self rfl
  rw [hev, List.pairwise_append] at hsort
  obtain ⟨-, hs2, hs3⟩ := hsort
  rw [List.pairwise_cons] at hs2
  obtain ⟨i, hi, rfl | rfl⟩ := mem_evs.1 he
  · have hni : i ∉ A.map Seg.id := fun hc => hed ((h.active i).1 hc).1
    have hmod : (i + 1) % pts.length < pts.length := Nat.mod_lt _ (by omega)
    show sweepInsert (shape t) pts (swp pts i) i A = _ ∨ ∃ A', sweepInsert (shape t) pts (swp pts i) i A = _ ∧ _
    have hmk : (⟨if swp pts i then vertex pts (i + 1) else vertex pts i,
      if swp pts i then vertex pts i else vertex pts (i + 1), i⟩ : Seg) = segOf pts i := rfl
    unfold sweepInsert
    rw [ptAt_vertex hi, ok_bind, ptAt_vertex hmod, ok_bind, vertex_mod, hmk]
    dsimp only
    have hs := segOf_small hsm i
    obtain ⟨k, hk, hkl⟩ := descend_returns (pick := shape t) hs hA A.length 0 A.length (by omega) le_rfl
    rw [hk, ok_bind]
    obtain ⟨b, hb⟩ : ∃ b, fitsAfter A k (segOf pts i) = .ok b := by
      unfold fitsAfter
      split
      · exact ⟨true, rfl⟩
      · rw [segAt_lt (by omega), ok_bind]
        exact segLt_returns (hA _ (List.getElem_mem _)) hs
    rw [hb, ok_bind]
    cases b with
    | false => exact Or.inl rfl
    | true =>
      simp only [Bool.not_true, Bool.false_eq_true, if_false]
      have hmem : ∀ t, t ∈ A.insertIdx k (segOf pts i) ↔ t = segOf pts i ∨ t ∈ A := fun t => List.mem_insertIdx hkl
      have hA' : ∀ s ∈ A.insertIdx k (segOf pts i), SmallSeg s := by
        intro s hs'
        rcases (hmem s).1 hs' with rfl | h1
        · exact hs
        · exact hA s h1
      obtain ⟨b1, hb1⟩ := hitsPrev_returns pts.length hA' k
      obtain ⟨b2, hb2⟩ := hitsNext_returns pts.length hA' k
      rw [hb1, ok_bind]
      cases b1 with
      | true => exact Or.inl rfl
      | false =>
        simp only [Bool.false_eq_true, if_false]
        rw [hb2, ok_bind]
        cases b2 with
        | true => exact Or.inl rfl
        | false =>
          right
          refine ⟨_, rfl, ?_, ?_, ?_⟩
          · intro s hs'
            rcases (hmem s).1 hs' with rfl | h1
            · rfl
            · exact h.edge s h1
          · have hperm : ((A.insertIdx k (segOf pts i)).map Seg.id).Perm ((segOf pts i :: A).map Seg.id) :=
              (List.perm_insertIdx _ A hkl).map _
            rw [hperm.nodup_iff, List.map_cons, List.nodup_cons]
            exact ⟨hni, h.nodup⟩
          · intro j
            have hj : j ∈ (A.insertIdx k (segOf pts i)).map Seg.id ↔ j ∈ A.map Seg.id ∨ j = i := by
              simp only [List.mem_map, hmem]
              constructor
              · rintro ⟨t, rfl | ht, rfl⟩
                · exact Or.inr rfl
                · exact Or.inl ⟨t, ht, rfl⟩
              · rintro (⟨t, ht, rfl⟩ | rfl)
                · exact ⟨t, Or.inr ht, rfl⟩
                · exact ⟨_, Or.inl rfl, rfl⟩
            rw [hj, h.active]
            simp only [List.mem_append, List.mem_singleton]
            have hrem : rem pts i ∉ done := fun hc =>
              absurd (hs3 _ hc _ List.mem_cons_self) (not_le.2 (ins_le_rem hsm i))
            constructor
            · rintro (⟨h4, h5⟩ | rfl)
              · refine ⟨Or.inl h4, ?_⟩
                rintro (h6 | h6)
                · exact h5 h6
                · exact ins_ne_rem h6.symm
              · refine ⟨Or.inr rfl, ?_⟩
                rintro (h6 | h6)
                · exact hrem h6
                · exact ins_ne_rem h6.symm
            · rintro ⟨h4 | h4, h5⟩
              · exact Or.inl ⟨h4, fun hc => h5 (Or.inl hc)⟩
              · exact Or.inr (ins_inj h4)
  · have hins : ins pts i ∈ done := by
      have h5 : ins pts i ∈ evs pts := mem_evs.2 ⟨_, hi, Or.inl rfl⟩
      rw [hev, List.mem_append, List.mem_cons] at h5
      rcases h5 with h6 | h6 | h6
      · exact h6
      · exact absurd h6 ins_ne_rem
      · exact absurd (hs2.1 _ h6) (not_le.2 (ins_le_rem hsm i))
    have hmem : i ∈ A.map Seg.id := (h.active i).2 ⟨hins, hed⟩
    show sweepRemove pts.length i A = _ ∨ ∃ A', sweepRemove pts.length i A = _ ∧ _
    obtain ⟨k, hk⟩ : ∃ k, A.findIdx? (fun t => t.id == i) = some k := by
      obtain ⟨s, hs, rfl⟩ := List.mem_map.1 hmem
      rw [← Option.isSome_iff_exists, List.findIdx?_isSome, List.any_eq_true]
      exact ⟨s, hs, by simp⟩
    obtain ⟨hklt, hkid, -⟩ := List.findIdx?_eq_some_iff_getElem.1 hk
    rw [beq_iff_eq] at hkid
    unfold sweepRemove
    rw [hk]
    dsimp only
    have hA' : ∀ s ∈ A.eraseIdx k, SmallSeg s := fun s hs => hA s (List.mem_of_mem_eraseIdx hs)
    obtain ⟨b, hb⟩ := hitsPrev_returns pts.length hA' k
    rw [hb, ok_bind]
    cases b with
    | true => exact Or.inl rfl
    | false =>
      right
      refine ⟨_, rfl, fun t ht => h.edge t (List.mem_of_mem_eraseIdx ht),
        h.nodup.sublist ((List.eraseIdx_sublist A k).map _), fun j => ?_⟩
      have id_ne : ∀ {a b : Nat} (ha : a < A.length) (hb : b < A.length), a ≠ b → A[a].id ≠ A[b].id := by
        intro a b ha hb hab hc
        apply hab
        have h3 := List.nodup_iff_injective_getElem.1 h.nodup
        have h2 := @h3 ⟨a, by simpa using ha⟩ ⟨b, by simpa using hb⟩
          (by simpa using hc)
        simpa using h2
      have hj : j ∈ (A.eraseIdx k).map Seg.id ↔ j ∈ A.map Seg.id ∧ j ≠ i := by
        constructor
        · intro hj
          obtain ⟨t, ht, rfl⟩ := List.mem_map.1 hj
          obtain ⟨m, hm, hmk, rfl⟩ := List.mem_eraseIdx_iff_getElem.1 ht
          refine ⟨List.mem_map_of_mem (List.getElem_mem _), ?_⟩
          rw [← hkid]
          exact id_ne _ _ hmk
        · rintro ⟨hj, hne⟩
          obtain ⟨t, ht, rfl⟩ := List.mem_map.1 hj
          obtain ⟨m, hm, rfl⟩ := List.getElem_of_mem ht
          refine List.mem_map_of_mem (List.mem_eraseIdx_iff_getElem.2 ⟨m, hm, ?_, rfl⟩)
          rintro rfl
          exact hne hkid
      rw [hj, h.active]
      simp only [List.mem_append, List.mem_singleton]
      constructor
      · rintro ⟨⟨h4, h5⟩, h6⟩
        refine ⟨Or.inl h4, ?_⟩
        rintro (h7 | h7)
        · exact h5 h7
        · exact h6 (rem_inj h7)
      · rintro ⟨h4 | h4, h5⟩
        · exact ⟨⟨h4, fun hc => h5 (Or.inl hc)⟩, fun hc => h5 (Or.inr (hc ▸ rfl))⟩
        · exact absurd h4 ins_ne_rem

theorem sweep_returns {pts : List Pt} (hsm : ∀ p ∈ pts, Small p) (shape : Nat → Nat → Nat → Nat) :
    ∀ (rest done : List Ev) (t : Nat) (A : List Seg), evs pts = done ++ rest → Inv0 pts done A →
    ∃ b, sweep shape pts t rest A = .ok b := by
  intro rest
  induction rest with
  | nil => intro done t A _ _; exact ⟨true, rfl⟩
  | cons e rest ih =>
    intro done t A hev hinv
    rw [sweep_cons]
    rcases step_returns hsm hinv hev shape t with h1 | ⟨A', h1, h2⟩
    · rw [h1, ok_bind]
      exact ⟨false, rfl⟩
    · rw [h1, ok_bind]
      exact ih (done ++ [e]) (t + 1) A' (by simpa using hev) h2

end ICPC.Sweep
