import Verif.Lemmas.GraphOps4

/-!
# Powers of directed graphs
-/

namespace ICPC.Gen

open ICPC ICPC.Spec.EdgeMap ICPC.Props

variable {E : Type} {g : Graph E} {dir : Bool} {lo : Int} {n : Nat} {m : Map E}

/-- Invariant rule for counting loops. -/
theorem forI_inv {σ : Type} {a b : Int} {f : Int → σ → Out σ} {s : σ} (P : Int → σ → Prop) (h0 : P a s) (hab : a ≤ b)
    (hstep : ∀ i s, a ≤ i → i < b → P i s → ∃ s', f i s = .ok s' ∧ P (i + 1) s') : ∃ s', forI a b f s = .ok s' ∧ P b s' := by
  unfold forI
  have key : ∀ k : Nat, k ≤ (b - a).toNat → ∃ s', (List.range k).foldlM (fun s (k : Nat) => f (a + (k : Int)) s) s = .ok s' ∧ P (a + k) s' := by
    intro k
    induction k with
    | zero => intro _; exact ⟨s, rfl, by simpa using h0⟩
    | succ k ih =>
      intro hk
      obtain ⟨s1, h1, h2⟩ := ih (by omega)
      obtain ⟨s2, h3, h4⟩ := hstep (a + k) s1 (by omega) (by omega) h2
      refine ⟨s2, ?_, by rw [show a + ((k + 1 : Nat) : Int) = a + k + 1 from by push_cast; omega]; exact h4⟩
      rw [List.range_succ, List.foldlM_append, h1, ok_bind, List.foldlM_cons, h3, ok_bind]
      rfl
  obtain ⟨s', h1, h2⟩ := key (b - a).toNat (le_refl _)
  exact ⟨s', h1, by rw [show a + ((b - a).toNat : Int) = b from by omega] at h2; exact h2⟩

theorem within_mono {k k' : Nat} {u v : Int} (h : Within m k u v) (hk : k ≤ k') : Within m k' u v := by
  induction h generalizing k' with
  | refl k u => exact .refl _ _
  | step _ h2 ih =>
    obtain ⟨j, rfl⟩ : ∃ j, k' = j + 1 := ⟨k' - 1, by omega⟩
    exact .step (ih (by omega)) h2

theorem within_zero {u v : Int} (h : Within m 0 u v) : u = v := by
  generalize hk : 0 = k at h
  cases h with
  | refl => rfl
  | step => omega

/-- One scan of the neighbours: positions are relative to `minId`. -/
theorem powerScan_spec (d : Int) : ∀ (nb : List (Edge E)) (seen : List Bool), (∀ e ∈ nb, In lo n e.dst) → seen.length = n →
    (Graph.powerScan lo d nb seen).2.length = n ∧
    ((Graph.powerScan lo d nb seen).1.map Prod.fst).Nodup ∧
    (∀ x ∈ (Graph.powerScan lo d nb seen).1, x.2 = d ∧ seen.getD x.1.toNat false = false ∧ ∃ e ∈ nb, x.1 = e.dst - lo) ∧
    (∀ c : Int, In 0 n c → ((Graph.powerScan lo d nb seen).2.getD c.toNat false = true ↔
      seen.getD c.toNat false = true ∨ c ∈ (Graph.powerScan lo d nb seen).1.map Prod.fst)) ∧
    (∀ e ∈ nb, (Graph.powerScan lo d nb seen).2.getD (e.dst - lo).toNat false = true)
  | [], seen, _, hl => by
    unfold Graph.powerScan
    exact ⟨hl, by simp, by simp, by simp, by simp⟩
  | e :: nb, seen, hin, hl => by
    have he := hin e (by simp)
    have e1 := he.1
    have e2 := he.2
    unfold Graph.powerScan
    split
    · rename_i hs
      obtain ⟨a1, a2, a3, a4, a5⟩ := powerScan_spec d nb seen (fun e he => hin e (by simp [he])) hl
      refine ⟨a1, a2, ?_, a4, ?_⟩
      · intro x hx
        obtain ⟨b1, b2, e', he', b3⟩ := a3 x hx
        exact ⟨b1, b2, e', by simp [he'], b3⟩
      · intro e' he'
        rcases List.mem_cons.1 he' with rfl | he'
        · have := (a4 (e'.dst - lo) ⟨by omega, by omega⟩).2 (Or.inl hs)
          exact this
        · exact a5 e' he'
    · rename_i hs
      obtain ⟨a1, a2, a3, a4, a5⟩ := powerScan_spec d nb (seen.set (e.dst - lo).toNat true) (fun e he => hin e (by simp [he])) (by simpa using hl)
      have hset : ∀ c : Int, In 0 n c → ((seen.set (e.dst - lo).toNat true).getD c.toNat false = true ↔ c = e.dst - lo ∨ seen.getD c.toNat false = true) := by
        intro c hc
        have c1 := hc.1
        have c2 := hc.2
        rw [List.getD_eq_getElem?_getD, List.getD_eq_getElem?_getD, List.getElem?_set]
        by_cases hce : (e.dst - lo).toNat = c.toNat
        · rw [if_pos hce, if_pos (by omega)]
          simp; left; omega
        · rw [if_neg hce]
          constructor
          · exact Or.inr
          · rintro (h | h)
            · exact absurd (by rw [h]) hce
            · exact h
      refine ⟨a1, ?_, ?_, ?_, ?_⟩
      · simp only [List.map_cons, List.nodup_cons]
        refine ⟨?_, a2⟩
        intro hmem
        obtain ⟨x, hx, hxe⟩ := List.mem_map.1 hmem
        obtain ⟨-, b2, -⟩ := a3 x hx
        have := (hset (e.dst - lo) ⟨by omega, by omega⟩).2 (Or.inl rfl)
        rw [hxe, this] at b2
        cases b2
      · intro x hx
        rcases List.mem_cons.1 hx with rfl | hx
        · exact ⟨rfl, by simpa using hs, e, by simp, rfl⟩
        · obtain ⟨b1, b2, e', he', b3⟩ := a3 x hx
          refine ⟨b1, ?_, e', by simp [he'], b3⟩
          have hin' := hin e' (by simp [he'])
          have := hin'.1
          have := hin'.2
          cases hh : seen.getD x.1.toNat false with
          | false => rfl
          | true =>
            rw [(hset x.1 ⟨by omega, by omega⟩).2 (Or.inr hh)] at b2
            cases b2
      · intro c hc
        rw [a4 c hc, hset c hc]
        simp only [List.map_cons, List.mem_cons]
        tauto
      · intro e' he'
        rcases List.mem_cons.1 he' with rfl | he'
        · refine (a4 (e'.dst - lo) ⟨by omega, by omega⟩).2 (Or.inl ?_)
          exact (hset _ ⟨by omega, by omega⟩).2 (Or.inl rfl)
        · exact a5 e' he'

/-- Invariant of the breadth first search from `i`. -/
structure BfsInv (m : Map E) (lo : Int) (n : Nat) (k i : Int) (pending done : List (Int × Int)) (seen : List Bool) (rest : List (Int × Int)) : Prop where
  all : done ++ pending = (i, 0) :: rest
  len : seen.length = n
  nodup : (rest.map Prod.fst).Nodup
  inr : ∀ x ∈ rest, In 0 n x.1
  seenIff : ∀ c, In 0 n c → (seen.getD c.toNat false = true ↔ c ∈ rest.map Prod.fst)
  depth : ∀ x ∈ done ++ pending, 0 ≤ x.2 ∧ x.2 ≤ max k 0
  sound : ∀ x ∈ done ++ pending, Within m x.2.toNat (i + lo) (x.1 + lo)
  closed : ∀ x ∈ done, x.2 < k → ∀ w, (m (x.1 + lo) w).isSome → ∃ d', d' ≤ x.2 + 1 ∧ (w - lo, d') ∈ rest
  sorted : pending.Pairwise fun x y => x.2 ≤ y.2
  near : ∀ x ∈ done ++ pending, ∀ y ∈ pending.head?, x.2 ≤ y.2 + 1

theorem bfs_length {k i : Int} {pending done : List (Int × Int)} {seen : List Bool} {rest : List (Int × Int)}
    (h : BfsInv m lo n k i pending done seen rest) : done.length + pending.length ≤ n + 1 := by
  have h1 : (done ++ pending).length = rest.length + 1 := by rw [h.all]; simp
  rw [List.length_append] at h1
  have h2 : rest.length ≤ n := by
    have hsub : rest.map Prod.fst ⊆ intRange 0 n := by
      intro c hc
      obtain ⟨x, hx, rfl⟩ := List.mem_map.1 hc
      have hx' := h.inr x hx
      rw [mem_intRange]
      have := hx'.1
      have := hx'.2
      omega
    have := (List.subperm_of_subset h.nodup hsub).length_le
    unfold intRange at this
    simpa using this
  omega

theorem Good.neighbours (h : Good g dir lo n m) {u : Int} (hu : In lo n u) : ∃ l, g.neighbours u = .ok l ∧ (l.map Edge.dst).Nodup ∧
    ∀ e, e ∈ l ↔ e.src = u ∧ m u e.dst = some e.data := by
  obtain ⟨l, h1, -, h3, h4⟩ := h.agrees.view u hu
  exact ⟨l, h1, h3, h4⟩

theorem powerBfs_spec (h : Good g dir lo n m) {k i : Int} (hi : In 0 n i) : ∀ (fuel : Nat) (pending done : List (Int × Int)) (seen : List Bool) (rest : List (Int × Int)),
    BfsInv m lo n k i pending done seen rest → n + 1 ≤ fuel + done.length → ∃ done' seen' rest', g.powerBfs k fuel pending done seen = .ok (done', seen') ∧
      BfsInv m lo n k i [] done' seen' rest' := by
  intro fuel
  induction fuel with
  | zero =>
    intro pending done seen rest hb hf
    have := bfs_length hb
    have hp : pending = [] := List.length_eq_zero_iff.1 (by omega)
    subst hp
    exact ⟨done, seen, rest, rfl, hb⟩
  | succ fuel ih =>
    intro pending done seen rest hb hf
    match pending, hb with
    | [], hb => exact ⟨done, seen, rest, rfl, hb⟩
    | (c, d) :: pending, hb =>
      have hc : In 0 n c := by
        have hx : (c, d) ∈ (i, 0) :: rest := by rw [← hb.all]; simp
        rcases List.mem_cons.1 hx with hx | hx
        · injection hx with hx; rw [hx]; exact hi
        · exact hb.inr _ hx
      have c1 := hc.1
      have c2 := hc.2
      have hnear : ∀ x ∈ done ++ (c, d) :: pending, x.2 ≤ d + 1 := fun x hx => hb.near x hx (c, d) (by simp)
      have hsort := List.pairwise_cons.1 hb.sorted
      have hap : (done ++ [(c, d)]) ++ pending = done ++ (c, d) :: pending := by simp
      unfold Graph.powerBfs
      split
      · rename_i hdk
        have hcin : In lo n (c + lo) := ⟨by omega, by omega⟩
        obtain ⟨nb, n1, n2, n3⟩ := h.neighbours hcin
        rw [h.isLo, n1, ok_bind]
        have hnbin : ∀ e ∈ nb, In lo n e.dst := fun e he => (h.map_in ((n3 e).1 he).2).2.1
        obtain ⟨s1, s2, s3, s4, s5⟩ := powerScan_spec (d + 1) nb seen hnbin hb.len
        set new := (Graph.powerScan lo (d + 1) nb seen).1
        set seen' := (Graph.powerScan lo (d + 1) nb seen).2
        have hd0 := (hb.depth (c, d) (by simp)).1
        simp only at hd0
        have hall : (done ++ [(c, d)]) ++ (pending ++ new) = (i, 0) :: (rest ++ new) := by
          rw [← List.append_assoc, hap, hb.all]; rfl
        have hnewin : ∀ x ∈ new, In 0 n x.1 := by
          intro x hx
          obtain ⟨-, -, e, he, hxe⟩ := s3 x hx
          have := (hnbin e he).1
          have := (hnbin e he).2
          exact ⟨by omega, by omega⟩
        have hmem : ∀ x, x ∈ (done ++ [(c, d)]) ++ (pending ++ new) → x ∈ done ++ (c, d) :: pending ∨ x ∈ new := by
          intro x hx
          simp only [List.mem_append, List.mem_cons, List.not_mem_nil, or_false] at hx ⊢
          tauto
        refine ih (pending ++ new) (done ++ [(c, d)]) seen' (rest ++ new) ⟨hall, s1, ?_, ?_, ?_, ?_, ?_, ?_, ?_, ?_⟩
          (by simp only [List.length_append, List.length_singleton]; omega)
        · rw [List.map_append, List.nodup_append]
          refine ⟨hb.nodup, s2, ?_⟩
          intro x hx y hy hxy
          subst hxy
          obtain ⟨z, hz, rfl⟩ := List.mem_map.1 hy
          have := (hb.seenIff z.1 (hnewin z hz)).2 hx
          rw [(s3 z hz).2.1] at this
          cases this
        · intro x hx
          rcases List.mem_append.1 hx with hx | hx
          · exact hb.inr x hx
          · exact hnewin x hx
        · intro c' hc'
          rw [s4 c' hc', hb.seenIff c' hc', List.map_append, List.mem_append]
        · intro x hx
          rcases hmem x hx with hx | hx
          · exact hb.depth x hx
          · rw [(s3 x hx).1]; omega
        · intro x hx
          rcases hmem x hx with hx | hx
          · exact hb.sound x hx
          · obtain ⟨t1, -, e, he, t3⟩ := s3 x hx
            rw [t1, show (d + 1).toNat = d.toNat + 1 from by omega]
            refine .step (hb.sound (c, d) (by simp)) ?_
            rw [t3, sub_add_cancel, ((n3 e).1 he).2]
            rfl
        · intro x hx hxk w hw
          rcases List.mem_append.1 hx with hx | hx
          · obtain ⟨d', hd', hm⟩ := hb.closed x hx hxk w hw
            exact ⟨d', hd', by simp [hm]⟩
          · rw [List.mem_singleton] at hx
            subst hx
            simp only at hw ⊢
            obtain ⟨dt, hdt⟩ := Option.isSome_iff_exists.1 hw
            have he : (⟨c + lo, w, dt⟩ : Edge E) ∈ nb := (n3 _).2 ⟨rfl, hdt⟩
            have hwin := hnbin _ he
            simp only at hwin
            have w1 := hwin.1
            have w2 := hwin.2
            have hwn : In 0 n (w - lo) := ⟨by omega, by omega⟩
            have := s5 _ he
            simp only at this
            rcases (s4 (w - lo) hwn).1 this with hs | hs
            · obtain ⟨y, hy, hye⟩ := List.mem_map.1 ((hb.seenIff _ hwn).1 hs)
              refine ⟨y.2, hnear y (by rw [hb.all]; simp [hy]), ?_⟩
              rw [← hye]; simp [hy]
            · obtain ⟨y, hy, hye⟩ := List.mem_map.1 hs
              refine ⟨y.2, le_of_eq (s3 y hy).1, ?_⟩
              rw [← hye]; simp [hy]
        · rw [List.pairwise_append]
          refine ⟨hsort.2, ?_, ?_⟩
          · rw [List.pairwise_iff_getElem]
            intro a b ha hb' _
            rw [(s3 _ (List.getElem_mem ha)).1, (s3 _ (List.getElem_mem hb')).1]
          · intro x hx y hy
            rw [(s3 y hy).1]
            exact hnear x (by simp [hx])
        · intro x hx y hy
          have hyd : d ≤ y.2 := by
            have hy' := List.mem_of_mem_head? hy
            rcases List.mem_append.1 hy' with hy' | hy'
            · exact hsort.1 y hy'
            · rw [(s3 y hy').1]; omega
          rcases hmem x hx with hx | hx
          · have := hnear x hx; omega
          · rw [(s3 x hx).1]; omega
      · rename_i hdk
        refine ih pending (done ++ [(c, d)]) seen rest ⟨by rw [hap]; exact hb.all, hb.len, hb.nodup, hb.inr, hb.seenIff, by rw [hap]; exact hb.depth,
          by rw [hap]; exact hb.sound, ?_, hsort.2, ?_⟩ (by simp; omega)
        · intro x hx hxk
          rcases List.mem_append.1 hx with hx | hx
          · exact hb.closed x hx hxk
          · rw [List.mem_singleton] at hx
            subst hx
            exact absurd hxk hdk
        · intro x hx y hy
          rw [hap] at hx
          have := hnear x hx
          have := hsort.1 y (List.mem_of_mem_head? hy)
          simp only at this
          omega

/-- After the search the queue contains exactly the vertices within `k` steps. -/
theorem bfs_complete {k i : Int} {done : List (Int × Int)} {seen : List Bool} {rest : List (Int × Int)}
    (hb : BfsInv m lo n k i [] done seen rest) {t : Nat} {x y : Int} (hw : Within m t x y) (hx : x = i + lo) (ht : (t : Int) ≤ k) :
    (y = x ∨ (y - lo) ∈ rest.map Prod.fst) ∧ ∃ d, d ≤ (t : Int) ∧ (y - lo, d) ∈ done := by
  have hdone : done = (i, 0) :: rest := by have := hb.all; simpa using this
  induction hw with
  | refl t u =>
    subst hx
    exact ⟨Or.inl rfl, 0, by omega, by rw [hdone]; simp⟩
  | @step t u v w _ hm ih =>
    obtain ⟨-, d, hd, hv⟩ := ih hx (by push_cast at ht; omega)
    obtain ⟨d', hd', hr⟩ := hb.closed _ hv (by simp only; push_cast at ht; omega) w (by simpa using hm)
    simp only at hd'
    exact ⟨Or.inr (List.mem_map.2 ⟨_, hr, rfl⟩), d', by push_cast; omega, by rw [hdone]; simp [hr]⟩

theorem unsee : ∀ (l : List (Int × Int)) (seen : List Bool) (c : Nat),
    (l.foldl (fun seen (x : Int × Int) => seen.set x.1.toNat false) seen).getD c false = true ↔ seen.getD c false = true ∧ ∀ x ∈ l, x.1.toNat ≠ c
  | [], seen, c => by simp
  | x :: l, seen, c => by
    rw [List.foldl_cons, unsee l]
    rw [List.getD_eq_getElem?_getD, List.getD_eq_getElem?_getD, List.getElem?_set]
    by_cases hc : x.1.toNat = c
    · rw [if_pos hc]
      constructor
      · rintro ⟨h, -⟩
        split at h <;> simp at h
      · rintro ⟨-, h⟩
        exact absurd hc (h x (by simp))
    · rw [if_neg hc]
      simp only [List.mem_cons, forall_eq_or_imp]
      tauto

theorem unsee_length : ∀ (l : List (Int × Int)) (seen : List Bool),
    (l.foldl (fun seen (x : Int × Int) => seen.set x.1.toNat false) seen).length = seen.length
  | [], seen => rfl
  | x :: l, seen => by rw [List.foldl_cons, unsee_length l]; simp

/-- The edges found by `power`, for both kinds of graphs. -/
theorem power_edges [Inhabited E] (h : Good g dir lo n m) (k : Int) {fuel : Nat} (hfuel : n + 1 ≤ fuel) : ∃ (ts : List (Edge E)) (seen : List Bool),
    forI 0 g.nodeCount (fun i (s : List (Rec E) × List Bool) => do
      let q ← g.powerBfs k fuel [(i, 0)] [] s.2
      pure (s.1 ++ (q.1.filter fun x => decide (i ≠ x.1)).map (fun x => Graph.mkRec (i + g.minId) (x.1 + g.minId) default),
        q.1.foldl (fun seen x => seen.set x.1.toNat false) q.2)) ([], List.replicate g.adj.length false) = .ok (ts.map Edge.toRec, seen) ∧
    Uniq true ts ∧ ∀ e : Edge E, e ∈ ts ↔ e.data = default ∧ In lo n e.src ∧ e.src ≠ e.dst ∧ Within m k.toNat e.src e.dst := by
  obtain ⟨s', h1, ts, h2, h3, h4, h5⟩ := forI_inv (a := 0) (b := g.nodeCount) (f := fun i (s : List (Rec E) × List Bool) => do
      let q ← g.powerBfs k fuel [(i, 0)] [] s.2
      pure (s.1 ++ (q.1.filter fun x => decide (i ≠ x.1)).map (fun x => Graph.mkRec (i + g.minId) (x.1 + g.minId) default),
        q.1.foldl (fun seen x => seen.set x.1.toNat false) q.2)) (s := ([], List.replicate g.adj.length false))
    (fun i s => ∃ ts : List (Edge E), s.1 = ts.map Edge.toRec ∧ (s.2.length = n ∧ ∀ c : Nat, s.2.getD c false = false) ∧ Uniq true ts ∧
      ∀ e : Edge E, e ∈ ts ↔ e.data = default ∧ (In lo n e.src ∧ e.src < lo + i) ∧ e.src ≠ e.dst ∧ Within m k.toNat e.src e.dst)
    ⟨[], rfl, ⟨by simp [h.size], by
      intro c
      rw [List.getD_eq_getElem?_getD, List.getElem?_replicate]
      split <;> rfl⟩, List.Pairwise.nil, by
      intro e
      constructor
      · intro h; simp at h
      · rintro ⟨-, ⟨⟨a, -⟩, b⟩, -⟩; omega⟩ (by rw [h.nodeCount_eq]; omega) (by
    rintro i ⟨es, seen⟩ hi0 hin ⟨ts, rfl', ⟨hl, hs⟩, hu, hmem⟩
    simp only at rfl' hl hs
    subst rfl'
    rw [h.nodeCount_eq] at hin
    have hi : In 0 n i := ⟨hi0, by omega⟩
    have hinit : BfsInv m lo n k i [(i, 0)] [] seen [] := by
      refine ⟨rfl, hl, by simp, by simp, ?_, ?_, ?_, by simp, by simp, ?_⟩
      · intro c _; rw [hs]; simp
      · intro x hx; simp at hx; subst hx; simp
      · intro x hx; simp at hx; subst hx; exact .refl _ _
      · intro x hx y hy; simp at hx hy; subst hx; subst hy; simp
    obtain ⟨done, seen', rest, hq, hb⟩ := powerBfs_spec h hi fuel [(i, 0)] [] seen [] hinit (by simpa using hfuel)
    have hdone : done = (i, 0) :: rest := by have := hb.all; simpa using this
    simp only
    rw [hq, ok_bind, pure_out]
    have hsrcs : ∀ e ∈ ts, e.src < lo + i := fun e he => ((hmem e).1 he).2.1.2
    refine ⟨_, rfl, ts ++ (rest.filter fun x => decide (i ≠ x.1)).map (fun x => ⟨i + lo, x.1 + lo, default⟩), ?_, ⟨?_, ?_⟩, ?_, ?_⟩
    · simp only
      rw [hdone, List.filter_cons, decide_eq_false (by simp), List.map_append, List.map_map, h.isLo]
      rfl
    · simp only; rw [unsee_length, hb.len]
    · intro c
      simp only
      rw [← Bool.not_eq_true, unsee]
      rintro ⟨hc, hno⟩
      have hcn : c < n := by
        by_contra hge
        rw [List.getD_eq_getElem?_getD, List.getElem?_eq_none (by rw [hb.len]; omega)] at hc
        cases hc
      obtain ⟨x, hx, hxc⟩ := List.mem_map.1 ((hb.seenIff c ⟨by omega, by omega⟩).1 (by simpa using hc))
      exact hno x (by rw [hdone]; simp [hx]) (by omega)
    · unfold Uniq
      rw [List.pairwise_append]
      refine ⟨hu, ?_, ?_⟩
      · rw [List.pairwise_map]
        have hnd := hb.nodup
        unfold List.Nodup at hnd
        rw [List.pairwise_map] at hnd
        refine (hnd.filter _).imp ?_
        rintro a b hab (⟨-, h2⟩ | ⟨c, -⟩)
        · simp only at h2
          exact hab (by omega)
        · cases c
      · intro a ha b hb' hs
        obtain ⟨x, -, rfl⟩ := List.mem_map.1 hb'
        have := hsrcs a ha
        rcases hs with ⟨h1, -⟩ | ⟨c, -⟩
        · simp only at h1; omega
        · cases c
    · intro e
      rw [List.mem_append, hmem e]
      constructor
      · rintro (⟨a1, ⟨a2, a3⟩, a4, a5⟩ | he)
        · exact ⟨a1, ⟨a2, by omega⟩, a4, a5⟩
        · obtain ⟨x, hx, rfl⟩ := List.mem_map.1 he
          obtain ⟨hx, hne⟩ := List.mem_filter.1 hx
          simp only [decide_eq_true_eq] at hne
          have hxd : x ∈ done ++ [] := by rw [hb.all]; simp [hx]
          have hsd := hb.sound x hxd
          have hdp := hb.depth x hxd
          refine ⟨rfl, ⟨⟨by simp only; omega, by simp only; omega⟩, by simp only; omega⟩, by simp only; omega, ?_⟩
          exact within_mono hsd (by omega)
      · rintro ⟨a1, ⟨a2, a3⟩, a4, a5⟩
        by_cases hlt : e.src < lo + i
        · exact Or.inl ⟨a1, ⟨a2, hlt⟩, a4, a5⟩
        · right
          have hk : 0 ≤ k := by
            by_contra hk
            rw [show k.toNat = 0 from by omega] at a5
            exact a4 (within_zero a5)
          have hsrc : e.src = i + lo := by omega
          obtain ⟨hor, -⟩ := bfs_complete hb a5 hsrc (by omega)
          rcases hor with hor | hor
          · exact absurd hor.symm a4
          · obtain ⟨x, hx, hxe⟩ := List.mem_map.1 hor
            refine List.mem_map.2 ⟨x, List.mem_filter.2 ⟨hx, ?_⟩, ?_⟩
            · simp only [decide_eq_true_eq]; omega
            · cases e
              simp only at *
              rw [hsrc, hxe, a1, sub_add_cancel])
  refine ⟨ts, s'.2, ?_, h4, ?_⟩
  · rw [h1, ← h2]
  · intro e
    rw [h5 e]
    constructor
    · rintro ⟨a1, ⟨a2, -⟩, a3⟩; exact ⟨a1, a2, a3⟩
    · rintro ⟨a1, a2, a3⟩
      refine ⟨a1, ⟨a2, ?_⟩, a3⟩
      rw [h.nodeCount_eq]; exact a2.2

theorem within_in (h : Good g dir lo n m) {k : Nat} {u v : Int} (hw : Within m k u v) (hu : In lo n u) : In lo n v := by
  cases hw with
  | refl => exact hu
  | step _ hm => exact (h.isSome_in hm).2.1

theorem Good.power [Inhabited E] (h : Good g true lo n m) (k : Int) {fuel : Nat} (hfuel : n + 1 ≤ fuel) :
    ∃ g', g.power fuel k = .ok g' ∧ Good g' true lo n (powerMap k lo n m) := by
  obtain ⟨ts, seen, h1, h2, h3⟩ := power_edges h k hfuel
  obtain ⟨g', res, r1, r2, r3, r4, -⟩ := h.fresh true (ts := ts) (m' := powerMap k lo n m) (by
    intro e he
    obtain ⟨-, a2, a3, a4⟩ := (h3 e).1 he
    exact ⟨a2, within_in h a4 a2, a3⟩) h2 (by
    intro u v d
    unfold powerMap
    constructor
    · intro hd
      split at hd
      · rename_i hc
        exact ⟨⟨u, v, default⟩, (h3 _).2 ⟨rfl, hc.1, hc.2.1, hc.2.2⟩, Option.some.inj hd, Or.inl ⟨rfl, rfl⟩⟩
      · cases hd
    · rintro ⟨e, he, hd, hs⟩
      obtain ⟨a1, a2, a3, a4⟩ := (h3 e).1 he
      rcases hs with ⟨rfl, rfl⟩ | ⟨c, -⟩
      · rw [if_pos ⟨a2, a3, a4⟩, ← hd, a1]
      · cases c)
  refine ⟨g', ?_, r4⟩
  unfold Graph.power
  rw [r1, ok_bind, h.isDir, r2, ok_bind, h1, ok_bind]
  exact r3

end ICPC.Gen
