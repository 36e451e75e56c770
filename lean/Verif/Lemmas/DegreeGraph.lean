import Verif.Model.DegreeGraph
import Verif.Spec.DegreeGraph
import Verif.Lemmas.HavelHakimi
import Verif.Lemmas.Families

/-!
# The loop of Havel and Hakimi
-/

namespace ICPC.Gen

open ICPC Spec.EdgeMap

variable {E : Type} [Inhabited E] {g : Graph E} {n : Nat} {m : Map E}

/-- The relation of a map. -/
def bm (m : Map E) (u v : Int) : Bool := (m u v).isSome

omit [Inhabited E] in
theorem Good.sim (h : Good g false 0 n m) : Sim n (bm m) := by
  constructor
  · intro u v huv
    unfold bm at *
    rw [h.isSome_iff] at huv ⊢
    obtain ⟨e, he, hs⟩ := huv
    refine ⟨e, he, ?_⟩
    unfold Same at *
    tauto
  · intro u v huv
    exact h.isSome_in huv

omit [Inhabited E] in
theorem Good.degree (h : Good g false 0 n m) {u : Int} (hu : In 0 n u) : g.degree u = .ok ((nb n (bm m) u).card : Int) := by
  obtain ⟨l, -, h2, h3, h4⟩ := h.agrees.view u hu
  rw [h2]
  have : nb n (bm m) u = (l.map Edge.dst).toFinset := by
    ext v
    rw [h.sim.mem, List.mem_toFinset, List.mem_map]
    unfold bm
    constructor
    · intro hs
      obtain ⟨d, hd⟩ := Option.isSome_iff_exists.1 hs
      exact ⟨⟨u, v, d⟩, (h4 _).2 ⟨rfl, hd⟩, rfl⟩
    · rintro ⟨e, he, rfl⟩
      rw [((h4 e).1 he).2]
      rfl
  rw [this, List.toFinset_card_of_nodup h3, List.length_map]

/-! ## The queue -/

def ids (q : List (Int × Int)) : List Int := q.map Prod.snd

def Desc (q : List (Int × Int)) : Prop := q.Pairwise fun a b => b.1 ≤ a.1

theorem pqPush_perm (e : Int × Int) (q : List (Int × Int)) : (pqPush e q).Perm (e :: q) := by
  induction q with
  | nil => exact List.Perm.refl _
  | cons x q ih =>
    unfold pqPush
    split
    · exact List.Perm.refl _
    · exact (List.Perm.cons x ih).trans (List.Perm.swap e x q)

theorem pqPush_desc (e : Int × Int) (q : List (Int × Int)) (h : Desc q) : Desc (pqPush e q) := by
  induction q with
  | nil => exact List.pairwise_singleton _ _
  | cons x q ih =>
    unfold pqPush
    obtain ⟨h1, h2⟩ := List.pairwise_cons.1 h
    split
    · next hlt =>
      have hle : x.1 ≤ e.1 := by
        simp only [pairLt, Bool.or_eq_true, Bool.and_eq_true, decide_eq_true_eq] at hlt
        omega
      refine List.pairwise_cons.2 ⟨fun y hy => ?_, h⟩
      rcases List.mem_cons.1 hy with rfl | hy
      · exact hle
      · exact le_trans (h1 y hy) hle
    · next hlt =>
      have hle : e.1 ≤ x.1 := by
        simp only [pairLt, Bool.or_eq_true, Bool.and_eq_true, decide_eq_true_eq] at hlt
        omega
      refine List.pairwise_cons.2 ⟨fun y hy => ?_, ih h2⟩
      rcases List.mem_cons.1 ((pqPush_perm e q).mem_iff.1 hy) with rfl | hy
      · exact hle
      · exact h1 y hy

theorem pushAll_perm (todo : List (Int × Int)) : ∀ q, (pushAll q todo).Perm (todo ++ q) := by
  induction todo with
  | nil => intro q; exact List.Perm.refl _
  | cons e todo ih =>
    intro q
    refine (ih (pqPush e q)).trans ?_
    exact (List.Perm.append_left todo (pqPush_perm e q)).trans List.perm_middle

theorem pushAll_desc (todo : List (Int × Int)) : ∀ q, Desc q → Desc (pushAll q todo) := by
  induction todo with
  | nil => intro q h; exact h
  | cons e todo ih => intro q h; exact ih _ (pqPush_desc e q h)

/-- The queue stands for the degrees `r`. -/
structure Rep (n : Nat) (q : List (Int × Int)) (r : Int → Nat) : Prop where
  nodup : (ids q).Nodup
  entry : ∀ e ∈ q, In 0 n e.2 ∧ 0 < e.1 ∧ I64 e.1 ∧ (r e.2 : Int) = e.1
  rest : ∀ u, In 0 n u → u ∉ ids q → r u = 0

/-- The entries that are pushed again. -/
def again (q : List (Int × Int)) : List (Int × Int) := (q.map fun e => (e.1 - 1, e.2)).filter fun e => decide (0 < e.1)

theorem connect_eq (c : Int) (k : Nat) : ∀ (q todo : List (Int × Int)) (g : Graph E), k ≤ q.length → (∀ e ∈ q, 0 < e.1 ∧ I64 e.1) →
    connect c k q todo g = (do
      let g ← addPairs g ((q.take k).map fun e => (c, e.2))
      pure (q.drop k, todo ++ again (q.take k), g)) := by
  induction k with
  | zero =>
    intro q todo g _ _
    simp [connect, addPairs, again]
  | succ k ih =>
    intro q todo g hk hq
    cases q with
    | nil => simp at hk
    | cons e q =>
      obtain ⟨dd, cc⟩ := e
      obtain ⟨h1, h2⟩ := hq (dd, cc) List.mem_cons_self
      have h3 : I64 (dd - 1) := by unfold I64 at *; dsimp only at *; omega
      unfold connect
      rw [List.take_succ_cons, List.map_cons, List.drop_succ_cons]
      unfold addPairs
      rw [List.foldlM_cons]
      show _ = ((g.add c cc default >>= fun g' => addPairs g' ((q.take k).map fun e => (c, e.2))) >>= _)
      rw [bind_assoc]
      refine bind_congr fun g' => ?_
      rw [chk_ok h3, ok_bind, ih q _ g' (by simpa using hk) (fun e he => hq e (List.mem_cons_of_mem _ he))]
      refine bind_congr fun g'' => ?_
      refine congrArg Except.ok ?_
      unfold again
      rw [List.map_cons, List.filter_cons]
      by_cases hd : 0 < dd - 1
      · have hd' : 1 < dd := by omega
        simp [hd']
      · have hd' : ¬ 1 < dd := by omega
        simp [hd']

theorem mem_ids {q : List (Int × Int)} {u : Int} : u ∈ ids q ↔ ∃ e ∈ q, e.2 = u := List.mem_map

theorem again_sublist (q : List (Int × Int)) : (ids (again q)).Sublist (ids q) := by
  have : ids q = ids (q.map fun e => (e.1 - 1, e.2)) := by
    unfold ids
    rw [List.map_map]
    rfl
  rw [this]
  exact List.Sublist.map _ List.filter_sublist

theorem mem_again {q : List (Int × Int)} {e : Int × Int} : e ∈ again q ↔ ∃ x ∈ q, e = (x.1 - 1, x.2) ∧ 1 < x.1 := by
  unfold again
  rw [List.mem_filter, List.mem_map]
  constructor
  · rintro ⟨⟨x, hx, rfl⟩, h⟩
    refine ⟨x, hx, rfl, ?_⟩
    simpa using h
  · rintro ⟨x, hx, rfl, h⟩
    exact ⟨⟨x, hx, rfl⟩, by simpa using h⟩

/-- The effect of one round on the queue. -/
theorem round_rep {d c : Int} {q : List (Int × Int)} {r : Int → Nat} (h : Rep n ((d, c) :: q) r) (k : Nat) {T : Finset Int}
    (hT : ∀ u, u ∈ T ↔ u ∈ ids (q.take k)) :
    Rep n (pushAll (q.drop k) (again (q.take k))) (fun u => if u = c then 0 else if u ∈ T then r u - 1 else r u) ∧
      (∀ u, u ∈ ids (pushAll (q.drop k) (again (q.take k))) → u ∈ ids q) ∧
      (pushAll (q.drop k) (again (q.take k))).length ≤ q.length := by
  have hperm := pushAll_perm (again (q.take k)) (q.drop k)
  have hidp : (ids (pushAll (q.drop k) (again (q.take k)))).Perm (ids (again (q.take k)) ++ ids (q.drop k)) := by
    have := hperm.map Prod.snd
    rwa [List.map_append] at this
  have hsub : (ids (again (q.take k)) ++ ids (q.drop k)).Sublist (ids q) := by
    have e : ids q = ids (q.take k) ++ ids (q.drop k) := by
      unfold ids
      rw [← List.map_append, List.take_append_drop]
    rw [e]
    exact List.Sublist.append (again_sublist _) (List.Sublist.refl _)
  have hnd := h.nodup
  unfold ids at hnd
  rw [List.map_cons, List.nodup_cons] at hnd
  have hndq : (ids q).Nodup := hnd.2
  have hcq : c ∉ ids q := hnd.1
  have hids : ∀ u, u ∈ ids (pushAll (q.drop k) (again (q.take k))) → u ∈ ids q := fun u hu => hsub.subset (hidp.mem_iff.1 hu)
  have htk : ∀ e ∈ q.take k, e ∈ q := fun e he => List.mem_of_mem_take he
  have hdisj : ∀ u, u ∈ ids (q.take k) → u ∈ ids (q.drop k) → False := by
    have e : ids q = ids (q.take k) ++ ids (q.drop k) := by
      unfold ids
      rw [← List.map_append, List.take_append_drop]
    rw [e] at hndq
    intro u h1 h2
    exact (List.nodup_append.1 hndq).2.2 u h1 u h2 rfl
  refine ⟨⟨?_, ?_, ?_⟩, hids, ?_⟩
  · exact hidp.nodup_iff.2 (hsub.nodup hndq)
  · intro e he
    have hec : e.2 ≠ c := fun e1 => hcq (e1 ▸ hids _ (mem_ids.2 ⟨e, he, rfl⟩))
    rw [if_neg hec]
    rcases List.mem_append.1 (hperm.mem_iff.1 he) with he | he
    · obtain ⟨x, hx, rfl, h1⟩ := mem_again.1 he
      obtain ⟨k1, k2, k3, k4⟩ := h.entry x (List.mem_cons_of_mem _ (htk x hx))
      rw [if_pos ((hT _).2 (mem_ids.2 ⟨x, hx, rfl⟩))]
      refine ⟨k1, by dsimp only; omega, by unfold I64 at *; dsimp only; omega, ?_⟩
      dsimp only
      omega
    · obtain ⟨k1, k2, k3, k4⟩ := h.entry e (List.mem_cons_of_mem _ (List.mem_of_mem_drop he))
      rw [if_neg (fun hh => hdisj e.2 ((hT _).1 hh) (mem_ids.2 ⟨e, he, rfl⟩))]
      exact ⟨k1, k2, k3, k4⟩
  · intro u hu hn
    split
    · rfl
    · next huc =>
      split
      · next huT =>
        obtain ⟨x, hx, rfl⟩ := mem_ids.1 ((hT u).1 huT)
        obtain ⟨k1, k2, k3, k4⟩ := h.entry x (List.mem_cons_of_mem _ (htk x hx))
        by_contra hne
        refine hn (hidp.mem_iff.2 (List.mem_append.2 (Or.inl (mem_ids.2 ⟨(x.1 - 1, x.2), mem_again.2 ⟨x, hx, rfl, ?_⟩, rfl⟩))))
        omega
      · next huT =>
        refine h.rest u hu fun hmem => ?_
        unfold ids at hmem
        rw [List.map_cons, List.mem_cons] at hmem
        rcases hmem with hmem | hmem
        · exact huc hmem
        · have e : ids q = ids (q.take k) ++ ids (q.drop k) := by
            unfold ids
            rw [← List.map_append, List.take_append_drop]
          have hmem' : u ∈ ids q := hmem
          rw [e, List.mem_append] at hmem'
          rcases hmem' with h1 | h1
          · exact huT ((hT u).2 h1)
          · exact hn (hidp.mem_iff.2 (List.mem_append.2 (Or.inr h1)))
  · have h1 := hidp.length_eq
    have h2 := hsub.length_le
    unfold ids at h1 h2
    rw [List.length_map] at h1
    rw [List.length_map] at h2
    omega

theorem round_dom {d c : Int} {q : List (Int × Int)} {r : Int → Nat} (h : Rep n ((d, c) :: q) r) (hq : Desc q) (k : Nat) {T : Finset Int}
    (hT : ∀ u, u ∈ T ↔ u ∈ ids (q.take k)) : ∀ y ∈ T, ∀ z, In 0 n z → z ∉ T → z ≠ c → r z ≤ r y := by
  intro y hy z hz hzT hzc
  obtain ⟨x, hx, rfl⟩ := mem_ids.1 ((hT y).1 hy)
  by_cases hzq : z ∈ ids q
  · obtain ⟨w, hw, rfl⟩ := mem_ids.1 hzq
    have hwd : w ∈ q.drop k := by
      rw [← List.take_append_drop k q, List.mem_append] at hw
      refine hw.resolve_left fun hh => hzT ((hT _).2 (mem_ids.2 ⟨w, hh, rfl⟩))
    unfold Desc at hq
    rw [← List.take_append_drop k q, List.pairwise_append] at hq
    have h1 := hq.2.2 x hx w hwd
    have h2 := (h.entry x (List.mem_cons_of_mem _ (List.mem_of_mem_take hx))).2.2.2
    have h3 := (h.entry w (List.mem_cons_of_mem _ hw)).2.2.2
    omega
  · rw [h.rest z hz ?_]
    · omega
    · intro hmem
      unfold ids at hmem
      rw [List.map_cons, List.mem_cons] at hmem
      exact hmem.elim hzc hzq

omit [Inhabited E] in
/-- The effect of one round on the degrees. -/
theorem round_degree {m1 : Map E} {c : Int} {T : Finset Int} (hs : Sim n (bm m)) (hs1 : Sim n (bm m1)) (hcT : c ∉ T)
    (hiff : ∀ u v, bm m1 u v = true ↔ bm m u v = true ∨ (u = c ∧ v ∈ T) ∨ (v = c ∧ u ∈ T)) (hnew : ∀ v ∈ T, bm m c v = false) (u : Int) :
    (nb n (bm m1) u).card = (nb n (bm m) u).card + if u = c then T.card else if u ∈ T then 1 else 0 := by
  split
  · next e =>
    subst e
    have : nb n (bm m1) u = nb n (bm m) u ∪ T := by
      ext v
      rw [hs1.mem, Finset.mem_union, hs.mem, hiff]
      constructor
      · rintro (h | ⟨-, h⟩ | ⟨-, h⟩)
        · exact Or.inl h
        · exact Or.inr h
        · exact absurd h hcT
      · rintro (h | h)
        · exact Or.inl h
        · exact Or.inr (Or.inl ⟨rfl, h⟩)
    rw [this, Finset.card_union_of_disjoint]
    rw [Finset.disjoint_left]
    intro v hv hvT
    rw [hs.mem, hnew v hvT] at hv
    cases hv
  · next hu =>
    split
    · next huT =>
      have : nb n (bm m1) u = insert c (nb n (bm m) u) := by
        ext v
        rw [hs1.mem, Finset.mem_insert, hs.mem, hiff]
        tauto
      rw [this, Finset.card_insert_of_notMem]
      rw [hs.mem, hs.comm, hnew u huT]
      simp
    · next huT =>
      have : nb n (bm m1) u = nb n (bm m) u := by
        ext v
        rw [hs1.mem, hs.mem, hiff]
        tauto
      rw [this]
      rfl

theorem havelHakimi_ok (f : Nat) : ∀ (q : List (Int × Int)) (g : Graph E) (m : Map E) (r : Int → Nat), q.length < f → Good g false 0 n m → Rep n q r →
    Desc q → (∀ u v, bm m u v = true → u ∉ ids q ∨ v ∉ ids q) →
    (∃ g' m', havelHakimi f q g = .ok g' ∧ Good g' false 0 n m' ∧ ∀ u, In 0 n u → (nb n (bm m') u).card = (nb n (bm m) u).card + r u) ∨
      (havelHakimi f q g = .error .throw ∧ ¬ ∃ b, Real' n b r) := by
  induction f with
  | zero => intro q g m r h; omega
  | succ f ih =>
    intro q g m r hf hg hrep hdesc hqq
    cases q with
    | nil =>
      refine Or.inl ⟨g, m, rfl, hg, fun u hu => ?_⟩
      rw [hrep.rest u hu (by simp [ids])]
      rfl
    | cons e q =>
      obtain ⟨d, c⟩ := e
      obtain ⟨k1, k2, k3, k4⟩ := hrep.entry (d, c) List.mem_cons_self
      dsimp only at k1 k2 k3 k4
      have hnd := hrep.nodup
      unfold ids at hnd
      rw [List.map_cons, List.nodup_cons] at hnd
      have hndq : (ids q).Nodup := hnd.2
      have hcq : c ∉ ids q := hnd.1
      unfold havelHakimi
      by_cases hshort : (q.length : Int) < d ∨ d < 0
      · rw [if_pos hshort]
        refine Or.inr ⟨rfl, ?_⟩
        rintro ⟨b, hb⟩
        have := real_le hb k1 (T := (ids q).toFinset) (by
          intro v hv hvc hpos
          rw [List.mem_toFinset]
          by_contra hno
          have := hrep.rest v hv (by
            unfold ids
            rw [List.map_cons, List.mem_cons]
            rintro (hh | hh)
            · exact hvc hh
            · exact hno hh)
          omega)
        rw [List.toFinset_card_of_nodup hndq] at this
        unfold ids at this
        rw [List.length_map] at this
        omega
      · rw [if_neg hshort]
        have hk : d.toNat ≤ q.length := by omega
        rw [connect_eq c d.toNat q [] g hk (fun e he => by
          have := hrep.entry e (List.mem_cons_of_mem _ he)
          exact ⟨this.2.1, this.2.2.1⟩)]
        set T : Finset Int := (ids (q.take d.toNat)).toFinset with hTdef
        have hT : ∀ u, u ∈ T ↔ u ∈ ids (q.take d.toNat) := fun u => List.mem_toFinset
        have hTq : ∀ u, u ∈ T → u ∈ ids q := fun u hu => by
          obtain ⟨x, hx, rfl⟩ := mem_ids.1 ((hT u).1 hu)
          exact mem_ids.2 ⟨x, List.mem_of_mem_take hx, rfl⟩
        have hcT : c ∉ T := fun hh => hcq (hTq _ hh)
        have hTin : ∀ y ∈ T, In 0 n y := by
          intro y hy
          obtain ⟨x, hx, rfl⟩ := mem_ids.1 (hTq y hy)
          exact (hrep.entry x (List.mem_cons_of_mem _ hx)).1
        have hcard : T.card = d.toNat := by
          rw [hTdef, List.toFinset_card_of_nodup]
          · unfold ids
            rw [List.length_map, List.length_take]
            omega
          · exact ((List.take_sublist _ _).map Prod.snd).nodup hndq
        obtain ⟨g1, h1, m1, h2, h3, -⟩ := hg.addPairs ((q.take d.toNat).map fun e => (c, e.2)) (by
          intro p hp
          obtain ⟨x, hx, rfl⟩ := List.mem_map.1 hp
          have hmem : x.2 ∈ T := (hT _).2 (mem_ids.2 ⟨x, hx, rfl⟩)
          exact ⟨k1, hTin _ hmem, fun e => hcT (by rw [show c = x.2 from e]; exact hmem)⟩)
        rw [h1, ok_bind]
        have hiff : ∀ u v, bm m1 u v = true ↔ bm m u v = true ∨ (u = c ∧ v ∈ T) ∨ (v = c ∧ u ∈ T) := by
          intro u v
          unfold bm
          rw [h3]
          refine or_congr_right ?_
          constructor
          · rintro ⟨p, hp, hs⟩
            obtain ⟨x, hx, rfl⟩ := List.mem_map.1 hp
            have hmem : x.2 ∈ T := (hT _).2 (mem_ids.2 ⟨x, hx, rfl⟩)
            rcases hs with ⟨rfl, rfl⟩ | ⟨-, rfl, rfl⟩
            · exact Or.inl ⟨rfl, hmem⟩
            · exact Or.inr ⟨rfl, hmem⟩
          · rintro (⟨rfl, hv⟩ | ⟨rfl, hu⟩)
            · obtain ⟨x, hx, rfl⟩ := mem_ids.1 ((hT v).1 hv)
              exact ⟨_, List.mem_map.2 ⟨x, hx, rfl⟩, Or.inl ⟨rfl, rfl⟩⟩
            · obtain ⟨x, hx, rfl⟩ := mem_ids.1 ((hT u).1 hu)
              exact ⟨_, List.mem_map.2 ⟨x, hx, rfl⟩, Or.inr ⟨rfl, rfl, rfl⟩⟩
        obtain ⟨r1, r2, r3⟩ := round_rep hrep d.toNat hT
        have hdq : Desc q := (List.pairwise_cons.1 hdesc).2
        have hdeg := round_degree hg.sim h2.sim hcT hiff (by
          intro v hv
          by_contra hh
          rcases hqq c v (by simpa using hh) with h5 | h5
          · exact h5 (by simp [ids])
          · exact h5 (by unfold ids; rw [List.map_cons]; exact List.mem_cons_of_mem _ (hTq v hv)))
        show (∃ g' m', havelHakimi f (pushAll (q.drop d.toNat) ([] ++ again (q.take d.toNat))) g1 = .ok g' ∧ _) ∨
          (havelHakimi f (pushAll (q.drop d.toNat) ([] ++ again (q.take d.toNat))) g1 = .error .throw ∧ _)
        rw [List.nil_append]
        rcases ih (pushAll (q.drop d.toNat) (again (q.take d.toNat))) g1 m1 _ (by simp only [List.length_cons] at hf; omega) h2 r1
          (pushAll_desc _ _ (List.Pairwise.sublist (List.drop_sublist _ _) hdq)) (by
            intro u v huv
            rcases (hiff u v).1 huv with h5 | ⟨rfl, -⟩ | ⟨rfl, -⟩
            · rcases hqq u v h5 with h6 | h6
              · exact Or.inl fun hh => h6 (by unfold ids; rw [List.map_cons]; exact List.mem_cons_of_mem _ (r2 u hh))
              · exact Or.inr fun hh => h6 (by unfold ids; rw [List.map_cons]; exact List.mem_cons_of_mem _ (r2 v hh))
            · exact Or.inl fun hh => hcq (r2 _ hh)
            · exact Or.inr fun hh => hcq (r2 _ hh)) with ⟨g', m', e1, e2, e3⟩ | ⟨e1, e2⟩
        · refine Or.inl ⟨g', m', e1, e2, fun u hu => ?_⟩
          rw [e3 u hu, hdeg u]
          split
          · next e => subst e; omega
          · split
            · next huT =>
              obtain ⟨x, hx, rfl⟩ := mem_ids.1 (hTq u huT)
              have := hrep.entry x (List.mem_cons_of_mem _ hx)
              omega
            · omega
        · refine Or.inr ⟨e1, fun ⟨b, hb⟩ => e2 ?_⟩
          exact hh_reduce hb k1 hTin hcT (by omega) (round_dom hrep hdq _ hT)

/-! ## The queue at the beginning -/

theorem initQueue_desc (degree : List Int) : ∀ i q, Desc q → Desc (initQueue i degree q) := by
  induction degree with
  | nil => intro i q h; exact h
  | cons d degree ih =>
    intro i q h
    unfold initQueue
    refine ih _ _ ?_
    split
    · exact pqPush_desc _ _ h
    · exact h

theorem initQueue_spec (degree : List Int) : ∀ (i : Int) (q : List (Int × Int)), (ids q).Nodup → (∀ u ∈ ids q, u < i) →
    (ids (initQueue i degree q)).Nodup ∧
      ∀ e, e ∈ initQueue i degree q ↔ e ∈ q ∨ ∃ (k : Nat) (hk : k < degree.length), 0 < degree[k] ∧ e = (degree[k], i + k) := by
  induction degree with
  | nil =>
    intro i q h1 h2
    exact ⟨h1, fun e => by simp [initQueue]⟩
  | cons d degree ih =>
    intro i q h1 h2
    unfold initQueue
    have hq : (ids (if d > 0 then pqPush (d, i) q else q)).Nodup ∧ (∀ u ∈ ids (if d > 0 then pqPush (d, i) q else q), u < i + 1) ∧
        ∀ e, e ∈ (if d > 0 then pqPush (d, i) q else q) ↔ e ∈ q ∨ (0 < d ∧ e = (d, i)) := by
      split
      · next hd =>
        have hp := pqPush_perm (d, i) q
        have hp' : (ids (pqPush (d, i) q)).Perm (i :: ids q) := hp.map Prod.snd
        refine ⟨hp'.nodup_iff.2 (List.nodup_cons.2 ⟨fun hh => absurd (h2 i hh) (by omega), h1⟩), ?_, ?_⟩
        · intro u hu
          rcases List.mem_cons.1 (hp'.mem_iff.1 hu) with rfl | hu
          · omega
          · have := h2 u hu; omega
        · intro e
          rw [hp.mem_iff, List.mem_cons]
          constructor
          · rintro (h | h)
            · exact Or.inr ⟨hd, h⟩
            · exact Or.inl h
          · rintro (h | ⟨-, h⟩)
            · exact Or.inr h
            · exact Or.inl h
      · next hd =>
        refine ⟨h1, fun u hu => by have := h2 u hu; omega, fun e => ?_⟩
        constructor
        · exact Or.inl
        · rintro (h | ⟨h, -⟩)
          · exact h
          · exact absurd h hd
    obtain ⟨a1, a2, a3⟩ := hq
    obtain ⟨b1, b2⟩ := ih (i + 1) _ a1 a2
    refine ⟨b1, fun e => ?_⟩
    rw [b2, a3]
    constructor
    · rintro ((h | ⟨h, rfl⟩) | ⟨k, hk, h, rfl⟩)
      · exact Or.inl h
      · exact Or.inr ⟨0, by simp, by simpa using h, by simp⟩
      · refine Or.inr ⟨k + 1, by simpa using hk, by simpa using h, ?_⟩
        rw [List.getElem_cons_succ]
        push_cast
        rw [Prod.mk.injEq]
        exact ⟨rfl, by omega⟩
    · rintro (h | ⟨k, hk, h, rfl⟩)
      · exact Or.inl (Or.inl h)
      · cases k with
        | zero => exact Or.inl (Or.inr ⟨by simpa using h, by simp⟩)
        | succ k =>
          refine Or.inr ⟨k, by simpa using hk, by simpa using h, ?_⟩
          rw [List.getElem_cons_succ]
          push_cast
          rw [Prod.mk.injEq]
          exact ⟨rfl, by omega⟩

theorem initQueue_rep (degree : List Int) (hd : ∀ d ∈ degree, I64 d) :
    Rep degree.length (initQueue 0 degree []) (fun u => (degree.getD u.toNat 0).toNat) := by
  obtain ⟨h1, h2⟩ := initQueue_spec degree 0 [] (by simp [ids]) (by simp [ids])
  refine ⟨h1, ?_, ?_⟩
  · intro e he
    rcases (h2 e).1 he with h | ⟨k, hk, h, rfl⟩
    · cases h
    · refine ⟨⟨by dsimp only; omega, by dsimp only; omega⟩, h, hd _ (List.getElem_mem _), ?_⟩
      dsimp only
      rw [show ((0 : Int) + k).toNat = k from by omega, List.getD_eq_getElem _ _ hk]
      omega
  · intro u hu hn
    obtain ⟨hu1, hu2⟩ := hu
    have hk : u.toNat < degree.length := by omega
    by_contra hne
    rw [List.getD_eq_getElem _ _ hk] at hne
    refine hn (mem_ids.2 ⟨_, (h2 _).2 (Or.inr ⟨u.toNat, hk, by omega, rfl⟩), ?_⟩)
    dsimp only
    omega

end ICPC.Gen
