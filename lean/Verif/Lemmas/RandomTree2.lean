import Verif.Lemmas.RandomTree

/-!
# Random directed trees
-/

namespace ICPC.Gen

open ICPC Spec.EdgeMap Spec.Tree ICPC.Gen.Tree Relation

variable {E : Type} [Inhabited E] {n : Nat} {V : Finset Int} {S A : Finset (Int × Int)} {r : Int} {par : Int → Int} {rank : Int → Nat}

/-- `u` is the parent of `v`. -/
def Par (V : Finset Int) (r : Int) (par : Int → Int) (u v : Int) : Prop := v ∈ V ∧ v ≠ r ∧ u = par v

theorem par_trans {u : Int} {cur : Int} : ReflTransGen (Par V r par) cur u ↔ u = cur ∨ ∃ d, Par V r par cur d ∧ ReflTransGen (Par V r par) d u := by
  constructor
  · intro h
    rcases ReflTransGen.cases_head h with h | h
    · exact Or.inl h.symm
    · exact Or.inr h
  · rintro (rfl | ⟨d, h1, h2⟩)
    · exact .refl
    · exact .head h1 h2

omit [Inhabited E] in
theorem put_true_isSome {m : Map E} {a b u v : Int} {d : E} : (put true m a b d u v).isSome ↔ (m u v).isSome ∨ (u = a ∧ v = b) := by
  unfold put Same
  simp only [Bool.true_eq_false, false_and, or_false]
  split <;> simp_all

/-- `dfs` adds the edges below the vertex. -/
theorem orient_ok (hp : Parents (verts n) S r par rank) {tmp : Graph Unit} (ht : Good tmp false 0 n (ofRel false fun u v => (u, v) ∈ S)) :
    ∀ (f : Nat) (cur pref : Int) (res : Graph E) (m : Map E), cur ∈ verts n → (cur ≠ r → pref = par cur) → (cur = r → pref ∉ verts n) →
      n ≤ f + rank cur → Good res true 0 n m → (∀ u v d, m u v = some d → d = default) →
      ∃ res' m', orient tmp f cur pref res = .ok res' ∧ Good res' true 0 n m' ∧ (∀ u v d, m' u v = some d → d = default) ∧
        ∀ u v, (m' u v).isSome ↔ (m u v).isSome ∨ (Par (verts n) r par u v ∧ ReflTransGen (Par (verts n) r par) cur u)
  | 0, cur, _, _, _, hcur, _, _, hf, _, _ => by
    have := hp.bound cur hcur
    rw [verts_card] at this
    omega
  | f + 1, cur, pref, res, m, hcur, hpref, hpref', hf, hres, hdef => by
    have hin : ∀ {v : Int}, v ∈ verts n ↔ In 0 n v := by
      intro v; unfold verts In; rw [Finset.mem_Ico, zero_add]
    obtain ⟨l, hl, -, -, hl4⟩ := ht.agrees.view cur (hin.1 hcur)
    -- the edges of `cur`
    have hnb : ∀ d, (∃ e ∈ l, e.dst = d) ↔ Adj S cur d := by
      intro d
      constructor
      · rintro ⟨e, he, rfl⟩
        obtain ⟨-, h2⟩ := (hl4 e).1 he
        have : (ofRel false (fun u v => (u, v) ∈ S) cur e.dst : Option Unit).isSome := by rw [h2]; rfl
        rw [ofRel_isSome] at this
        rcases this with h | ⟨-, h⟩
        · exact Or.inl h
        · exact Or.inr h
      · intro h
        have : (ofRel false (fun u v => (u, v) ∈ S) cur d : Option Unit).isSome := by
          rw [ofRel_isSome]
          rcases h with h | h
          · exact Or.inl h
          · exact Or.inr ⟨rfl, h⟩
        obtain ⟨x, hx⟩ := Option.isSome_iff_exists.1 this
        exact ⟨⟨cur, d, x⟩, (hl4 _).2 ⟨rfl, hx⟩, rfl⟩
    -- all but `pref` are children
    have hchild : ∀ d, (Adj S cur d ∧ d ≠ pref) ↔ Par (verts n) r par cur d := by
      intro d
      rw [hp.edges]
      constructor
      · rintro ⟨⟨h1, h2, rfl⟩ | ⟨h1, h2, h3⟩, hne⟩
        · exact absurd (hpref h2).symm hne
        · exact ⟨h1, h2, h3⟩
      · rintro ⟨h1, h2, h3⟩
        refine ⟨Or.inr ⟨h1, h2, h3⟩, ?_⟩
        rintro rfl
        by_cases hcr : cur = r
        · exact hpref' hcr h1
        · have e1 := (hp.parent _ h1 h2).2
          rw [← h3] at e1
          have e2 := (hp.parent cur hcur hcr).2
          rw [← hpref hcr] at e2
          omega
    have key : ∀ (l' : List (Edge Unit)) (res : Graph E) (m : Map E), (∀ e ∈ l', Adj S cur e.dst) → Good res true 0 n m →
        (∀ u v d, m u v = some d → d = default) →
        ∃ res' m', l'.foldlM (fun (res : Graph E) (e : Edge Unit) => if e.dst = pref then pure res else do
            let res ← res.add cur e.dst default
            orient tmp f e.dst cur res) res = .ok res' ∧ Good res' true 0 n m' ∧ (∀ u v d, m' u v = some d → d = default) ∧
          ∀ u v, (m' u v).isSome ↔ (m u v).isSome ∨ ∃ e ∈ l', e.dst ≠ pref ∧
            ((u = cur ∧ v = e.dst) ∨ (Par (verts n) r par u v ∧ ReflTransGen (Par (verts n) r par) e.dst u)) := by
      intro l'
      induction l' with
      | nil =>
        intro res m _ hres hdef
        exact ⟨res, m, rfl, hres, hdef, fun u v => by simp⟩
      | cons e l' ih =>
        intro res m hadj hres hdef
        rw [List.foldlM_cons]
        by_cases hep : e.dst = pref
        · rw [if_pos hep]
          obtain ⟨res', m', h1, h2, h3, h4⟩ := ih res m (fun e he => hadj e (List.mem_cons_of_mem _ he)) hres hdef
          refine ⟨res', m', h1, h2, h3, fun u v => ?_⟩
          rw [h4]
          refine or_congr Iff.rfl ?_
          constructor
          · rintro ⟨e', he', hh⟩; exact ⟨e', List.mem_cons_of_mem _ he', hh⟩
          · rintro ⟨e', he', hh⟩
            rcases List.mem_cons.1 he' with rfl | he'
            · exact absurd hep hh.1
            · exact ⟨e', he', hh⟩
        · rw [if_neg hep]
          have hc := (hchild e.dst).1 ⟨hadj e List.mem_cons_self, hep⟩
          have hrank := (hp.parent _ hc.1 hc.2.1).2
          rw [← hc.2.2] at hrank
          have hne : cur ≠ e.dst := by intro e'; rw [← e'] at hrank; omega
          obtain ⟨res1, h1, h2, -⟩ := hres.add (d := default) (hin.1 hcur) (hin.1 hc.1) hne
          have hput : ∀ u v d, put true m cur e.dst default u v = some d → d = default := by
            intro u v d hd
            unfold put at hd
            split at hd
            · exact (Option.some.inj hd).symm
            · exact hdef u v d hd
          obtain ⟨res2, m2, h3, h4, h5, h6⟩ := orient_ok hp ht f e.dst cur res1 _ hc.1 (fun _ => hc.2.2) (fun h => absurd h hc.2.1) (by omega) h2 hput
          obtain ⟨res', m', h7, h8, h9, h10⟩ := ih res2 m2 (fun e he => hadj e (List.mem_cons_of_mem _ he)) h4 h5
          refine ⟨res', m', ?_, h8, h9, fun u v => ?_⟩
          · rw [h1, ok_bind, h3, ok_bind]
            exact h7
          · rw [h10, h6]
            rw [put_true_isSome]
            constructor
            · rintro (((h | h) | h) | ⟨e', he', hh⟩)
              · exact Or.inl h
              · exact Or.inr ⟨e, List.mem_cons_self, hep, Or.inl h⟩
              · exact Or.inr ⟨e, List.mem_cons_self, hep, Or.inr h⟩
              · exact Or.inr ⟨e', List.mem_cons_of_mem _ he', hh⟩
            · rintro (h | ⟨e', he', hh⟩)
              · exact Or.inl (Or.inl (Or.inl h))
              · rcases List.mem_cons.1 he' with rfl | he'
                · rcases hh.2 with hh | hh
                  · exact Or.inl (Or.inl (Or.inr hh))
                  · exact Or.inl (Or.inr hh)
                · exact Or.inr ⟨e', he', hh⟩
    obtain ⟨res', m', h1, h2, h3, h4⟩ := key l res m (fun e he => (hnb e.dst).1 ⟨e, he, rfl⟩) hres hdef
    refine ⟨res', m', ?_, h2, h3, fun u v => ?_⟩
    · rw [orient, hl, ok_bind]
      exact h1
    · rw [h4]
      refine or_congr Iff.rfl ?_
      rw [par_trans]
      constructor
      · rintro ⟨e, he, hne, ⟨rfl, rfl⟩ | ⟨hh1, hh2⟩⟩
        · exact ⟨(hchild e.dst).1 ⟨(hnb e.dst).1 ⟨e, he, rfl⟩, hne⟩, Or.inl rfl⟩
        · exact ⟨hh1, Or.inr ⟨e.dst, (hchild e.dst).1 ⟨(hnb e.dst).1 ⟨e, he, rfl⟩, hne⟩, hh2⟩⟩
      · rintro ⟨hh1, rfl | ⟨d, hd1, hd2⟩⟩
        · obtain ⟨h5, h6⟩ := (hchild v).2 hh1
          obtain ⟨e, he, rfl⟩ := (hnb v).2 h5
          exact ⟨e, he, h6, Or.inl ⟨rfl, rfl⟩⟩
        · obtain ⟨h5, h6⟩ := (hchild d).2 hd1
          obtain ⟨e, he, rfl⟩ := (hnb d).2 h5
          exact ⟨e, he, h6, Or.inr ⟨hh1, hd2⟩⟩

/-- The edges directed away from the root. -/
def arcs (V : Finset Int) (r : Int) (par : Int → Int) : Finset (Int × Int) := (V.erase r).image fun v => (par v, v)

theorem mem_arcs {u v : Int} : (u, v) ∈ arcs V r par ↔ Par V r par u v := by
  unfold arcs Par
  rw [Finset.mem_image]
  constructor
  · rintro ⟨w, hw, e⟩
    cases e
    obtain ⟨h1, h2⟩ := Finset.mem_erase.1 hw
    exact ⟨h2, h1, rfl⟩
  · rintro ⟨h1, h2, rfl⟩
    exact ⟨v, Finset.mem_erase.2 ⟨h2, h1⟩, rfl⟩

theorem below_root (hp : Parents V S r par rank) : ∀ (k : Nat) (v : Int), v ∈ V → rank v = k → ReflTransGen (Par V r par) r v
  | 0, v, hv, hk => by
    by_cases hvr : v = r
    · rw [hvr]
    · have := (hp.parent v hv hvr).2
      omega
  | k + 1, v, hv, hk => by
    by_cases hvr : v = r
    · rw [hvr]
    · obtain ⟨h1, h2⟩ := hp.parent v hv hvr
      exact (below_root hp k (par v) h1 (by omega)).tail ⟨hv, hvr, rfl⟩

theorem arcs_sort (hp : Parents V S r par rank) (hS : IsTree V S) : (arcs V r par).image sortPair = S := by
  ext ⟨u, v⟩
  rw [Finset.mem_image]
  constructor
  · rintro ⟨⟨a, b⟩, hab, e⟩
    have h1 : Adj S a b := (hp.edges a b).2 (Or.inr (mem_arcs.1 hab))
    have hlt : ∀ {p q : Int}, (p, q) ∈ S → p < q := fun h => (hS.valid _ h).2.2
    rcases h1 with h1 | h1
    · rw [sortPair_of_lt (hlt h1)] at e
      rw [← e]; exact h1
    · rw [sortPair_comm, sortPair_of_lt (hlt h1)] at e
      rw [← e]; exact h1
  · intro h
    have hlt : u < v := (hS.valid _ h).2.2
    rcases (hp.edges u v).1 (Or.inl h) with h1 | h1
    · exact ⟨(v, u), mem_arcs.2 h1, by rw [sortPair_comm, sortPair_of_lt hlt]⟩
    · exact ⟨(u, v), mem_arcs.2 h1, sortPair_of_lt hlt⟩

theorem arcs_rooted (hp : Parents V S r par rank) (hS : IsTree V S) : IsRooted V (arcs V r par) r := by
  refine ⟨by rw [arcs_sort hp hS]; exact hS, ⟨hp.root.1, fun u hu => (mem_arcs.1 hu).2.1 rfl⟩, ?_⟩
  intro v hv hvr
  exact ⟨par v, mem_arcs.2 ⟨hv, hvr, rfl⟩, fun u hu => (mem_arcs.1 hu).2.2⟩

/-- There is only one way to direct a tree. -/
theorem rooted_unique (hA : IsRooted V A r) (hp : Parents V (A.image sortPair) r par rank) : A = arcs V r par := by
  have hadj : ∀ u v, Adj (A.image sortPair) u v → (u, v) ∈ A ∨ (v, u) ∈ A := by
    have : ∀ u v, (u, v) ∈ A.image sortPair → (u, v) ∈ A ∨ (v, u) ∈ A := by
      intro u v h
      obtain ⟨⟨a, b⟩, hab, e⟩ := Finset.mem_image.1 h
      rcases sortPair_cases a b with e' | e' <;> rw [e'] at e <;> cases e
      · exact Or.inl hab
      · exact Or.inr hab
    rintro u v (h | h)
    · exact this u v h
    · exact (this v u h).symm
  have key : ∀ (k : Nat) (v : Int), v ∈ V → v ≠ r → rank v = k → (par v, v) ∈ A := by
    intro k
    induction k using Nat.strong_induction_on with
    | _ k ih =>
      intro v hv hvr hk
      obtain ⟨h1, h2⟩ := hp.parent v hv hvr
      rcases hadj (par v) v ((hp.edges _ _).2 (Or.inr ⟨hv, hvr, rfl⟩)) with h | h
      · exact h
      · exfalso
        by_cases hpr : par v = r
        · rw [hpr] at h
          exact hA.root.2 v h
        · have h3 := ih (rank (par v)) (by omega) (par v) h1 hpr rfl
          have h4 := (hA.parent (par v) h1 hpr).unique h h3
          have h5 := (hp.parent (par v) h1 hpr).2
          rw [← h4] at h5
          omega
  ext ⟨u, v⟩
  rw [mem_arcs]
  constructor
  · intro h
    have hvr : v ≠ r := by rintro rfl; exact hA.root.2 u h
    have hv : v ∈ V := by
      have h1 := hA.tree.valid _ (Finset.mem_image.2 ⟨_, h, rfl⟩)
      rcases sortPair_cases u v with e | e <;> rw [e] at h1
      · exact h1.2.1
      · exact h1.1
    exact ⟨hv, hvr, (hA.parent v hv hvr).unique h (key _ v hv hvr rfl)⟩
  · rintro ⟨hv, hvr, rfl⟩
    exact key _ v hv hvr rfl

/-- `dfs` on a tree. -/
theorem orient_tree (hn : I64 n) (h1 : 1 ≤ n) (hS : IsTree (verts n) S) {tmp : Graph Unit} (ht : Good tmp false 0 n (ofRel false fun u v => (u, v) ∈ S)) :
    ∃ (g : Graph E) (A : Finset (Int × Int)), (Graph.ofSize true (n : Int) >>= fun res => orient tmp ((n : Int).toNat + 1) tmp.minId (tmp.minId - 1) res) = .ok g ∧
      IsRooted (verts n) A 0 ∧ A.image sortPair = S ∧ Good g true 0 n (ofRel true fun u v => (u, v) ∈ A) := by
  have h0 : (0 : Int) ∈ verts n := Finset.mem_Ico.2 ⟨le_refl _, by omega⟩
  obtain ⟨par, rank, hp⟩ := exists_parents (n - 1) hS (by rw [verts_card]; omega) h0
  obtain ⟨res, e1, e2, -⟩ := new_good (E := E) true i64_zero hn (by omega) (by simpa using hn)
  rw [show ((n : Int) - 0).toNat = n from by omega] at e2
  obtain ⟨g, m', e3, e4, e5, e6⟩ := orient_ok (E := E) hp ht (n + 1) 0 (-1) res _ h0 (fun h => absurd rfl h)
    (fun _ h => by have := (Finset.mem_Ico.1 h).1; omega) (by omega) e2 (fun u v d h => by cases h)
  refine ⟨g, arcs (verts n) 0 par, ?_, arcs_rooted hp hS, arcs_sort hp hS, ?_⟩
  · rw [show (Graph.ofSize true (n : Int) : Out (Graph E)) = .ok res from e1, ok_bind, ht.isLo, Int.toNat_natCast]
    exact e3
  · have : (ofRel true (fun u v => (u, v) ∈ arcs (verts n) 0 par) : Map E) = m' := by
      refine map_ext ?_ ofRel_default e5
      intro u v
      rw [ofRel_isSome, e6, mem_arcs]
      simp only [Bool.true_eq_false, false_and, or_false, Option.isSome_none, Bool.false_eq_true, false_or]
      constructor
      · intro h
        refine ⟨h, below_root hp _ u ?_ rfl⟩
        rw [h.2.2]
        exact (hp.parent v h.1 h.2.1).1
      · exact fun h => h.1
    rw [this]
    exact e4

end ICPC.Gen
