import Verif.Model.Tree
import Verif.Lemmas.Tree
import Verif.Lemmas.RandomGraph

/-!
# `pruefer` decodes
-/

namespace ICPC.Gen

open ICPC Spec.EdgeMap Spec.Tree ICPC.Gen.Tree

variable {E : Type} [Inhabited E] {n : Nat} {V : Finset Int} {c : List Int} {count : List Int}

/-- The vector counts the occurrences in the code. -/
def Counts (n : Nat) (count c : List Int) : Prop := count.length = n ∧ ∀ v : Nat, v < n → count[v]? = some (c.count (v : Int) : Int)

theorem at_counts (h : Counts n count c) {x : Int} (hx0 : 0 ≤ x) (hx : x < n) : at' count x = .ok (c.count x) := by
  unfold at'
  rw [if_neg (by omega), h.2 x.toNat (by omega), Int.toNat_of_nonneg hx0]

theorem bump_counts (h : Counts n count c) {x : Int} (hx0 : 0 ≤ x) (hx : x < n) (d : Int) :
    bump count x d = .ok (count.set x.toNat (c.count x + d)) := by
  unfold bump
  rw [at_counts h hx0 hx]
  rfl

theorem bump_set {c' : List Int} (h : Counts n count c) {x d : Int} (hx0 : 0 ≤ x)
    (hc : ∀ v : Int, (c'.count v : Int) = c.count v + if v = x then d else 0) : Counts n (count.set x.toNat (c.count x + d)) c' := by
  refine ⟨by rw [List.length_set]; exact h.1, ?_⟩
  intro v hv
  rw [List.getElem?_set, hc, h.1]
  by_cases hvx : x.toNat = v
  · rw [if_pos hvx, if_pos (by omega), if_pos (by omega)]
    rw [show ((v : Int)) = x from by omega]
  · rw [if_neg hvx, if_neg (by omega), h.2 v hv, add_zero]

theorem build_counts (code : List Int) (hv : ∀ x ∈ code, 0 ≤ x ∧ x < n) : ∀ (count c : List Int), Counts n count c →
    ∃ count', code.foldlM (fun count x => bump count x 1) count = .ok count' ∧ Counts n count' (c ++ code) := by
  induction code with
  | nil => intro count c h; exact ⟨count, rfl, by rwa [List.append_nil]⟩
  | cons x code ih =>
    intro count c h
    obtain ⟨hx0, hx⟩ := hv x List.mem_cons_self
    obtain ⟨count', h1, h2⟩ := ih (fun y hy => hv y (List.mem_cons_of_mem _ hy)) _ (c ++ [x]) (bump_set (d := 1) h hx0 (by
      intro v
      rw [List.count_append, List.count_singleton, Nat.cast_add]
      by_cases hvx : v = x
      · subst hvx; simp
      · rw [if_neg hvx, if_neg (by simpa using fun e => hvx e.symm)]; rfl))
    refine ⟨count', ?_, by rwa [List.append_assoc] at h2⟩
    rw [List.foldlM_cons, bump_counts h hx0 hx]
    exact h1

/-! ## The next leaf -/

theorem scan_ok (h : Counts n count c) {z : Int} (hz : z < n) (hzc : z ∉ c) : ∀ (f : Nat) (cur : Int), 0 ≤ cur → cur ≤ z → z - cur < f →
    ∃ y, scan count f cur = .ok y ∧ cur ≤ y ∧ y ≤ z ∧ y ∉ c ∧ ∀ w, cur ≤ w → w < y → w ∈ c
  | 0, cur, _, h1, h2 => by omega
  | f + 1, cur, h0, h1, h2 => by
    rw [scan, at_counts h h0 (by omega), ok_bind]
    by_cases hc : (c.count cur : Int) > 0
    · have hmem : cur ∈ c := List.count_pos_iff.1 (by omega)
      have hne : cur ≠ z := fun e => hzc (e ▸ hmem)
      obtain ⟨y, e1, e2, e3, e4, e5⟩ := scan_ok h hz hzc f (cur + 1) (by omega) (by omega) (by omega)
      refine ⟨y, by rw [if_pos hc]; exact e1, by omega, e3, e4, fun w hw1 hw2 => ?_⟩
      by_cases hwc : w = cur
      · rw [hwc]; exact hmem
      · exact e5 w (by omega) hw2
    · refine ⟨cur, by rw [if_neg hc]; rfl, le_refl _, h1, ?_, fun w hw1 hw2 => by omega⟩
      intro hmem
      have := List.count_pos_iff.2 hmem
      omega

/-- The state between two calls of `getNext`: all vertices after `cur` are left, and those up to `cur` are inner ones or `skip`. -/
structure Inv (n : Nat) (V : Finset Int) (c : List Int) (cur skip : Int) : Prop where
  cur0 : -1 ≤ cur
  inside : ∀ v ∈ V, 0 ≤ v ∧ v < n
  after : ∀ v, cur < v → v < n → v ∈ V
  before : ∀ v ∈ V, v ≤ cur → v ∈ c ∨ v = skip
  skip : skip = -1 ∨ (skip ∈ V ∧ skip ∉ c)

theorem getNext_ok {cur skip : Int} (h : Counts n count c) (hi : Inv n V c cur skip) (hz : ∃ z ∈ V, z ∉ c) :
    ∃ y cur', getNext count cur skip = .ok (y, cur') ∧ y ∈ V ∧ y ∉ c ∧ (∀ z ∈ V, z ∉ c → y ≤ z) ∧ -1 ≤ cur' ∧
      (∀ v, cur' < v → v < n → v ∈ V.erase y) ∧ ∀ v ∈ V.erase y, v ≤ cur' → v ∈ c := by
  unfold getNext
  by_cases hs : 0 ≤ skip ∧ skip ≤ cur
  · rw [if_pos hs]
    have hsk : skip ∈ V ∧ skip ∉ c := by
      rcases hi.skip with e | e
      · omega
      · exact e
    refine ⟨skip, cur, rfl, hsk.1, hsk.2, ?_, hi.cur0, ?_, ?_⟩
    · intro z hz hzc
      by_cases hzcur : z ≤ cur
      · rcases hi.before z hz hzcur with e | e
        · exact absurd e hzc
        · exact e.symm.le
      · omega
    · intro v h1 h2
      exact Finset.mem_erase.2 ⟨by omega, hi.after v h1 h2⟩
    · intro v hv hvc
      obtain ⟨h1, h2⟩ := Finset.mem_erase.1 hv
      rcases hi.before v h2 hvc with e | e
      · exact e
      · exact absurd e h1
  · rw [if_neg hs]
    have hgt : ∀ z ∈ V, z ∉ c → cur < z := by
      intro z hz hzc
      by_contra hle
      rcases hi.before z hz (by omega) with e | e
      · exact hzc e
      · have := (hi.inside z hz).1
        omega
    obtain ⟨z, hz, hzc⟩ := hz
    have hzn := (hi.inside z hz).2
    have hcz := hgt z hz hzc
    have := hi.cur0
    obtain ⟨y, e1, e2, e3, e4, e5⟩ := scan_ok h hzn hzc (count.length + 1) (cur + 1) (by omega) (by omega) (by have := h.1; omega)
    rw [e1]
    refine ⟨y, y, rfl, hi.after y (by omega) (by omega), e4, ?_, by omega, ?_, ?_⟩
    · intro w hw hwc
      by_contra hlt
      exact hwc (e5 w (by have := hgt w hw hwc; omega) (by omega))
    · intro v h1 h2
      exact Finset.mem_erase.2 ⟨by omega, hi.after v (by omega) h2⟩
    · intro v hv hvy
      obtain ⟨h1, h2⟩ := Finset.mem_erase.1 hv
      by_contra hvc
      have := hgt v h2 hvc
      exact hvc (e5 v (by omega) (by omega))

/-- A set with more elements than the list has one that is not in the list. -/
theorem exists_outside (h : c.length < V.card) : ∃ z ∈ V, z ∉ c := by
  by_contra hc
  push Not at hc
  have h1 : V ⊆ c.toFinset := fun z hz => List.mem_toFinset.2 (hc z hz)
  have := Finset.card_le_card h1
  have := List.toFinset_card_le c
  omega

theorem prueferLoop_ok : ∀ (code count : List Int) (V : Finset Int) (cur skip : Int), Counts n count code → Inv n V code cur skip →
    V.card = code.length + 2 → (∀ x ∈ code, x ∈ V) →
    ∃ ps, prueferLoop code count cur skip = .ok ps ∧ Dec V code (ps.map sortPair).toFinset ∧ ∀ p ∈ ps, p.1 ∈ V ∧ p.2 ∈ V ∧ p.1 ≠ p.2
  | [], count, V, cur, skip, h, hi, hcard, _ => by
    obtain ⟨x, cur', e1, hx, -, hmin, h0, haft, hbef⟩ := getNext_ok h hi (exists_outside (by rw [hcard]; simp))
    have hi' : Inv n (V.erase x) [] cur' (-1) :=
      ⟨h0, fun v hv => hi.inside v (Finset.mem_of_mem_erase hv), haft, fun v hv hvc => Or.inl (hbef v hv hvc), Or.inl rfl⟩
    have hc1 : (V.erase x).card = 1 := by rw [Finset.card_erase_of_mem hx, hcard]; rfl
    obtain ⟨y, cur'', e2, hy, -⟩ := getNext_ok h hi' (exists_outside (by rw [hc1]; simp))
    have hV : V = {x, y} := by
      obtain ⟨b, hb⟩ := Finset.card_eq_one.1 hc1
      rw [hb, Finset.mem_singleton] at hy
      rw [← Finset.insert_erase hx, hb, hy]
    have hne : x ≠ y := (Finset.ne_of_mem_erase hy).symm
    have hlt : x < y := lt_of_le_of_ne (hmin y (Finset.mem_of_mem_erase hy) (by simp)) hne
    refine ⟨[(x, y)], ?_, ?_, ?_⟩
    · rw [prueferLoop, e1, ok_bind]
      dsimp only
      rw [e2]
      rfl
    · have : ([(x, y)].map sortPair).toFinset = {(x, y)} := by
        simp [sortPair_of_lt hlt]
      rw [this, hV]
      exact Dec.base hlt
    · intro p hp
      rw [List.mem_singleton] at hp
      subst hp
      exact ⟨hx, Finset.mem_of_mem_erase hy, hne⟩
  | x :: code, count, V, cur, skip, h, hi, hcard, hmem => by
    obtain ⟨y, cur', e1, hy, hyc, hmin, h0, haft, hbef⟩ := getNext_ok h hi (exists_outside (by rw [hcard]; omega))
    have hxV := hmem x List.mem_cons_self
    obtain ⟨hx0, hxn⟩ := hi.inside x hxV
    have hxy : x ≠ y := fun e => hyc (e ▸ List.mem_cons_self)
    have hcounts : Counts n (count.set x.toNat ((x :: code).count x + -1)) code := bump_set h hx0 (by
      intro v
      rw [List.count_cons]
      by_cases hvx : v = x
      · subst hvx; simp
      · rw [if_neg hvx, if_neg (by simpa using fun e => hvx e.symm), add_zero, Nat.add_zero])
    have hi' : Inv n (V.erase y) code cur' (if (code.count x : Int) = 0 then x else -1) := by
      refine ⟨h0, fun v hv => hi.inside v (Finset.mem_of_mem_erase hv), haft, ?_, ?_⟩
      · intro v hv hvc
        rcases List.mem_cons.1 (hbef v hv hvc) with e | e
        · by_cases hvm : v ∈ code
          · exact Or.inl hvm
          · rw [← e, List.count_eq_zero_of_not_mem hvm]
            exact Or.inr rfl
        · exact Or.inl e
      · split
        · rename_i hz
          refine Or.inr ⟨Finset.mem_erase.2 ⟨hxy, hxV⟩, List.count_eq_zero.1 (by exact_mod_cast hz)⟩
        · exact Or.inl rfl
    obtain ⟨ps, e2, hd, hps⟩ := prueferLoop_ok code _ (V.erase y) cur' _ hcounts hi'
      (by rw [Finset.card_erase_of_mem hy, hcard]; rfl)
      (fun z hz => Finset.mem_erase.2 ⟨fun e => hyc (e ▸ List.mem_cons_of_mem _ hz), hmem z (List.mem_cons_of_mem _ hz)⟩)
    refine ⟨(x, y) :: ps, ?_, ?_, ?_⟩
    · rw [prueferLoop, e1, ok_bind]
      dsimp only
      rw [bump_counts h hx0 hxn, ok_bind, at_counts hcounts hx0 hxn, ok_bind, e2]
      rfl
    · rw [List.map_cons, List.toFinset_cons]
      exact Dec.step hxV hy hyc hmin hd
    · intro p hp
      rcases List.mem_cons.1 hp with rfl | hp
      · exact ⟨hxV, hy, hxy⟩
      · obtain ⟨p1, p2, p3⟩ := hps p hp
        exact ⟨Finset.mem_of_mem_erase p1, Finset.mem_of_mem_erase p2, p3⟩

/-- Graphs from unsorted pairs. -/
theorem ofRel_sort {ps : List (Int × Int)} : (ofRel false (fun u v => (u, v) ∈ ps) : Map E) = ofRel false fun u v => (u, v) ∈ (ps.map sortPair).toFinset := by
  refine map_ext ?_ ofRel_default ofRel_default
  intro u v
  rw [ofRel_isSome, ofRel_isSome]
  simp only [true_and, List.mem_toFinset, List.mem_map]
  constructor
  · rintro (h | h)
    · rcases sortPair_cases u v with e | e
      · exact Or.inl ⟨_, h, e⟩
      · exact Or.inr ⟨_, h, e⟩
    · rcases sortPair_cases v u with e | e
      · exact Or.inr ⟨_, h, e⟩
      · exact Or.inl ⟨_, h, e⟩
  · rintro (⟨⟨a, b⟩, h, e⟩ | ⟨⟨a, b⟩, h, e⟩)
    · rcases sortPair_cases a b with e' | e' <;> rw [e'] at e <;> cases e
      · exact Or.inl h
      · exact Or.inr h
    · rcases sortPair_cases a b with e' | e' <;> rw [e'] at e <;> cases e
      · exact Or.inr h
      · exact Or.inl h

theorem pruefer_good (code : List Int) (hlen : I64 (code.length + 2 : Int)) (hv : ∀ x ∈ code, 0 ≤ x ∧ x < code.length + 2) :
    ∃ (g : Graph E) (S : Finset (Int × Int)), pruefer code = .ok g ∧ Dec (verts (code.length + 2)) code S ∧
      Good g false 0 (code.length + 2) (ofRel false fun u v => (u, v) ∈ S) := by
  have hv' : ∀ x ∈ code, 0 ≤ x ∧ x < ((code.length + 2 : Nat) : Int) := fun x hx => by have := hv x hx; push_cast; exact this
  obtain ⟨count, hc1, hc2⟩ := build_counts (n := code.length + 2) code hv' (List.replicate (code.length + 2) 0) []
    ⟨List.length_replicate, fun v hv => by rw [List.getElem?_replicate, if_pos hv]; rfl⟩
  rw [List.nil_append] at hc2
  obtain ⟨ps, h1, h2, h3⟩ := prueferLoop_ok code count (verts (code.length + 2)) (-1) (-1) hc2
    ⟨le_refl _, fun v hv => Finset.mem_Ico.1 hv, fun v h1 h2 => Finset.mem_Ico.2 ⟨by omega, h2⟩,
      fun v hv h => absurd (Finset.mem_Ico.1 hv).1 (by omega), Or.inl rfl⟩
    (by unfold verts; rw [Int.card_Ico]; omega) (fun x hx => Finset.mem_Ico.2 (hv' x hx))
  obtain ⟨g, res, h4, h5, h6⟩ := newPairs (E := E) (dir := false) (n := code.length + 2) (by push_cast; exact hlen) ps
    (R := fun u v => (u, v) ∈ ps) (fun u v => Iff.rfl) (fun u v h => by
      obtain ⟨p1, p2, p3⟩ := h3 _ h
      have p1 := Finset.mem_Ico.1 p1
      have p2 := Finset.mem_Ico.1 p2
      unfold In
      rw [zero_add]
      exact ⟨p1, p2, p3⟩)
  refine ⟨g, (ps.map sortPair).toFinset, ?_, h2, by rw [← ofRel_sort]; exact h6⟩
  unfold pruefer
  rw [chk_ok hlen, ok_bind, show ((code.length : Int) + 2) = ((code.length + 2 : Nat) : Int) from by push_cast; rfl, h4, ok_bind, hc1, ok_bind, h1,
    ok_bind]
  exact h5

end ICPC.Gen
