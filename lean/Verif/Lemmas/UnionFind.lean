import Verif.Model.GraphVal
import Mathlib.Data.List.Nodup
import Batteries.Data.List.Perm
import Mathlib.Data.List.Range
import Mathlib.Logic.Relation
import Mathlib.Data.List.Basic

namespace ICPC

/-- `r` is the root of the tree of `a`. -/
inductive Rep (u : List Int) : Nat → Nat → Prop
  | root {a : Nat} {v : Int} : u[a]? = some v → v < 0 → Rep u a a
  | step {a : Nat} {v : Int} {r : Nat} : u[a]? = some v → 0 ≤ v → Rep u v.toNat r → Rep u a r

/-- Parents are nodes, and there is a height that increases towards the root. -/
structure UFok (u : List Int) : Prop where
  inRange : ∀ (a : Nat) (v : Int), u[a]? = some v → 0 ≤ v → v.toNat < u.length
  height : ∃ h : Nat → Nat, ∀ (a : Nat) (v : Int), u[a]? = some v → 0 ≤ v → h a < h v.toNat

theorem rep_unique {u : List Int} {a r r' : Nat} (h : Rep u a r) (h' : Rep u a r') : r = r' := by
  induction h with
  | root h1 h2 =>
    cases h' with
    | root => rfl
    | step h3 h4 => rw [h1] at h3; obtain rfl := Option.some.inj h3; omega
  | step h1 h2 _ ih =>
    cases h' with
    | root h3 h4 => rw [h1] at h3; obtain rfl := Option.some.inj h3; omega
    | step h3 h4 h5 => rw [h1] at h3; obtain rfl := Option.some.inj h3; exact ih h5

theorem rep_isRoot {u : List Int} {a r : Nat} (h : Rep u a r) : ∃ v, u[r]? = some v ∧ v < 0 := by
  induction h with
  | root h1 h2 => exact ⟨_, h1, h2⟩
  | step _ _ _ ih => exact ih

theorem rep_root_self {u : List Int} {a r : Nat} (h : Rep u a r) : Rep u r r := by
  obtain ⟨v, h1, h2⟩ := rep_isRoot h
  exact .root h1 h2

theorem rep_lt {u : List Int} {a r : Nat} (h : Rep u a r) : a < u.length ∧ r < u.length := by
  obtain ⟨v, hv, _⟩ := rep_isRoot h
  refine ⟨?_, (List.getElem?_eq_some_iff.1 hv).1⟩
  cases h with
  | root h1 _ => exact (List.getElem?_eq_some_iff.1 h1).1
  | step h1 _ _ => exact (List.getElem?_eq_some_iff.1 h1).1

/-- The height of a root is at least that of the node, strictly if it is not the root. -/
theorem rep_height {u : List Int} {h : Nat → Nat} (hh : ∀ (a : Nat) (v : Int), u[a]? = some v → 0 ≤ v → h a < h v.toNat)
    {a r : Nat} (hr : Rep u a r) : a = r ∨ h a < h r := by
  induction hr with
  | root => exact .inl rfl
  | step h1 h2 _ ih =>
    right
    have := hh _ _ h1 h2
    rcases ih with rfl | ih
    · exact this
    · omega

/-- Replacing a parent by the root changes no roots. -/
theorem rep_compress {u : List Int} {n r : Nat} (hr : Rep u n r) (hn : ∃ v, u[n]? = some v ∧ 0 ≤ v) (a s : Nat) :
    Rep (u.set n (r : Int)) a s ↔ Rep u a s := by
  obtain ⟨w, hw, hw0⟩ := hn
  have hlt : n < u.length := (List.getElem?_eq_some_iff.1 hw).1
  have hne : n ≠ r := by
    rintro rfl
    obtain ⟨v, h1, h2⟩ := rep_isRoot hr
    rw [hw] at h1; obtain rfl := Option.some.inj h1; omega
  have hroot : ∀ x v, x ≠ n → u[x]? = some v → (u.set n (r : Int))[x]? = some v := by
    intro x v hx hv
    rw [List.getElem?_set_ne (Ne.symm hx)]; exact hv
  have hself : (u.set n (r : Int))[n]? = some (r : Int) := by simp [hlt]
  have hrr : Rep (u.set n (r : Int)) r r := by
    obtain ⟨v, h1, h2⟩ := rep_isRoot hr
    exact .root (hroot r v hne.symm h1) h2
  have fwd : ∀ a s, Rep u a s → Rep (u.set n (r : Int)) a s := by
    intro a s h
    induction h with
    | @root a v h1 h2 =>
      refine .root (hroot a v ?_ h1) h2
      rintro rfl
      rw [hw] at h1; obtain rfl := Option.some.inj h1; omega
    | @step a v s h1 h2 h3 ih =>
      by_cases ha : a = n
      · subst ha
        have : s = r := rep_unique (.step h1 h2 h3) hr
        subst this
        exact .step hself (by omega) (by simpa using hrr)
      · exact .step (hroot a v ha h1) h2 ih
  refine ⟨fun h => ?_, fwd a s⟩
  induction h with
  | @root a v h1 h2 =>
    by_cases ha : a = n
    · subst ha; rw [hself] at h1; obtain rfl := Option.some.inj h1; omega
    · rw [List.getElem?_set_ne (Ne.symm ha)] at h1
      exact .root h1 h2
  | @step a v s h1 h2 h3 ih =>
    by_cases ha : a = n
    · subst ha
      rw [hself] at h1; obtain rfl := Option.some.inj h1
      rw [Int.toNat_natCast] at ih
      have : s = r := rep_unique ih (rep_root_self hr)
      subst this
      exact hr
    · rw [List.getElem?_set_ne (Ne.symm ha)] at h1
      exact .step h1 h2 ih

theorem ufok_compress {u : List Int} (hu : UFok u) {n r : Nat} (hr : Rep u n r) (hn : ∃ v, u[n]? = some v ∧ 0 ≤ v) :
    UFok (u.set n (r : Int)) := by
  obtain ⟨w, hw, hw0⟩ := hn
  have hlt : n < u.length := (List.getElem?_eq_some_iff.1 hw).1
  have hne : n ≠ r := by
    rintro rfl
    obtain ⟨v, h1, h2⟩ := rep_isRoot hr
    rw [hw] at h1; obtain rfl := Option.some.inj h1; omega
  obtain ⟨h, hh⟩ := hu.height
  constructor
  · intro a v ha hv
    rw [List.length_set]
    by_cases han : a = n
    · subst han
      rw [List.getElem?_set_self hlt] at ha
      obtain rfl := Option.some.inj ha
      exact (rep_lt hr).2
    · rw [List.getElem?_set_ne (Ne.symm han)] at ha
      exact hu.inRange a v ha hv
  · refine ⟨h, fun a v ha hv => ?_⟩
    by_cases han : a = n
    · subst han
      rw [List.getElem?_set_self hlt] at ha
      obtain rfl := Option.some.inj ha
      rw [Int.toNat_natCast]
      exact (rep_height hh hr).resolve_left hne
    · rw [List.getElem?_set_ne (Ne.symm han)] at ha
      exact hh a v ha hv

/-- What stays the same when `findSet` compresses paths. -/
structure SameTrees (u u' : List Int) : Prop where
  length : u'.length = u.length
  rep : ∀ a r, Rep u' a r ↔ Rep u a r
  ok : UFok u'
  neg : ∀ (a : Nat) (v : Int), v < 0 → (u'[a]? = some v ↔ u[a]? = some v)

theorem SameTrees.refl {u : List Int} (h : UFok u) : SameTrees u u := ⟨rfl, fun _ _ => Iff.rfl, h, fun _ _ _ => Iff.rfl⟩

theorem SameTrees.trans {u v w : List Int} (h : SameTrees u v) (h' : SameTrees v w) : SameTrees u w :=
  ⟨h'.length.trans h.length, fun a r => (h'.rep a r).trans (h.rep a r), h'.ok,
    fun a x hx => (h'.neg a x hx).trans (h.neg a x hx)⟩

/-- The nodes on the way to the root. -/
inductive Path (u : List Int) : Nat → List Nat → Prop
  | root {a : Nat} {v : Int} : u[a]? = some v → v < 0 → Path u a [a]
  | step {a : Nat} {v : Int} {l : List Nat} : u[a]? = some v → 0 ≤ v → Path u v.toNat l → Path u a (a :: l)

theorem path_exists {u : List Int} (hu : UFok u) {a : Nat} (ha : a < u.length) : ∃ l, Path u a l := by
  obtain ⟨h, hh⟩ := hu.height
  -- heights of nodes are bounded
  obtain ⟨B, hB⟩ : ∃ B, ∀ x, x < u.length → h x ≤ B := by
    generalize u.length = n
    induction n with
    | zero => exact ⟨0, fun x hx => absurd hx (by omega)⟩
    | succ n ih =>
      obtain ⟨B, hB⟩ := ih
      refine ⟨max B (h n), fun x hx => ?_⟩
      rcases Nat.lt_succ_iff_lt_or_eq.1 hx with hx | rfl
      · have := hB x hx; omega
      · omega
  have key : ∀ k a, a < u.length → B - h a = k → ∃ l, Path u a l := by
    intro k
    induction k using Nat.strong_induction_on with
    | _ k ih =>
      intro a ha hk
      have hv : u[a]? = some u[a] := List.getElem?_eq_getElem ha
      by_cases h0 : u[a] < 0
      · exact ⟨_, .root hv h0⟩
      · have h0' : 0 ≤ u[a] := by omega
        have h1 := hu.inRange a _ hv h0'
        have h2 := hh a _ hv h0'
        have h3 := hB _ h1
        obtain ⟨l, hl⟩ := ih (B - h u[a].toNat) (by omega) _ h1 rfl
        exact ⟨_, .step hv h0' hl⟩
  exact key _ a ha rfl

theorem path_props {u : List Int} {h : Nat → Nat} (hh : ∀ (a : Nat) (v : Int), u[a]? = some v → 0 ≤ v → h a < h v.toNat)
    {a : Nat} {l : List Nat} (hp : Path u a l) : (∀ x ∈ l, x < u.length ∧ h a ≤ h x) ∧ l.Nodup := by
  induction hp with
  | root h1 _ => simp [(List.getElem?_eq_some_iff.1 h1).1]
  | @step a v l h1 h2 h3 ih =>
    have h4 := hh _ _ h1 h2
    refine ⟨fun x hx => ?_, ?_⟩
    · rcases List.mem_cons.1 hx with rfl | hx
      · exact ⟨(List.getElem?_eq_some_iff.1 h1).1, le_refl _⟩
      · have := ih.1 x hx
        exact ⟨this.1, by omega⟩
    · rw [List.nodup_cons]
      refine ⟨fun hm => ?_, ih.2⟩
      have := (ih.1 _ hm).2
      omega

theorem path_length {u : List Int} (hu : UFok u) {a : Nat} {l : List Nat} (hp : Path u a l) : l.length ≤ u.length := by
  obtain ⟨h, hh⟩ := hu.height
  obtain ⟨h1, h2⟩ := path_props hh hp
  have : l.Subperm (List.range u.length) := List.subperm_of_subset h2 (fun x hx => List.mem_range.2 (h1 x hx).1)
  simpa using this.length_le

theorem findSetFuel_spec {u : List Int} (hu : UFok u) {a : Nat} {l : List Nat} (hp : Path u a l) : ∀ k, l.length ≤ k →
    ∃ r u', findSetFuel k u a = .ok (r, u') ∧ Rep u a r ∧ SameTrees u u' := by
  induction hp with
  | @root a v h1 h2 =>
    intro k hk
    cases k with
    | zero => simp at hk
    | succ k => exact ⟨a, u, by simp [findSetFuel, h1, h2], .root h1 h2, .refl hu⟩
  | @step a v l h1 h2 h3 ih =>
    intro k hk
    cases k with
    | zero => simp at hk
    | succ k =>
      obtain ⟨r, u', hf, hr, hs⟩ := ih k (by simpa using hk)
      have hlt : a < u'.length := by rw [hs.length]; exact (List.getElem?_eq_some_iff.1 h1).1
      have hra : Rep u a r := .step h1 h2 hr
      have hna : ∃ w, u'[a]? = some w ∧ 0 ≤ w := by
        refine ⟨u'[a], List.getElem?_eq_getElem hlt, ?_⟩
        by_contra hneg
        have := (hs.neg a u'[a] (by omega)).1 (List.getElem?_eq_getElem hlt)
        rw [h1] at this; have := Option.some.inj this; omega
      have hra' : Rep u' a r := (hs.rep a r).2 hra
      refine ⟨r, u'.set a (r : Int), ?_, hra, ?_⟩
      · have : ¬ v < 0 := by omega
        simp [findSetFuel, h1, this, hf, ok_bind]
      · refine hs.trans ⟨by simp, fun x s => rep_compress hra' hna x s, ufok_compress hs.ok hra' hna, fun x w hw => ?_⟩
        by_cases hx : x = a
        · subst hx
          obtain ⟨z, hz, hz0⟩ := hna
          rw [List.getElem?_set_self hlt, hz]
          simp only [Option.some.injEq]
          omega
        · rw [List.getElem?_set_ne (Ne.symm hx)]

/-- `findSet` returns the root and leaves the trees as they are. -/
theorem findSet_spec {u : List Int} (hu : UFok u) {a : Nat} (ha : a < u.length) :
    ∃ r u', findSet u a = .ok (r, u') ∧ Rep u a r ∧ SameTrees u u' := by
  obtain ⟨l, hl⟩ := path_exists hu ha
  exact findSetFuel_spec hu hl _ (by have := path_length hu hl; omega)

/-- Two nodes are in the same tree. -/
def SameSet (u : List Int) (a b : Nat) : Prop := ∃ r, Rep u a r ∧ Rep u b r

theorem SameTrees.sameSet {u u' : List Int} (h : SameTrees u u') (a b : Nat) : SameSet u' a b ↔ SameSet u a b := by
  simp only [SameSet, h.rep]

theorem ufConnected_spec {u : List Int} (hu : UFok u) {a b : Nat} (ha : a < u.length) (hb : b < u.length) :
    ∃ c u', ufConnected u a b = .ok (c, u') ∧ (c = true ↔ SameSet u a b) ∧ SameTrees u u' := by
  obtain ⟨x, u1, h1, h2, h3⟩ := findSet_spec hu ha
  obtain ⟨y, u2, h4, h5, h6⟩ := findSet_spec h3.ok (by rw [h3.length]; exact hb)
  refine ⟨x == y, u2, by simp [ufConnected, h1, h4, ok_bind], ?_, h3.trans h6⟩
  rw [beq_iff_eq]
  have h5' := (h3.rep b y).1 h5
  constructor
  · rintro rfl; exact ⟨x, h2, h5'⟩
  · rintro ⟨r, hr1, hr2⟩
    rw [rep_unique h2 hr1, rep_unique h5' hr2]

/-- The number of roots. -/
def rootCount (u : List Int) : Nat := u.countP (fun v => decide (v < 0))

theorem SameTrees.rootCount {u u' : List Int} (h : SameTrees u u') : rootCount u' = rootCount u := by
  have : u'.map (fun v => decide (v < 0)) = u.map (fun v => decide (v < 0)) := by
    apply List.ext_getElem (by simp [h.length])
    intro i h1 h2
    have h1' : i < u'.length := by simpa using h1
    have h2' : i < u.length := by simpa using h2
    simp only [List.getElem_map, decide_eq_decide]
    constructor
    · intro hv
      have := (h.neg i _ hv).1 (List.getElem?_eq_getElem h1')
      rw [List.getElem?_eq_getElem h2'] at this
      rw [Option.some.inj this]; exact hv
    · intro hv
      have := (h.neg i _ hv).2 (List.getElem?_eq_getElem h2')
      rw [List.getElem?_eq_getElem h1'] at this
      rw [Option.some.inj this]; exact hv
  have e : ∀ l : List Int, ICPC.rootCount l = (l.map (fun v => decide (v < 0))).countP id := fun l => by
    simp [ICPC.rootCount, List.countP_map, Function.comp_def]
  rw [e, e, this]

theorem SameSet.symm {u : List Int} {a b : Nat} (h : SameSet u a b) : SameSet u b a := by
  obtain ⟨r, h1, h2⟩ := h; exact ⟨r, h2, h1⟩

theorem SameSet.trans {u : List Int} {a b c : Nat} (h : SameSet u a b) (h' : SameSet u b c) : SameSet u a c := by
  obtain ⟨r, h1, h2⟩ := h
  obtain ⟨s, h3, h4⟩ := h'
  rw [rep_unique h2 h3] at h1
  exact ⟨s, h1, h4⟩

theorem rep_exists {u : List Int} (hu : UFok u) {a : Nat} (ha : a < u.length) : ∃ r, Rep u a r := by
  obtain ⟨r, _, _, h, _⟩ := findSet_spec hu ha
  exact ⟨r, h⟩

theorem sameSet_refl {u : List Int} (hu : UFok u) {a : Nat} (ha : a < u.length) : SameSet u a a := by
  obtain ⟨r, h⟩ := rep_exists hu ha
  exact ⟨r, h, h⟩

/-- Attaching root `a` to root `b` (whose entry may change to another negative number). -/
theorem attach_spec {u : List Int} (hu : UFok u) {a b : Nat} {x y z : Int} (hab : a ≠ b) (ha : u[a]? = some x)
    (hx : x < 0) (hb : u[b]? = some y) (hy : y < 0) (hz : z < 0) :
    let u' := (u.set a (b : Int)).set b z
    u'.length = u.length ∧ UFok u' ∧
    (∀ n r, Rep u' n r ↔ (Rep u n r ∧ r ≠ a) ∨ (Rep u n a ∧ r = b)) ∧ rootCount u' + 1 = rootCount u := by
  intro u'
  have hla : a < u.length := (List.getElem?_eq_some_iff.1 ha).1
  have hlb : b < u.length := (List.getElem?_eq_some_iff.1 hb).1
  have ga : u'[a]? = some (b : Int) := by
    rw [List.getElem?_set_ne hab.symm, List.getElem?_set_self hla]
  have gb : u'[b]? = some z := by
    rw [List.getElem?_set_self (by simpa using hlb)]
  have go : ∀ n, n ≠ a → n ≠ b → u'[n]? = u[n]? := fun n h1 h2 => by
    rw [List.getElem?_set_ne h2.symm, List.getElem?_set_ne h1.symm]
  have hbb : Rep u' b b := .root gb hz
  have hrb : Rep u b b := .root hb hy
  have hra : Rep u a a := .root ha hx
  refine ⟨by simp [u'], ⟨?_, ?_⟩, ?_, ?_⟩
  · intro n v hn hv
    simp only [u', List.length_set]
    by_cases h1 : n = a
    · subst h1; rw [ga] at hn; obtain rfl := Option.some.inj hn; simpa using hlb
    · by_cases h2 : n = b
      · subst h2; rw [gb] at hn; obtain rfl := Option.some.inj hn; omega
      · rw [go n h1 h2] at hn; exact hu.inRange n v hn hv
  · obtain ⟨h, hh⟩ := hu.height
    refine ⟨fun n => if n = b then max (h b) (h a + 1) else h n, fun n v hn hv => ?_⟩
    by_cases h1 : n = a
    · subst h1; rw [ga] at hn; obtain rfl := Option.some.inj hn
      simp only [hab, if_false, Int.toNat_natCast, if_true]
      omega
    · by_cases h2 : n = b
      · subst h2; rw [gb] at hn; obtain rfl := Option.some.inj hn; omega
      · rw [go n h1 h2] at hn
        have := hh n v hn hv
        simp only [h2, if_false]
        split
        · next hvb => rw [hvb] at this; omega
        · exact this
  · intro n r
    constructor
    · intro hr
      induction hr with
      | @root n v h1 h2 =>
        by_cases hn : n = a
        · subst hn; rw [ga] at h1; obtain rfl := Option.some.inj h1; omega
        · by_cases hn' : n = b
          · subst hn'; exact .inl ⟨hrb, hn⟩
          · rw [go n hn hn'] at h1; exact .inl ⟨.root h1 h2, hn⟩
      | @step n v r h1 h2 h3 ih =>
        by_cases hn : n = a
        · subst hn; rw [ga] at h1; obtain rfl := Option.some.inj h1
          rw [Int.toNat_natCast] at h3
          exact .inr ⟨hra, rep_unique h3 hbb⟩
        · by_cases hn' : n = b
          · subst hn'; rw [gb] at h1; obtain rfl := Option.some.inj h1; omega
          · rw [go n hn hn'] at h1
            rcases ih with ⟨h4, h5⟩ | ⟨h4, h5⟩
            · exact .inl ⟨.step h1 h2 h4, h5⟩
            · exact .inr ⟨.step h1 h2 h4, h5⟩
    · have key : ∀ n r, Rep u n r → Rep u' n (if r = a then b else r) := by
        intro n r hr
        induction hr with
        | @root n v h1 h2 =>
          by_cases hn : n = a
          · subst hn
            rw [if_pos rfl]
            exact .step ga (by omega) (by simpa using hbb)
          · rw [if_neg hn]
            by_cases hn' : n = b
            · subst hn'; exact hbb
            · rw [← go n hn hn'] at h1; exact .root h1 h2
        | @step n v r h1 h2 h3 ih =>
          have hn : n ≠ a := by rintro rfl; rw [ha] at h1; obtain rfl := Option.some.inj h1; omega
          have hn' : n ≠ b := by rintro rfl; rw [hb] at h1; obtain rfl := Option.some.inj h1; omega
          rw [← go n hn hn'] at h1
          exact .step h1 h2 ih
      rintro (⟨h1, h2⟩ | ⟨h1, rfl⟩)
      · have := key n r h1; rwa [if_neg h2] at this
      · have := key n a h1; rwa [if_pos rfl] at this
  · have e1 : rootCount (u.set a (b : Int)) + 1 = rootCount u := by
      unfold rootCount
      rw [List.countP_set hla]
      have hxa : u[a] = x := (List.getElem?_eq_some_iff.1 ha).2
      have hpos : 0 < u.countP (fun v => decide (v < 0)) := by
        rw [List.countP_pos_iff]
        exact ⟨x, List.mem_of_getElem? ha, by simpa using hx⟩
      have hb0 : ¬ (b : Int) < 0 := by omega
      simp [hxa, hx, hb0]
      omega
    have e2 : rootCount u' = rootCount (u.set a (b : Int)) := by
      unfold rootCount
      have hlb' : b < (u.set a (b : Int)).length := by simpa using hlb
      have hyb : (u.set a (b : Int))[b] = y := by
        have : (u.set a (b : Int))[b]? = some y := by rw [List.getElem?_set_ne hab]; exact hb
        exact (List.getElem?_eq_some_iff.1 this).2
      have hpos : 0 < (u.set a (b : Int)).countP (fun v => decide (v < 0)) := by
        rw [List.countP_pos_iff]
        exact ⟨y, by rw [← hyb]; exact List.getElem_mem _, by simpa using hy⟩
      show ((u.set a (b : Int)).set b z).countP _ = _
      rw [List.countP_set hlb']
      simp only [hyb, hy, hz, decide_true, if_true]
      omega
    omega

/-- `linkSets` of two different roots joins their trees. -/
theorem linkSets_spec {u : List Int} (hu : UFok u) {a b : Nat} (hab : a ≠ b) (ha : Rep u a a) (hb : Rep u b b) :
    ∃ u', linkSets u a b = .ok u' ∧ u'.length = u.length ∧ UFok u' ∧ rootCount u' + 1 = rootCount u ∧
      ∀ m n, SameSet u' m n ↔ SameSet u m n ∨ (SameSet u m a ∧ SameSet u n b) ∨ (SameSet u m b ∧ SameSet u n a) := by
  obtain ⟨x, hx, hx0⟩ := rep_isRoot ha
  obtain ⟨y, hy, hy0⟩ := rep_isRoot hb
  -- the relation for "c attached to d"
  have rel : ∀ (c d : Nat) (u' : List Int), Rep u c c → Rep u d d → c ≠ d →
      (∀ n r, Rep u' n r ↔ (Rep u n r ∧ r ≠ c) ∨ (Rep u n c ∧ r = d)) →
      ∀ m n, SameSet u' m n ↔ SameSet u m n ∨ (SameSet u m c ∧ SameSet u n d) ∨ (SameSet u m d ∧ SameSet u n c) := by
    intro c d u' hc hd hcd hrep m n
    have hto : ∀ k e, Rep u e e → (SameSet u k e ↔ Rep u k e) := fun k e he =>
      ⟨fun ⟨r, h1, h2⟩ => by rw [rep_unique he h2]; exact h1, fun h => ⟨e, h, he⟩⟩
    rw [hto m c hc, hto n d hd, hto m d hd, hto n c hc]
    constructor
    · rintro ⟨r, h1, h2⟩
      rw [hrep] at h1 h2
      rcases h1 with ⟨h1, h3⟩ | ⟨h1, rfl⟩ <;> rcases h2 with ⟨h2, h4⟩ | ⟨h2, h4⟩
      · exact .inl ⟨r, h1, h2⟩
      · subst h4; exact .inr (.inr ⟨h1, h2⟩)
      · exact .inr (.inl ⟨h1, h2⟩)
      · exact .inl ⟨c, h1, h2⟩
    · rintro (⟨r, h1, h2⟩ | ⟨h1, h2⟩ | ⟨h1, h2⟩)
      · by_cases hr : r = c
        · subst hr; exact ⟨d, (hrep m d).2 (.inr ⟨h1, rfl⟩), (hrep n d).2 (.inr ⟨h2, rfl⟩)⟩
        · exact ⟨r, (hrep m r).2 (.inl ⟨h1, hr⟩), (hrep n r).2 (.inl ⟨h2, hr⟩)⟩
      · exact ⟨d, (hrep m d).2 (.inr ⟨h1, rfl⟩), (hrep n d).2 (.inl ⟨h2, hcd.symm⟩)⟩
      · exact ⟨d, (hrep m d).2 (.inl ⟨h1, hcd.symm⟩), (hrep n d).2 (.inr ⟨h2, rfl⟩)⟩
  have hla : a < u.length := (rep_lt ha).1
  have hlb : b < u.length := (rep_lt hb).1
  by_cases h1 : x > y
  · obtain ⟨p1, p2, p3, p4⟩ := attach_spec hu hab hx hx0 hy hy0 hy0
    have hsame : (u.set a (b : Int)).set b y = u.set a (b : Int) := by
      apply List.ext_getElem?
      intro i
      by_cases hi : i = b
      · subst hi
        rw [List.getElem?_set_self (by simpa using hlb), List.getElem?_set_ne hab, hy]
      · rw [List.getElem?_set_ne (Ne.symm hi)]
    rw [hsame] at p1 p2 p3 p4
    exact ⟨_, by simp [linkSets, hx, hy, h1], p1, p2, p4, rel a b _ ha hb hab p3⟩
  · by_cases h2 : y > x
    · obtain ⟨p1, p2, p3, p4⟩ := attach_spec hu hab.symm hy hy0 hx hx0 hx0
      have hsame : (u.set b (a : Int)).set a x = u.set b (a : Int) := by
        apply List.ext_getElem?
        intro i
        by_cases hi : i = a
        · subst hi
          rw [List.getElem?_set_self (by simpa using hla), List.getElem?_set_ne hab.symm, hx]
        · rw [List.getElem?_set_ne (Ne.symm hi)]
      rw [hsame] at p1 p2 p3 p4
      refine ⟨_, by simp only [linkSets, hx, hy, h1, h2, if_true, if_false], p1, p2, p4, fun m n => ?_⟩
      rw [rel b a _ hb ha hab.symm p3 m n]
      tauto
    · obtain ⟨p1, p2, p3, p4⟩ := attach_spec hu hab hx hx0 hy hy0 (show y - 1 < 0 by omega)
      exact ⟨_, by simp only [linkSets, hx, hy, h1, h2, if_false], p1, p2, p4, rel a b _ ha hb hab p3⟩

/-- `unionSets` joins the trees of two nodes and tells whether they were different. -/
theorem unionSets_spec {u : List Int} (hu : UFok u) {a b : Nat} (ha : a < u.length) (hb : b < u.length) :
    ∃ c u', unionSets u a b = .ok (c, u') ∧ u'.length = u.length ∧ UFok u' ∧ (c = true ↔ ¬ SameSet u a b) ∧
      rootCount u' + (if c then 1 else 0) = rootCount u ∧
      ∀ m n, SameSet u' m n ↔ SameSet u m n ∨ (SameSet u m a ∧ SameSet u n b) ∨ (SameSet u m b ∧ SameSet u n a) := by
  obtain ⟨c, u1, h1, h2, h3⟩ := ufConnected_spec hu ha hb
  cases c with
  | true =>
    have hs : SameSet u a b := h2.1 rfl
    refine ⟨false, u1, by simp [unionSets, h1, ok_bind], h3.length, h3.ok, by simp [hs], by simp [h3.rootCount], fun m n => ?_⟩
    rw [h3.sameSet]
    refine ⟨.inl, ?_⟩
    rintro (h | ⟨h, h'⟩ | ⟨h, h'⟩)
    · exact h
    · exact (h.trans hs).trans h'.symm
    · exact (h.trans hs.symm).trans h'.symm
  | false =>
    have hs : ¬ SameSet u a b := fun h => by simpa using h2.2 h
    obtain ⟨x, u2, g1, g2, g3⟩ := findSet_spec h3.ok (by rw [h3.length]; exact ha)
    obtain ⟨y, u3, g4, g5, g6⟩ := findSet_spec g3.ok (by rw [g3.length, h3.length]; exact hb)
    have t3 : SameTrees u u3 := (h3.trans g3).trans g6
    have hxa : Rep u3 a x := (g6.rep a x).2 ((g3.rep a x).2 g2)
    have hyb : Rep u3 b y := (g6.rep b y).2 g5
    have hxy : x ≠ y := by
      rintro rfl
      exact hs ((t3.sameSet a b).1 ⟨x, hxa, hyb⟩)
    obtain ⟨u4, k1, k2, k3, k4, k5⟩ := linkSets_spec t3.ok hxy (rep_root_self hxa) (rep_root_self hyb)
    refine ⟨true, u4, by simp [unionSets, h1, g1, g4, k1, ok_bind], k2.trans t3.length, k3, by simp [hs], ?_, fun m n => ?_⟩
    · rw [t3.rootCount] at k4; simpa using k4
    · have hx : ∀ k, SameSet u3 k x ↔ SameSet u k a := fun k => by
        rw [← t3.sameSet]
        exact ⟨fun h => h.trans ⟨x, rep_root_self hxa, hxa⟩, fun h => h.trans ⟨x, hxa, rep_root_self hxa⟩⟩
      have hy : ∀ k, SameSet u3 k y ↔ SameSet u k b := fun k => by
        rw [← t3.sameSet]
        exact ⟨fun h => h.trans ⟨y, rep_root_self hyb, hyb⟩, fun h => h.trans ⟨y, hyb, rep_root_self hyb⟩⟩
      rw [k5, hx, hx, hy, hy, t3.sameSet]

theorem ufNew_getElem {n a : Nat} {v : Int} (h : (ufNew n)[a]? = some v) : a < n ∧ v = -1 := by
  rw [ufNew, List.getElem?_replicate] at h
  split at h
  · exact ⟨by assumption, (Option.some.inj h).symm⟩
  · cases h

theorem ufNew_ok (n : Nat) : UFok (ufNew n) :=
  ⟨fun _ _ h hv => by have := (ufNew_getElem h).2; omega, fun _ => 0, fun _ _ h hv => by have := (ufNew_getElem h).2; omega⟩

theorem ufNew_sameSet (n a b : Nat) : SameSet (ufNew n) a b ↔ a = b ∧ a < n := by
  have key : ∀ a r, Rep (ufNew n) a r ↔ a = r ∧ a < n := by
    intro a r
    constructor
    · intro h
      cases h with
      | root h1 h2 => exact ⟨rfl, (ufNew_getElem h1).1⟩
      | step h1 h2 _ => have := (ufNew_getElem h1).2; omega
    · rintro ⟨rfl, h⟩
      exact .root (v := -1) (by simp [ufNew, h]) (by omega)
  simp only [SameSet, key]
  constructor
  · rintro ⟨r, ⟨h1, h2⟩, h3, h4⟩; exact ⟨by omega, h2⟩
  · rintro ⟨rfl, h⟩; exact ⟨a, ⟨rfl, h⟩, rfl, h⟩

theorem ufNew_rootCount (n : Nat) : rootCount (ufNew n) = n := by
  simp [rootCount, ufNew, List.countP_replicate]

end ICPC
