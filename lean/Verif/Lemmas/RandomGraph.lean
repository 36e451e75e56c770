import Verif.Model.RandomGraph
import Verif.Spec.RandomGraph
import Verif.Lemmas.Families
import Verif.Props.Distinct
import Mathlib.Data.List.Permutation
import Mathlib.Data.Nat.Choose.Basic

/-!
# Random graphs with a given number of edges
-/

namespace ICPC.Gen

open ICPC Spec.EdgeMap

variable {E : Type} [Inhabited E] {g : Graph E} {dir : Bool} {lo : Int} {n : Nat} {m : Map E}

/-! ## Sets of different numbers -/

theorem distinct_nodup {count lower upper : Int} (hl : I64 lower) (hu : I64 upper) (h0 : 0 ≤ count) (hle : lower + count ≤ upper) :
    SatOk (distinct count lower upper) fun t => t.length = count.toNat ∧ t.Nodup ∧ ∀ y ∈ t, lower ≤ y ∧ y < upper := by
  refine SatOk.mono (ICPC.Props.C04_distinct count lower upper hl hu h0 hle) ?_
  rintro t ⟨h1, h2, h3⟩
  refine ⟨h1, ?_, h3⟩
  exact List.pairwise_iff_getElem.2 fun i j hi hj hij => h2 i j hi hj hij

/-- Every set of `count` numbers is drawn with the same probability. -/
theorem distinct_set {count lower upper : Int} (hl : I64 lower) (hu : I64 upper) (h0 : 0 ≤ count) (hle : lower + count ≤ upper)
    (T : Finset Int) (hT : T ⊆ Finset.Ico lower upper) (hc : T.card = count.toNat) :
    expect (distinct count lower upper) (fun t => if t.toFinset = T then 1 else 0) = 1 / (((upper - lower).toNat.choose count.toNat : Nat) : ℚ) := by
  classical
  have h1 : expect (distinct count lower upper) (fun t => if t.toFinset = T then 1 else 0) =
      expect (distinct count lower upper) (fun t => ∑ p ∈ T.toList.permutations.toFinset, if t = p then (1 : ℚ) else 0) := by
    refine expect_congr_ok (distinct_nodup hl hu h0 hle) ?_
    rintro t ⟨h1, h2, h3⟩
    rw [Finset.sum_ite_eq]
    refine if_congr ?_ rfl rfl
    rw [List.mem_toFinset, List.mem_permutations]
    constructor
    · intro h
      refine (List.perm_ext_iff_of_nodup h2 (Finset.nodup_toList T)).2 fun a => ?_
      rw [Finset.mem_toList, ← h, List.mem_toFinset]
    · intro h
      ext a
      rw [List.mem_toFinset, h.mem_iff, Finset.mem_toList]
  rw [h1, expect_sum]
  have h2 : ∀ p ∈ T.toList.permutations.toFinset, expect (distinct count lower upper) (fun t => if t = p then (1 : ℚ) else 0) =
      1 / (((upper - lower).toNat.descFactorial count.toNat : Nat) : ℚ) := by
    intro p hp
    rw [List.mem_toFinset, List.mem_permutations] at hp
    refine ICPC.Props.C04_distinct_uniform count lower upper hl hu h0 hle p ?_ ?_ ?_
    · rw [hp.length_eq, Finset.length_toList, hc]
    · exact hp.nodup_iff.2 (Finset.nodup_toList T)
    · intro y hy
      have := hT (Finset.mem_toList.1 (hp.mem_iff.1 hy))
      rwa [Finset.mem_Ico] at this
  rw [Finset.sum_congr rfl h2, Finset.sum_const, List.toFinset_card_of_nodup (List.nodup_permutations _ (Finset.nodup_toList T)),
    List.length_permutations, Finset.length_toList, hc, Nat.descFactorial_eq_factorial_mul_choose]
  have hf : ((count.toNat.factorial : Nat) : ℚ) ≠ 0 := by exact_mod_cast Nat.factorial_ne_zero _
  rw [nsmul_eq_mul, Nat.cast_mul]
  field_simp

/-! ## The number of edges -/

/-- The edge with the smaller vertex first if it is undirected. -/
def canon (dir : Bool) (u v : Int) : Int × Int := if dir then (u, v) else (min u v, max u v)

theorem mem_allPairs {p : Int × Int} : p ∈ allPairs dir n ↔ In 0 n p.1 ∧ In 0 n p.2 ∧ p.1 ≠ p.2 ∧ (dir = false → p.1 < p.2) := by
  unfold allPairs In
  rw [Finset.mem_filter, Finset.mem_product, Finset.mem_Ico, Finset.mem_Ico]
  cases dir <;> simp <;> omega

theorem Good.edgeCount_card (S : Finset (Int × Int)) (hS : S ⊆ allPairs dir n) (h : Good g dir 0 n (ofRel dir fun u v => (u, v) ∈ S)) :
    g.edgeCount = S.card := by
  have hc : g.edgeCount = g.getEdges.length := h.agrees.count
  rw [hc]
  have hnd : (g.getEdges.map fun e => canon dir e.src e.dst).Nodup := by
    refine List.Pairwise.map _ ?_ h.uniq
    intro a b hab hh
    apply hab
    unfold canon at hh
    unfold EqEdge Same
    cases dir with
    | true =>
      simp only [if_true, Prod.mk.injEq] at hh
      exact Or.inl ⟨hh.1.symm, hh.2.symm⟩
    | false =>
      simp only [Bool.false_eq_true, if_false, Prod.mk.injEq] at hh
      simp only [true_and]
      omega
  have hset : (g.getEdges.map fun e => canon dir e.src e.dst).toFinset = S := by
    ext ⟨u, v⟩
    rw [List.mem_toFinset, List.mem_map]
    constructor
    · rintro ⟨e, he, hq⟩
      have h1 := h.map_mem he
      have h2 : (ofRel dir (fun u v => (u, v) ∈ S) e.src e.dst : Option E).isSome := by rw [h1]; rfl
      rw [ofRel_isSome] at h2
      rw [← hq]
      unfold canon
      rcases h2 with h2 | ⟨hd, h2⟩
      · have h3 := mem_allPairs.1 (hS h2)
        cases dir with
        | true => exact h2
        | false =>
          have := h3.2.2.2 rfl
          simp only at this
          rw [if_neg (by simp), min_eq_left this.le, max_eq_right this.le]; exact h2
      · have h3 := mem_allPairs.1 (hS h2)
        have := h3.2.2.2 hd
        simp only at this
        rw [hd, if_neg (by simp), min_eq_right this.le, max_eq_left this.le]; exact h2
    · intro hm
      have h1 : (ofRel dir (fun u v => (u, v) ∈ S) u v : Option E).isSome := ofRel_isSome u v |>.2 (Or.inl hm)
      obtain ⟨d, hd⟩ := Option.isSome_iff_exists.1 h1
      obtain ⟨e, he, -, hs⟩ := (h.map_iff u v d).1 hd
      refine ⟨e, he, ?_⟩
      have h3 := mem_allPairs.1 (hS hm)
      simp only at h3
      unfold canon
      rcases hs with ⟨h4, h5⟩ | ⟨hdir, h4, h5⟩
      · rw [h4, h5]
        cases dir with
        | true => rfl
        | false =>
          have := h3.2.2.2 rfl
          rw [if_neg (by simp), min_eq_left this.le, max_eq_right this.le]
      · have := h3.2.2.2 hdir
        rw [h4, h5, hdir, if_neg (by simp), min_eq_right this.le, max_eq_left this.le]
  rw [← hset, List.toFinset_card_of_nodup hnd, List.length_map]

theorem Good.hasExactly {S : Finset (Int × Int)} (h : Good g dir 0 n (ofRel dir fun u v => (u, v) ∈ S)) : HasExactly g dir n S := by
  intro u v hu hv
  rw [h.agrees.has, if_pos ⟨hu, hv⟩]
  refine congrArg Except.ok ?_
  rw [Bool.eq_iff_iff, ofRel_isSome, decide_eq_true_iff]

omit [Inhabited E] in
theorem HasExactly.unique {S T : Finset (Int × Int)} (hS : S ⊆ allPairs dir n) (hT : T ⊆ allPairs dir n) (h1 : HasExactly g dir n S)
    (h2 : HasExactly g dir n T) : S = T := by
  have key : ∀ {S T : Finset (Int × Int)}, S ⊆ allPairs dir n → T ⊆ allPairs dir n → HasExactly g dir n S → HasExactly g dir n T → S ⊆ T := by
    intro S T hS hT h1 h2 p hp
    have h3 := mem_allPairs.1 (hS hp)
    have h4 := h1 p.1 p.2 h3.1 h3.2.1
    rw [h2 p.1 p.2 h3.1 h3.2.1, decide_eq_true (Or.inl hp)] at h4
    have h5 := of_decide_eq_true (Except.ok.inj h4)
    rcases h5 with h5 | ⟨hd, h5⟩
    · exact h5
    · have := (mem_allPairs.1 (hT h5)).2.2.2 hd
      have := h3.2.2.2 hd
      simp only at *
      omega
  exact Finset.Subset.antisymm (key hS hT h1 h2) (key hT hS h2 h1)

/-! ## Graphs from indices -/

/-- What both functions do: draw different indices, and add the edge of every index. -/
def fromIndices (res : Graph E) (f : Int → Out (Int × Int)) (k lim : Int) : Rand (Graph E) := do
  let edges ← distinct k 0 lim
  let ps ← Rand.lift (edges.mapM f)
  Rand.lift (addPairs res ps)

theorem mapM_total {α β : Type} {f : α → Out β} {f' : α → β} : ∀ {l : List α}, (∀ x ∈ l, f x = .ok (f' x)) → l.mapM f = .ok (l.map f')
  | [], _ => rfl
  | a :: l, h => by
    rw [List.mapM_cons, h a List.mem_cons_self, mapM_total fun x hx => h x (List.mem_cons_of_mem _ hx)]
    rfl

attribute [local irreducible] distinct

variable {f : Int → Out (Int × Int)} {f' : Int → Int × Int} {k : Nat} {lim : Int} {P : Finset (Int × Int)}

theorem fromIndices_run (hn : I64 n) (hP : P ⊆ allPairs dir n) (hf : ∀ x, 0 ≤ x → x < lim → f x = .ok (f' x) ∧ f' x ∈ P)
    (t : List Int) (ht : ∀ y ∈ t, 0 ≤ y ∧ y < lim) {res : Graph E} (hres : Graph.ofSize dir (n : Int) = .ok res) :
    ∃ g : Graph E, (t.mapM f >>= fun ps => addPairs res ps) = .ok g ∧ (t.map f').toFinset ⊆ P ∧
      Good g dir 0 n (ofRel dir fun u v => (u, v) ∈ (t.map f').toFinset) := by
  have hsub : (t.map f').toFinset ⊆ P := by
    intro p hp
    rw [List.mem_toFinset, List.mem_map] at hp
    obtain ⟨x, hx, rfl⟩ := hp
    exact (hf x (ht x hx).1 (ht x hx).2).2
  obtain ⟨g, res', h1, h2, h3⟩ := newPairs (E := E) (dir := dir) hn (t.map f') (R := fun u v => (u, v) ∈ (t.map f').toFinset)
    (fun u v => by rw [List.mem_toFinset]) (fun u v h => by
      have := mem_allPairs.1 (hP (hsub h))
      exact ⟨this.1, this.2.1, this.2.2.1⟩)
  rw [hres] at h1
  cases h1
  refine ⟨g, ?_, hsub, h3⟩
  rw [mapM_total fun x hx => (hf x (ht x hx).1 (ht x hx).2).1]
  exact h2

theorem lift_bind2 {α β : Type} (a : Out α) (f : α → Out β) : (Rand.lift a >>= fun x => Rand.lift (f x)) = Rand.lift (a >>= f) := by
  cases a <;> rfl

theorem fromIndices_sat (hn : I64 n) (hlim : I64 lim) (hk : k ≤ lim) (hP : P ⊆ allPairs dir n)
    (hf : ∀ x, 0 ≤ x → x < lim → f x = .ok (f' x) ∧ f' x ∈ P)
    (hinj : ∀ x y, 0 ≤ x → x < lim → 0 ≤ y → y < lim → f' x = f' y → x = y)
    {res : Graph E} (hres : Graph.ofSize dir (n : Int) = .ok res) :
    SatOk (fromIndices res f k lim) fun g => ∃ S, S ⊆ P ∧ S.card = k ∧ Good g dir 0 n (ofRel dir fun u v => (u, v) ∈ S) := by
  unfold fromIndices
  have hk0 : (0 : Int) ≤ k := Int.natCast_nonneg k
  have hk1 : 0 + (k : Int) ≤ lim := by rw [zero_add]; exact hk
  have hd := distinct_nodup (count := k) (lower := 0) (upper := lim) i64_zero hlim hk0 hk1
  refine SatOk.bind hd ?_
  rintro t ⟨h1, h2, h3⟩
  obtain ⟨g, h4, h5, h6⟩ := fromIndices_run hn hP hf t h3 hres
  rw [lift_bind2, h4]
  refine satOk_done ⟨_, h5, ?_, h6⟩
  rw [List.toFinset_card_of_nodup, List.length_map, h1]
  · omega
  · refine (List.nodup_map_iff_inj_on h2).2 fun x hx y hy e => hinj x y (h3 x hx).1 (h3 x hx).2 (h3 y hy).1 (h3 y hy).2 e

theorem fromIndices_prob (hn : I64 n) (hlim : I64 lim) (hk : k ≤ lim) (hP : P ⊆ allPairs dir n)
    (hf : ∀ x, 0 ≤ x → x < lim → f x = .ok (f' x) ∧ f' x ∈ P)
    (hinj : ∀ x y, 0 ≤ x → x < lim → 0 ≤ y → y < lim → f' x = f' y → x = y)
    (hsurj : ∀ p ∈ P, ∃ x, 0 ≤ x ∧ x < lim ∧ f' x = p)
    {res : Graph E} (hres : Graph.ofSize dir (n : Int) = .ok res) (S : Finset (Int × Int)) (hS : S ⊆ P) (hc : S.card = k) :
    probEdges (fromIndices res f k lim) dir n S = 1 / ((P.card.choose k : Nat) : ℚ) := by
  classical
  have hI : (Finset.Ico 0 lim).image f' = P := by
    ext p
    rw [Finset.mem_image]
    constructor
    · rintro ⟨x, hx, rfl⟩
      rw [Finset.mem_Ico] at hx
      exact (hf x hx.1 hx.2).2
    · intro hp
      obtain ⟨x, h1, h2, h3⟩ := hsurj p hp
      exact ⟨x, Finset.mem_Ico.2 ⟨h1, h2⟩, h3⟩
  have hinj' : Set.InjOn f' (Finset.Ico 0 lim : Finset Int) := by
    intro x hx y hy e
    rw [Finset.mem_coe, Finset.mem_Ico] at hx hy
    exact hinj x y hx.1 hx.2 hy.1 hy.2 e
  have hcard : P.card = (lim - 0).toNat := by
    rw [← hI, Finset.card_image_of_injOn hinj', Int.card_Ico]
  set T := (Finset.Ico 0 lim).filter fun x => f' x ∈ S with hTdef
  have hTS : T.image f' = S := by
    ext p
    rw [Finset.mem_image]
    constructor
    · rintro ⟨x, hx, rfl⟩
      exact (Finset.mem_filter.1 hx).2
    · intro hp
      obtain ⟨x, h1, h2, h3⟩ := hsurj p (hS hp)
      exact ⟨x, Finset.mem_filter.2 ⟨Finset.mem_Ico.2 ⟨h1, h2⟩, by rw [h3]; exact hp⟩, h3⟩
  have hTI : T ⊆ Finset.Ico 0 lim := Finset.filter_subset _ _
  have hTc : T.card = (k : Int).toNat := by
    rw [Int.toNat_natCast, ← hc, ← hTS, Finset.card_image_of_injOn (hinj'.mono (by exact_mod_cast hTI))]
  unfold probEdges fromIndices
  have hk0 : (0 : Int) ≤ k := Int.natCast_nonneg k
  have hk1 : 0 + (k : Int) ≤ lim := by rw [zero_add]; exact hk
  have hd := distinct_nodup (count := k) (lower := 0) (upper := lim) i64_zero hlim hk0 hk1
  have hs := distinct_set (count := k) (lower := 0) (upper := lim) i64_zero hlim hk0 hk1 T hTI hTc
  rw [Int.toNat_natCast] at hs
  rw [expect_bind, hcard, ← hs]
  refine expect_congr_ok hd ?_
  rintro t ⟨h1, h2, h3⟩
  obtain ⟨g, h4, h5, h6⟩ := fromIndices_run hn hP hf t h3 hres
  rw [lift_bind2, h4]
  show (if HasExactly g dir n S then (1 : ℚ) else 0) = _
  refine if_congr ?_ rfl rfl
  have e : (t.map f').toFinset = t.toFinset.image f' := by
    ext p; simp [List.mem_toFinset]
  rw [e] at h5 h6
  have hti : t.toFinset ⊆ Finset.Ico 0 lim := by
    intro x hx
    rw [List.mem_toFinset] at hx
    exact Finset.mem_Ico.2 (h3 x hx)
  constructor
  · intro hex
    have h7 := HasExactly.unique (hS.trans hP) (h5.trans hP) hex h6.hasExactly
    ext x
    rw [hTdef, Finset.mem_filter, h7, Finset.mem_image]
    constructor
    · intro hx
      exact ⟨hti hx, x, hx, rfl⟩
    · rintro ⟨hx, y, hy, hxy⟩
      rw [← hinj' (hti hy) hx hxy]
      exact hy
  · intro hex
    rw [hex, hTS] at h6
    exact h6.hasExactly

end ICPC.Gen
