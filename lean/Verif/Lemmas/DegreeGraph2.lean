import Verif.Lemmas.DegreeGraph
import Verif.Lemmas.Rand
import Verif.Spec.DegreeGraph
import Mathlib.Algebra.BigOperators.Intervals
import Mathlib.Algebra.Order.BigOperators.Group.Finset
import Mathlib.Algebra.BigOperators.Ring.Finset

/-!
# Flips, and the whole of `randomGraph(degree, averageFlips)`
-/

namespace ICPC.Gen

open ICPC Spec.EdgeMap

variable {E : Type} {g : Graph E} {n : Nat} {m : Map E}

/-- No more edges than the sum of the degrees. -/
theorem Good.edges_le (h : Good g false 0 n m) : g.edges.length ≤ ∑ i ∈ Finset.range n, (nb n (bm m) (i : Int)).card := by
  have hnd : (g.getEdges.map fun e => (e.src, e.dst)).Nodup := by
    refine List.Pairwise.map _ ?_ h.uniq
    intro a b hab hh
    rw [Prod.mk.injEq] at hh
    apply hab
    unfold EqEdge Same
    exact Or.inl ⟨hh.1.symm, hh.2.symm⟩
  have hl : g.edges.length = (g.getEdges.map fun e => (e.src, e.dst)).toFinset.card := by
    rw [List.toFinset_card_of_nodup hnd, List.length_map]
    unfold Graph.getEdges
    rw [List.length_map]
  rw [hl]
  refine le_trans (Finset.card_le_card (t := (Finset.range n).biUnion fun i => (nb n (bm m) (i : Int)).image fun v => ((i : Int), v)) ?_) ?_
  · intro p hp
    obtain ⟨e, he, rfl⟩ := List.mem_map.1 (List.mem_toFinset.1 hp)
    obtain ⟨h1, h2, -, h4⟩ := h.agrees.sound e he
    obtain ⟨h1a, h1b⟩ := h1
    rw [Finset.mem_biUnion]
    refine ⟨e.src.toNat, Finset.mem_range.2 (by omega), ?_⟩
    rw [show ((e.src.toNat : Nat) : Int) = e.src from by omega]
    refine Finset.mem_image.2 ⟨e.dst, h.sim.mem.2 ?_, rfl⟩
    unfold bm
    rw [h4]
    rfl
  · refine le_trans Finset.card_biUnion_le (Finset.sum_le_sum fun i _ => Finset.card_image_le)

theorem Good.edges_pos (h : Good g false 0 n m) {u : Int} (hu : 0 < (nb n (bm m) u).card) : 0 < g.edges.length := by
  obtain ⟨v, hv⟩ := Finset.card_pos.1 hu
  have hb := h.sim.mem.1 hv
  unfold bm at hb
  rw [h.isSome_iff] at hb
  obtain ⟨e, he, -⟩ := hb
  have := List.length_pos_of_mem he
  unfold Graph.getEdges at this
  rwa [List.length_map] at this

theorem Good.edges_zero (h : Good g false 0 n m) (hz : ∀ u, In 0 n u → (nb n (bm m) u).card = 0) : g.edges.length = 0 := by
  have := h.edges_le
  have h2 : ∑ i ∈ Finset.range n, (nb n (bm m) (i : Int)).card = 0 :=
    Finset.sum_eq_zero fun i hi => hz (i : Int) ⟨by omega, by have := Finset.mem_range.1 hi; omega⟩
  omega

variable [Inhabited E]

omit [Inhabited E] in
/-- The map after a flip. -/
theorem flip_map {x y z w : Int} {d d' : E} (hs : Sim n (bm m)) (hxy : bm m x y = true) (hzw : bm m z w = true) (h1 : x ≠ w) (h2 : bm m x w = false)
    (h3 : z ≠ y) (h4 : bm m z y = false) : bm (put false (put false (del false (del false m x y) z w) x w d) z y d') = sw (bm m) x y z w := by
  have e1 := hs.inn _ _ hxy
  have e2 := hs.inn _ _ hzw
  have e3 : x ≠ z := by rintro rfl; rw [hzw] at h2; cases h2
  have e4 : y ≠ w := by rintro rfl; rw [hxy] at h2; cases h2
  have e5 := e1.2.2
  have e6 := e2.2.2
  funext u v
  show Option.isSome _ = _
  have hS : ∀ a b c d : Int, Same false a b c d ↔ (c = a ∧ d = b) ∨ (c = b ∧ d = a) := by
    intro a b c d
    unfold Same
    simp
  unfold sw
  simp only [put, del, hS]
  by_cases c1 : (u = x ∧ v = y) ∨ (u = y ∧ v = x) ∨ (u = z ∧ v = w) ∨ (u = w ∧ v = z)
  · rw [if_pos c1, if_neg (by omega), if_neg (by omega)]
    split
    · rfl
    · next h => rw [if_pos (by omega)]; rfl
  · rw [if_neg c1]
    by_cases c2 : (u = x ∧ v = w) ∨ (u = w ∧ v = x) ∨ (u = z ∧ v = y) ∨ (u = y ∧ v = z)
    · rw [if_pos c2]
      split
      · rfl
      · next h => rw [if_pos (by omega)]; rfl
    · rw [if_neg c2, if_neg (by omega), if_neg (by omega), if_neg (by omega), if_neg (by omega)]
      rfl

theorem flip_ok (h : Good g false 0 n m) (hpos : ∃ u, 0 < (nb n (bm m) u).card)
    (hsum : ∑ i ∈ Finset.range n, (nb n (bm m) (i : Int)).card < 2 ^ 63) :
    SatOk (flip g) fun g' => ∃ m', Good g' false 0 n m' ∧ ∀ u, (nb n (bm m') u).card = (nb n (bm m) u).card := by
  obtain ⟨u0, hu0⟩ := hpos
  have hp := h.edges_pos hu0
  have hl := h.edges_le
  have hgl : g.getEdges.length = g.edges.length := by unfold Graph.getEdges; rw [List.length_map]
  have hec : g.edgeCount = (g.edges.length : Int) := rfl
  have hI : I64 g.edgeCount := by
    rw [hec]
    have h2 : (g.edges.length : Int) < 2 ^ 63 := by exact_mod_cast lt_of_le_of_lt hl hsum
    unfold I64
    omega
  unfold flip
  refine SatOk.bind (integer_satOk i64_zero hI (by rw [hec]; omega)) ?_
  rintro i ⟨hi0, hi1⟩
  rw [hec] at hi1
  have hi : i.toNat < g.getEdges.length := by omega
  rw [h.agrees.byId, List.getElem?_eq_getElem hi, Rand.lift_ok, Rand.bind_done_ok]
  refine SatOk.bind (integer_satOk i64_zero hI (by rw [hec]; omega)) ?_
  rintro j ⟨hj0, hj1⟩
  rw [hec] at hj1
  have hj : j.toNat < g.getEdges.length := by omega
  rw [h.agrees.byId, List.getElem?_eq_getElem hj, Rand.lift_ok, Rand.bind_done_ok]
  obtain ⟨a1, a2, a3, a4⟩ := h.agrees.sound _ (List.getElem_mem hi)
  obtain ⟨b1, b2, b3, b4⟩ := h.agrees.sound _ (List.getElem_mem hj)
  generalize g.getEdges[i.toNat] = a at *
  generalize g.getEdges[j.toNat] = b at *
  have hbl : ∀ u v, In 0 n u → In 0 n v → blocked g u v = .ok (decide (u = v) || (m u v).isSome) := by
    intro u v hu hv
    unfold blocked
    by_cases c : u = v
    · rw [if_pos c, decide_eq_true c, Bool.true_or]
    · rw [if_neg c, decide_eq_false c, Bool.false_or, h.agrees.has, if_pos ⟨hu, hv⟩]
  rw [hbl _ _ a1 b2, hbl _ _ b1 a2, ok_bind, ok_bind]
  cases s1 : (decide (a.src = b.dst) || (m a.src b.dst).isSome) with
  | true => exact satOk_done ⟨m, h, fun _ => rfl⟩
  | false =>
    rw [if_neg Bool.false_ne_true]
    obtain ⟨c1, d1⟩ := Bool.or_eq_false_iff.1 s1
    have c1 := of_decide_eq_false c1
    cases s2 : (decide (b.src = a.dst) || (m b.src a.dst).isSome) with
    | true => exact satOk_done ⟨m, h, fun _ => rfl⟩
    | false =>
      rw [if_neg Bool.false_ne_true]
      obtain ⟨c2, d2⟩ := Bool.or_eq_false_iff.1 s2
      have c2 := of_decide_eq_false c2
      obtain ⟨g1, k1, k2, -⟩ := h.erase a1 a2
      obtain ⟨g2, l1, l2, -⟩ := k2.erase b1 b2
      obtain ⟨g3, p1, p2, -⟩ := l2.add (default : E) a1 b2 c1
      obtain ⟨g4, q1, q2, -⟩ := p2.add (default : E) b1 a2 c2
      rw [k1, ok_bind, l1, ok_bind, p1, ok_bind, q1]
      have ha : bm m a.src a.dst = true := by unfold bm; rw [a4]; rfl
      have hb : bm m b.src b.dst = true := by unfold bm; rw [b4]; rfl
      refine satOk_done ⟨_, q2, ?_⟩
      rw [flip_map h.sim ha hb c1 d1 c2 d2]
      exact (sw_ok h.sim ha hb c1 d1 c2 d2).2

theorem flips_ok (k : Nat) : ∀ {g : Graph E} {m : Map E}, Good g false 0 n m → (∃ u, 0 < (nb n (bm m) u).card) →
    (∑ i ∈ Finset.range n, (nb n (bm m) (i : Int)).card < 2 ^ 63) →
    SatOk (flips k g) fun g' => ∃ m', Good g' false 0 n m' ∧ ∀ u, (nb n (bm m') u).card = (nb n (bm m) u).card := by
  induction k with
  | zero => intro g m h _ _; exact satOk_done ⟨m, h, fun _ => rfl⟩
  | succ k ih =>
    intro g m h hpos hsum
    refine SatOk.bind (flip_ok h hpos hsum) ?_
    rintro g1 ⟨m1, h1, h2⟩
    refine SatOk.mono (ih h1 (by obtain ⟨u, hu⟩ := hpos; exact ⟨u, by rw [h2]; exact hu⟩) (by simp only [h2]; exact hsum)) ?_
    rintro g' ⟨m', h3, h4⟩
    exact ⟨m', h3, fun u => by rw [h4, h2]⟩

/-- Without edges a flip throws. -/
theorem flip_throw (h : g.edges.length = 0) : flip g = .done (.error .throw) := by
  unfold flip
  have : g.edgeCount = 0 := by show ((g.edges.length : Nat) : Int) = 0; omega
  have h0 : integer 0 0 = .done (.error .throw) := by
    unfold integer
    simp [I64]
  rw [this, h0, Rand.bind_done_error]

/-- The first part. -/
theorem construct (degree : List Int) (hlen : I64 (degree.length : Int)) (hd : ∀ d ∈ degree, I64 d) :
    (∃ (g : Graph E) (m : Map E), (do
      let n ← chk degree.length
      let res : Graph E ← Graph.ofSize false n
      havelHakimi (degree.length + 1) (initQueue 0 degree []) res) = .ok g ∧ Good g false 0 degree.length m ∧
        ∀ u, In 0 degree.length u → (nb degree.length (bm m) u).card = (degree.getD u.toNat 0).toNat) ∨
    ((do
      let n ← chk degree.length
      let res : Graph E ← Graph.ofSize false n
      havelHakimi (degree.length + 1) (initQueue 0 degree []) res) = .error .throw ∧
        ¬ ∃ b, Real' degree.length b (fun u => (degree.getD u.toNat 0).toNat)) := by
  rw [chk_ok hlen, ok_bind]
  obtain ⟨res, h1, h2, -⟩ := new_good (E := E) false i64_zero hlen (by omega) (by simpa using hlen)
  have e : ((degree.length : Int) - 0).toNat = degree.length := by omega
  rw [e] at h2
  have h1' : Graph.ofSize false (degree.length : Int) = .ok res := h1
  rw [h1', ok_bind]
  have hle : (initQueue 0 degree []).length < degree.length + 1 := by
    have hrep := initQueue_rep degree hd
    have hsub : (ids (initQueue 0 degree [])).toFinset ⊆ Finset.Ico 0 (degree.length : Int) := by
      intro u hu
      obtain ⟨x, hx, rfl⟩ := mem_ids.1 (List.mem_toFinset.1 hu)
      exact in_iff.1 (hrep.entry x hx).1
    have := Finset.card_le_card hsub
    rw [List.toFinset_card_of_nodup hrep.nodup, Int.card_Ico] at this
    unfold ids at this
    rw [List.length_map] at this
    omega
  have hz : ∀ u, (nb degree.length (bm (fun _ _ => none : Map E)) u).card = 0 := by
    intro u
    rw [Finset.card_eq_zero]
    unfold nb bm
    rw [Finset.filter_eq_empty_iff]
    intro v _
    simp
  rcases havelHakimi_ok (degree.length + 1) (initQueue 0 degree []) res _ _ hle h2 (initQueue_rep degree hd)
    (initQueue_desc degree 0 [] List.Pairwise.nil) (by intro u v huv; simp [bm] at huv) with ⟨g', m', a1, a2, a3⟩ | ⟨a1, a2⟩
  · refine Or.inl ⟨g', m', a1, a2, fun u hu => ?_⟩
    rw [a3 u hu, hz, Nat.zero_add]
  · exact Or.inr ⟨a1, a2⟩

open Classical in
theorem graphic_iff {degree : List Int} (h0 : ∀ d ∈ degree, 0 ≤ d) :
    Spec.Graphic degree ↔ ∃ b, Real' degree.length b (fun u => (degree.getD u.toNat 0).toNat) := by
  constructor
  · rintro ⟨adj, h1, h2, h3⟩
    have hs : Sim degree.length fun u v => decide (adj u v ∧ In 0 degree.length u ∧ In 0 degree.length v) := by
      constructor
      · intro u v huv
        rw [decide_eq_true_iff] at huv ⊢
        exact ⟨h1 _ _ huv.1, huv.2.2, huv.2.1⟩
      · intro u v huv
        rw [decide_eq_true_iff] at huv
        refine ⟨huv.2.1, huv.2.2, ?_⟩
        rintro rfl
        exact h2 _ huv.1
    refine ⟨_, hs, fun u hu => ?_⟩
    obtain ⟨hu1, hu2⟩ := hu
    have hk : u.toNat < degree.length := by omega
    have h4 := h3 u.toNat hk
    rw [show ((u.toNat : Nat) : Int) = u from by omega] at h4
    show _ = (degree.getD u.toNat 0).toNat
    rw [List.getD_eq_getElem _ _ hk, ← h4, Int.toNat_natCast]
    congr 1
    ext v
    rw [hs.mem, Finset.mem_filter, decide_eq_true_iff, ← in_iff]
    exact ⟨fun h => ⟨h.2.2, h.1⟩, fun h => ⟨h.2, ⟨hu1, hu2⟩, h.1⟩⟩
  · rintro ⟨b, hb, hr⟩
    obtain ⟨adj, hadj⟩ : ∃ adj : Int → Int → Prop, ∀ u v, adj u v ↔ b u v = true := ⟨_, fun _ _ => Iff.rfl⟩
    refine ⟨adj, fun u v h => (hadj v u).2 (hb.symm _ _ ((hadj u v).1 h)), fun u h => (hb.inn _ _ ((hadj u u).1 h)).2.2 rfl, fun i hi => ?_⟩
    have h4 := hr i ⟨by omega, by omega⟩
    refine (congrArg (fun s : Finset Int => (s.card : Int)) (?_ : _ = nb degree.length b i)).trans ?_
    · ext v
      rw [Finset.mem_filter, hadj, hb.mem, ← in_iff]
      exact ⟨fun h => h.2, fun h => ⟨(hb.inn _ _ h).2.1, h⟩⟩
    · show (((nb degree.length b i).card : Nat) : Int) = _
      rw [h4]
      show (((degree.getD ((i : Int).toNat) 0).toNat : Nat) : Int) = _
      rw [Int.toNat_natCast, List.getD_eq_getElem _ _ hi]
      have := h0 _ (List.getElem_mem hi)
      omega

theorem sum_getD (degree : List Int) (h0 : ∀ d ∈ degree, 0 ≤ d) : (∑ i ∈ Finset.range degree.length, ((degree.getD i 0).toNat : Int)) = degree.sum := by
  induction degree with
  | nil => rfl
  | cons d degree ih =>
    rw [List.length_cons, Finset.sum_range_succ', List.sum_cons, ← ih (fun x hx => h0 x (List.mem_cons_of_mem _ hx))]
    have := h0 d List.mem_cons_self
    simp only [List.getD_cons_succ, List.getD_cons_zero]
    omega

theorem le_sum (degree : List Int) (h0 : ∀ d ∈ degree, 0 ≤ d) : 0 ≤ degree.sum ∧ ∀ d ∈ degree, d ≤ degree.sum := by
  induction degree with
  | nil => simp
  | cons x degree ih =>
    obtain ⟨h1, h2⟩ := ih (fun y hy => h0 y (List.mem_cons_of_mem _ hy))
    have h3 := h0 x List.mem_cons_self
    rw [List.sum_cons]
    refine ⟨by omega, fun d hd => ?_⟩
    rcases List.mem_cons.1 hd with rfl | hd
    · omega
    · have := h2 d hd
      omega

end ICPC.Gen
