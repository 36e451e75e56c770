import Verif.Model.GraphExample
import Verif.Spec.GraphExample
import Verif.Props.Agreement
import Verif.Props.GraphOps

/-!
# C91: the example of the graph generator
-/

namespace ICPC.Props

open ICPC ICPC.Spec ICPC.Spec.EdgeMap ICPC.GraphExample

section
variable {E : Type}

/-- The stored edges are different. -/
theorem pairsOf_nodup {g : Gen.Graph E} {dir : Bool} {lo : Int} {n : Nat} {m : Map E} (h : Gen.Good g dir lo n m) : (pairsOf g).Nodup := by
  rw [List.nodup_iff_injective_get]
  intro i j hij
  have hi : i.1 < g.edges.length := by have := i.2; simpa [pairsOf, Gen.Graph.getEdges] using this
  have hj : j.1 < g.edges.length := by have := j.2; simpa [pairsOf, Gen.Graph.getEdges] using this
  have hij' : (g.edges[i.1].src, g.edges[i.1].dst) = (g.edges[j.1].src, g.edges[j.1].dst) := by
    have e : ∀ k : Fin (pairsOf g).length, ∀ hk : k.1 < g.edges.length, (pairsOf g).get k = (g.edges[k.1].src, g.edges[k.1].dst) := by
      intro k hk
      rw [List.get_eq_getElem]
      simp [pairsOf, Gen.Graph.getEdges]
    rw [← e i hi, ← e j hj, hij]
  rw [Prod.mk.injEq] at hij'
  exact Fin.ext (h.simple.uniq i.1 j.1 _ _ (List.getElem?_eq_getElem hi) (List.getElem?_eq_getElem hj) (.inl ⟨hij'.1.symm, hij'.2.symm⟩))

/-- The map and the stored edges. -/
theorem isSome_iff_pairs {g : Gen.Graph E} {dir : Bool} {lo : Int} {n : Nat} {m : Map E} (h : Gen.Good g dir lo n m) (u v : Int) :
    (m u v).isSome = true ↔ (u, v) ∈ pairsOf g ∨ (dir = false ∧ (v, u) ∈ pairsOf g) := by
  rw [Option.isSome_iff_exists]
  simp only [h.map, pairsOf, Gen.Graph.getEdges, List.map_map, List.mem_map, Function.comp, Prod.mk.injEq, Same]
  constructor
  · rintro ⟨d, r, hr, -, h1 | h1⟩
    · exact .inl ⟨r, hr, h1.1, h1.2⟩
    · exact .inr ⟨h1.1, r, hr, h1.2.1, h1.2.2⟩
  · rintro (⟨r, hr, h1, h2⟩ | ⟨h0, r, hr, h1, h2⟩)
    · exact ⟨_, r, hr, rfl, .inl ⟨h1, h2⟩⟩
    · exact ⟨_, r, hr, rfl, .inr ⟨h0, h1, h2⟩⟩

/-- The entry of a list at an integer position. -/
private def at' (p : List Int) (a : Int) : Int := p.getD a.toNat 0

private theorem at'_eq {p : List Int} {k : Nat} (h : k < p.length) : at' p (k : Int) = p[k] := by
  unfold at'
  rw [Int.toNat_natCast, List.getD_eq_getElem?_getD, List.getElem?_eq_getElem h]
  rfl

private theorem numbering_perm {p : List Int} {n : Nat} {lo : Int} (hl : p.length = n) (hp : IsPermutationFrom lo p) : Numbering n lo (at' p) := by
  obtain ⟨hnd, hr⟩ := isPermutationFrom_iff.1 hp
  constructor
  · intro a h0 h1
    lift a to Nat using h0
    rw [at'_eq (by omega)]
    have := hr _ (List.getElem_mem (l := p) (n := a) (by omega))
    omega
  · intro a b h0 h1 h2 h3 hab
    lift a to Nat using h0
    lift b to Nat using h2
    rw [at'_eq (by omega), at'_eq (by omega)] at hab
    rw [hnd.getElem_inj_iff.1 hab]

/-- A numbering reaches every number. -/
private theorem numbering_onto {n : Nat} {lo : Int} {σ : Int → Int} (h : Numbering n lo σ) {x : Int} (h1 : lo ≤ x) (h2 : x < lo + n) :
    ∃ a : Int, 0 ≤ a ∧ a < n ∧ σ a = x := by
  have hinj : Function.Injective (fun a : Fin n => (⟨(σ a.1 - lo).toNat, by have := h.1 a.1 (by omega) (by omega); omega⟩ : Fin n)) := by
    intro a b hab
    have ha := h.1 a.1 (by omega) (by omega)
    have hb := h.1 b.1 (by omega) (by omega)
    have := congrArg Fin.val hab
    simp only at this
    exact Fin.ext (by have := h.2 a.1 b.1 (by omega) (by omega) (by omega) (by omega) (by omega); omega)
  obtain ⟨a, ha⟩ := (Finite.injective_iff_surjective.1 hinj) ⟨(x - lo).toNat, by omega⟩
  have := congrArg Fin.val ha
  have hb := h.1 a.1 (by omega) (by omega)
  simp only at this
  exact ⟨a.1, by omega, by omega, by omega⟩

/-- Two numberings and the maps determine the stored edges up to their order. -/
private theorem pairs_of_maps {g d : Gen.Graph E} {n : Nat} {lo : Int} {m m' : Map E} {ρ σ : Int → Int} (h : Gen.Good g false 0 n m)
    (hd : Gen.Good d true lo n m') (hρ : Numbering n 0 ρ) (hσ : Numbering n lo σ)
    (hm : ∀ a b, In 0 n a → In 0 n b → ((m' (σ a) (σ b)).isSome = true ↔ ρ a < ρ b ∧ (m a b).isSome = true)) :
    (pairsOf d).Perm ((pairsOf g).map (directedEdge ρ σ)) := by
  have hin : ∀ a b, (a, b) ∈ pairsOf g → In 0 n a ∧ In 0 n b ∧ a ≠ b := by
    intro a b hab
    simp only [pairsOf, Gen.Graph.getEdges, List.map_map, List.mem_map, Function.comp, Prod.mk.injEq] at hab
    obtain ⟨r, hr, rfl, rfl⟩ := hab
    exact ⟨h.simple.src r hr, h.simple.dst r hr, h.simple.ne r hr⟩
  have hrev : ∀ a b, (a, b) ∈ pairsOf g → (b, a) ∉ pairsOf g := by
    intro a b hab hba
    simp only [pairsOf, Gen.Graph.getEdges, List.map_map, List.mem_map, Function.comp, Prod.mk.injEq] at hab hba
    obtain ⟨r, hr, e1, e2⟩ := hab
    obtain ⟨s, hs, e3, e4⟩ := hba
    obtain ⟨i, hi, hi'⟩ := List.getElem_of_mem hr
    obtain ⟨j, hj, hj'⟩ := List.getElem_of_mem hs
    have e := h.simple.uniq i j r s (by rw [List.getElem?_eq_getElem hi, hi']) (by rw [List.getElem?_eq_getElem hj, hj'])
      (.inr ⟨rfl, by rw [e3, e2], by rw [e4, e1]⟩)
    subst e
    have := h.simple.ne r hr
    rw [← hi', hj'] at this e1 e2
    omega
  have hinj : ∀ a b, In 0 n a → In 0 n b → σ a = σ b → a = b := fun a b ha hb e =>
    hσ.2 a b ha.1 (by have := ha.2; omega) hb.1 (by have := hb.2; omega) e
  have hinj' : ∀ a b, In 0 n a → In 0 n b → ρ a = ρ b → a = b := fun a b ha hb e =>
    hρ.2 a b ha.1 (by have := ha.2; omega) hb.1 (by have := hb.2; omega) e
  rw [List.perm_ext_iff_of_nodup (pairsOf_nodup hd)]
  · rintro ⟨x, y⟩
    have h1 := isSome_iff_pairs hd x y
    simp only [Bool.true_eq_false, false_and, or_false] at h1
    rw [← h1, List.mem_map]
    constructor
    · intro hs
      have hin' : In lo n x ∧ In lo n y := by
        obtain ⟨e, he⟩ := Option.isSome_iff_exists.1 hs
        obtain ⟨r, hr, -, hsame⟩ := (hd.map x y e).1 he
        rcases hsame with ⟨e1, e2⟩ | ⟨h0, -⟩
        · rw [← e1, ← e2]
          exact ⟨hd.simple.src r hr, hd.simple.dst r hr⟩
        · exact absurd h0 (by decide)
      obtain ⟨a, a0, a1, rfl⟩ := numbering_onto hσ hin'.1.1 hin'.1.2
      obtain ⟨b, b0, b1, rfl⟩ := numbering_onto hσ hin'.2.1 hin'.2.2
      obtain ⟨hlt, hs'⟩ := (hm a b ⟨a0, by omega⟩ ⟨b0, by omega⟩).1 hs
      rcases (isSome_iff_pairs h a b).1 hs' with hab | ⟨-, hab⟩
      · exact ⟨(a, b), hab, by simp only [directedEdge]; rw [if_pos hlt]⟩
      · exact ⟨(b, a), hab, by simp only [directedEdge]; rw [if_neg (by omega)]⟩
    · rintro ⟨⟨a, b⟩, hab, he⟩
      obtain ⟨ha, hb, hne⟩ := hin a b hab
      simp only [directedEdge] at he
      by_cases hlt : ρ a < ρ b
      · rw [if_pos hlt, Prod.mk.injEq] at he
        rw [← he.1, ← he.2]
        exact (hm a b ha hb).2 ⟨hlt, (isSome_iff_pairs h a b).2 (.inl hab)⟩
      · rw [if_neg hlt, Prod.mk.injEq] at he
        rw [← he.1, ← he.2]
        have : ρ a ≠ ρ b := fun e => hne (hinj' a b ha hb e)
        exact (hm b a hb ha).2 ⟨by omega, (isSome_iff_pairs h b a).2 (.inr ⟨rfl, hab⟩)⟩
  · refine (pairsOf_nodup h).map_on ?_
    rintro ⟨a, b⟩ hab ⟨c, e⟩ hce heq
    obtain ⟨ha, hb, -⟩ := hin a b hab
    obtain ⟨hc, he, -⟩ := hin c e hce
    simp only [directedEdge] at heq
    split at heq <;> split at heq <;> rw [Prod.mk.injEq] at heq
    · rw [hinj a c ha hc heq.1, hinj b e hb he heq.2]
    · have e1 := hinj a e ha he heq.1
      have e2 := hinj b c hb hc heq.2
      subst e1 e2
      exact absurd hce (hrev _ _ hab)
    · have e1 := hinj b c hb hc heq.1
      have e2 := hinj a e ha he heq.2
      subst e1 e2
      exact absurd hce (hrev _ _ hab)
    · rw [hinj b e hb he heq.1, hinj a c ha hc heq.2]

/-- **C91.** For every undirected graph: the random directed graph has the edges of the graph with renamed vertices, all directed
along one numbering of the vertices, and its vertices are numbered from 1. -/
theorem C91_recipe {g : Gen.Graph Unit} {n : Nat} {m : Map Unit} (h : Gen.Good g false 0 n m) (hn : I64 (1 + n : Int))
    (hlen : g.edges.length < 2 ^ 63) : SatOk (randomDag g) fun d => ∃ ρ σ, Numbering n 0 ρ ∧ Numbering n 1 σ ∧
      (∃ m', Agrees d true 1 n m') ∧ (pairsOf d).Perm ((pairsOf g).map (directedEdge ρ σ)) := by
  unfold randomDag
  refine SatOk.bind (h.permutateRandom hlen) ?_
  rintro g1 ⟨m1, p1, hl1, hp1, hg1, hm1⟩
  obtain ⟨g2, e2, hg2⟩ := hg1.directedBy fun u v _ => decide (u < v)
  obtain ⟨g3, e3, hg3, -⟩ := hg2.setMinId 1 (by decide) hn
  rw [e2, Rand.lift_ok]
  show SatOk (Rand.lift (g2.setMinId 1) >>= fun dag => dag.permutateRandom) _
  rw [e3, Rand.lift_ok]
  show SatOk g3.permutateRandom _
  have hρ := numbering_perm hl1 hp1
  have hkeep : ∀ a b, In 0 n a → In 0 n b →
      ((keep (fun u v _ => decide (u < v)) m1 (at' p1 a) (at' p1 b)).isSome = true ↔ at' p1 a < at' p1 b ∧ (m a b).isSome = true) := by
    rintro a b ⟨a0, a1⟩ ⟨b0, b1⟩
    lift a to Nat using a0
    lift b to Nat using b0
    rw [at'_eq (by omega), at'_eq (by omega)]
    unfold keep
    rw [hm1 a b (by omega) (by omega), zero_add, zero_add]
    cases m a b with
    | none => simp
    | some d => by_cases hlt : p1[a]'(by omega) < p1[b]'(by omega) <;> simp [hlt]
  have hshift : ∀ x y, shift (keep (fun u v _ => decide (u < v)) m1) (1 - 0) (1 + x) (1 + y) = keep (fun u v _ => decide (u < v)) m1 x y := by
    intro x y
    unfold shift
    rw [show 1 + x - (1 - 0) = x by omega, show 1 + y - (1 - 0) = y by omega]
  have hσ1 : Numbering n 1 fun a => 1 + at' p1 a := by
    refine ⟨fun a a0 a1 => ?_, fun a b a0 a1 b0 b1 e => hρ.2 a b a0 a1 b0 b1 (by dsimp only at e; omega)⟩
    have := hρ.1 a a0 a1
    dsimp only
    omega
  have hperm3 := pairs_of_maps h hg3 hρ hσ1 fun a b ha hb => by rw [hshift]; exact hkeep a b ha hb
  have hlen3 : g3.edges.length = g.edges.length := by
    have := hperm3.length_eq
    simpa [pairsOf, Gen.Graph.getEdges] using this
  refine SatOk.mono (hg3.permutateRandom (by rw [hlen3]; exact hlen)) ?_
  rintro d ⟨m4, p2, hl2, hp2, hd, hm4⟩
  have hp2' := numbering_perm hl2 hp2
  have hin : ∀ a, In 0 n a → In 0 n (at' p1 a) := fun a ha => by
    have := hρ.1 a ha.1 (by have := ha.2; omega)
    exact ⟨this.1, this.2⟩
  have hσ : Numbering n 1 fun a => at' p2 (at' p1 a) := by
    refine ⟨fun a a0 a1 => ?_, fun a b a0 a1 b0 b1 e => ?_⟩
    · have := hρ.1 a a0 a1
      exact hp2'.1 _ (by omega) (by omega)
    · have ha := hρ.1 a a0 a1
      have hb := hρ.1 b b0 b1
      exact hρ.2 a b a0 a1 b0 b1 (hp2'.2 _ _ (by omega) (by omega) (by omega) (by omega) e)
  refine ⟨at' p1, _, hρ, hσ, ⟨m4, hd.agrees⟩, pairs_of_maps h hd hρ hσ fun a b ha hb => ?_⟩
  rw [← hkeep a b ha hb]
  have h1 := hin a ha
  have h2 := hin b hb
  rw [← hshift]
  generalize at' p1 a = x at h1 ⊢
  generalize at' p1 b = y at h2 ⊢
  obtain ⟨x0, x1⟩ := h1
  obtain ⟨y0, y1⟩ := h2
  lift x to Nat using x0
  lift y to Nat using y0
  rw [at'_eq (by omega), at'_eq (by omega), hm4 x y (by omega) (by omega)]

/-- The graph before the random choices. -/
theorem base_good : ∃ g, base = .ok g ∧ (∃ m, Gen.Good g false 0 19 m) ∧ (pairsOf g).Perm twoCubes := by
  have hgood : ∃ g, base = .ok g ∧ ∃ m, Gen.Good g false 0 19 m := by
    obtain ⟨a, ea, ha⟩ := Gen.hypercube_good (E := Unit) 3 (by decide)
    obtain ⟨c, ec, hc⟩ := Gen.cycle_good (E := Unit) (n := 3) (by decide) (by decide)
    have ea' : (Gen.hypercube 3 : Out (Gen.Graph Unit)) = .ok a := ea
    have ec' : (Gen.cycle 3 : Out (Gen.Graph Unit)) = .ok c := ec
    obtain ⟨g1, e1, h1⟩ := ha.append ha (by decide) (by decide) (by decide)
    obtain ⟨g2, e2, h2⟩ := h1.append hc (by decide) (by decide) (by decide)
    obtain ⟨g3, e3, h3, -⟩ := h2.copy
    obtain ⟨g4, e4, h4, -⟩ := h3.add (u := 16) (v := 0) default (by decide) (by decide) (by decide)
    obtain ⟨g5, e5, h5, -⟩ := h4.add (u := 17) (v := 1) default (by decide) (by decide) (by decide)
    obtain ⟨g6, e6, h6, -⟩ := h5.add (u := 18) (v := 2) default (by decide) (by decide) (by decide)
    obtain ⟨g7, e7, h7, -⟩ := h6.add (u := 16) (v := 8) default (by decide) (by decide) (by decide)
    obtain ⟨g8, e8, h8, -⟩ := h7.add (u := 17) (v := 9) default (by decide) (by decide) (by decide)
    obtain ⟨g9, e9, h9, -⟩ := h8.add (u := 18) (v := 10) default (by decide) (by decide) (by decide)
    refine ⟨g9, ?_, _, h9⟩
    unfold base
    rw [ea', ok_bind, ok_bind, ec', ok_bind, e1, ok_bind, e2, ok_bind, e3, ok_bind, e4, ok_bind, e5, ok_bind, e6, ok_bind, e7, ok_bind,
      e8, ok_bind, e9]
  obtain ⟨g, hb, hg⟩ := hgood
  refine ⟨g, hb, hg, ?_⟩
  have hp : base.map pairsOf = .ok [(0, 4), (1, 5), (2, 6), (3, 7), (0, 2), (4, 6), (1, 3), (5, 7), (0, 1), (4, 5), (2, 3), (6, 7), (8, 12),
      (9, 13), (10, 14), (11, 15), (8, 10), (12, 14), (9, 11), (13, 15), (8, 9), (12, 13), (10, 11), (14, 15), (16, 17), (17, 18),
      (18, 16), (16, 0), (17, 1), (18, 2), (16, 8), (17, 9), (18, 10)] := by decide +kernel
  rw [hb] at hp
  rw [show pairsOf g = _ from Except.ok.inj hp]
  decide +kernel

/-- Edges that are directed along a numbering make no cycle. -/
private theorem acyclic_of_rank {E : List (Int × Int)} (r : Int → Int) (h : ∀ e ∈ E, r e.1 < r e.2) : Acyclic E := by
  have key : ∀ a w b, Walk E a w b → r a ≤ r b ∧ (w ≠ [] → r a < r b) := by
    intro a w b hw
    induction hw with
    | nil a => exact ⟨le_rfl, fun h => absurd rfl h⟩
    | cons hi hw ih =>
      have := h _ (List.mem_of_getElem? hi)
      simp only at this
      exact ⟨by omega, fun _ => by omega⟩
  intro a w hw
  by_contra hne
  exact absurd ((key a w a hw).2 hne) (lt_irrefl _)

/-- **C91.** Whatever the random generator does, the program writes the vertices and edges of a directed graph without cycles: the two cubes
and the triangle with the vertices renamed to 1, ..., 19 and all 33 edges directed along one numbering of the vertices. -/
theorem C91_output : SatOk main fun s => ∃ ρ σ E, Numbering 19 0 ρ ∧ Numbering 19 1 σ ∧ E.Perm (twoCubes.map (directedEdge ρ σ)) ∧
    s = graphText 19 E := by
  unfold main
  obtain ⟨g, hb, ⟨m, hg⟩, hp⟩ := base_good
  rw [hb, Rand.lift_ok]
  show SatOk (randomDag g >>= fun dag => pure (GraphIO.writeGraph none dag ++ ['\n'])) _
  have hl : g.edges.length = 33 := by
    have := hp.length_eq
    rw [show twoCubes.length = 33 from rfl] at this
    simpa [pairsOf, Gen.Graph.getEdges] using this
  refine SatOk.bind (C91_recipe hg (by decide) (by omega)) ?_
  rintro d ⟨ρ, σ, h1, h2, ⟨m', h3⟩, h4⟩
  refine satOk_done ⟨ρ, σ, pairsOf d, h1, h2, h4.trans (hp.map _), ?_⟩
  rw [C78_text, h3.nodeCount]
  rfl

/-- **C91.** What such a text describes: 33 different edges between different vertices in 1, ..., 19, no directed cycle, and any two
vertices are joined by a path. -/
theorem C91_graph {ρ σ : Int → Int} {E : List (Int × Int)} (hρ : Numbering 19 0 ρ) (hσ : Numbering 19 1 σ)
    (hE : E.Perm (twoCubes.map (directedEdge ρ σ))) :
    E.length = 33 ∧ E.Nodup ∧ (∀ e ∈ E, (1 ≤ e.1 ∧ e.1 < 20) ∧ (1 ≤ e.2 ∧ e.2 < 20) ∧ e.1 ≠ e.2) ∧ Acyclic E ∧ Connected 1 20 E := by
  have hdiff : ∀ e ∈ twoCubes, (0 ≤ e.1 ∧ e.1 < 19) ∧ (0 ≤ e.2 ∧ e.2 < 19) ∧ e.1 ≠ e.2 := by decide +kernel
  have hinj : ∀ a b : Int, (0 ≤ a ∧ a < 19) → (0 ≤ b ∧ b < 19) → σ a = σ b → a = b := fun a b ha hb => hσ.2 a b ha.1 (by omega) hb.1 (by omega)
  have hrange : ∀ a : Int, (0 ≤ a ∧ a < 19) → 1 ≤ σ a ∧ σ a < 20 := fun a ha => by have := hσ.1 a ha.1 (by omega); omega
  -- the position of a vertex in the numbering
  classical
  let r : Int → Int := fun x => if h : ∃ a : Int, (0 ≤ a ∧ a < 19) ∧ σ a = x then ρ h.choose else 0
  have hr : ∀ a : Int, (0 ≤ a ∧ a < 19) → r (σ a) = ρ a := by
    intro a ha
    have h : ∃ b : Int, (0 ≤ b ∧ b < 19) ∧ σ b = σ a := ⟨a, ha, rfl⟩
    show (if h : ∃ b : Int, (0 ≤ b ∧ b < 19) ∧ σ b = σ a then ρ h.choose else 0) = ρ a
    rw [dif_pos h, hinj _ _ h.choose_spec.1 ha h.choose_spec.2]
  refine ⟨by rw [hE.length_eq, List.length_map]; rfl, ?_, ?_, acyclic_of_rank r ?_, ?_⟩
  · rw [hE.nodup_iff]
    refine List.Nodup.map_on ?_ (by decide +kernel)
    have hrev : ∀ e ∈ twoCubes, (e.2, e.1) ∉ twoCubes := by decide +kernel
    rintro ⟨a, b⟩ hab ⟨c, d⟩ hcd heq
    obtain ⟨ha, hb, -⟩ := hdiff _ hab
    obtain ⟨hc, hd, -⟩ := hdiff _ hcd
    simp only [directedEdge] at heq
    split at heq <;> split at heq <;> rw [Prod.mk.injEq] at heq
    · rw [hinj a c ha hc heq.1, hinj b d hb hd heq.2]
    · have e1 := hinj a d ha hd heq.1
      have e2 := hinj b c hb hc heq.2
      subst e1 e2
      exact absurd hcd (hrev _ hab)
    · have e1 := hinj b c hb hc heq.1
      have e2 := hinj a d ha hd heq.2
      subst e1 e2
      exact absurd hcd (hrev _ hab)
    · rw [hinj b d hb hd heq.1, hinj a c ha hc heq.2]
  · intro e he
    obtain ⟨⟨a, b⟩, hab, rfl⟩ := List.mem_map.1 (hE.subset he)
    obtain ⟨ha, hb, hne⟩ := hdiff _ hab
    simp only at ha hb hne
    unfold directedEdge
    split
    · exact ⟨hrange a ha, hrange b hb, fun e => hne (hinj a b ha hb e)⟩
    · exact ⟨hrange b hb, hrange a ha, fun e => hne (hinj a b ha hb e.symm)⟩
  · intro e he
    obtain ⟨⟨a, b⟩, hab, rfl⟩ := List.mem_map.1 (hE.subset he)
    obtain ⟨ha, hb, hne⟩ := hdiff _ hab
    simp only at ha hb hne
    have hne' : ρ a ≠ ρ b := fun e => hne (hρ.2 a b ha.1 (by omega) hb.1 (by omega) e)
    unfold directedEdge
    simp only
    split
    · simp only; rw [hr a ha, hr b hb]; assumption
    · simp only; rw [hr a ha, hr b hb]; omega
  · have hj : ∀ e ∈ twoCubes, Joined E (σ e.1) (σ e.2) := by
      intro e he
      have hm : directedEdge ρ σ e ∈ E := hE.symm.subset (List.mem_map_of_mem he)
      unfold directedEdge at hm
      split at hm
      · exact .rel _ _ hm
      · exact .symm _ _ (.rel _ _ hm)
    have hup : ∀ l : List (Int × Int), (∀ e ∈ l, e ∈ twoCubes ∨ (e.2, e.1) ∈ twoCubes) → ∀ e ∈ l, Joined E (σ e.1) (σ e.2) := by
      intro l hl e he
      rcases hl e he with h | h
      · exact hj _ h
      · exact .symm _ _ (hj _ h)
    have hparent := hup [(1, 0), (2, 0), (3, 1), (4, 0), (5, 1), (6, 2), (7, 3), (16, 0), (17, 1), (18, 2), (8, 16), (9, 8), (10, 8), (11, 9),
      (12, 8), (13, 9), (14, 10), (15, 11)] (by decide +kernel)
    have hroot : ∀ a : Int, (0 ≤ a ∧ a < 19) → Joined E (σ a) (σ 0) := by
      have p : ∀ a b, (a, b) ∈ [((1 : Int), (0 : Int)), (2, 0), (3, 1), (4, 0), (5, 1), (6, 2), (7, 3), (16, 0), (17, 1), (18, 2), (8, 16), (9, 8), (10, 8),
        (11, 9), (12, 8), (13, 9), (14, 10), (15, 11)] → Joined E (σ b) (σ 0) → Joined E (σ a) (σ 0) := fun a b h hb => .trans _ _ _ (hparent _ h) hb
      have h0 : Joined E (σ 0) (σ 0) := .refl _
      have h1 := p 1 0 (by decide) h0
      have h2 := p 2 0 (by decide) h0
      have h3 := p 3 1 (by decide) h1
      have h4 := p 4 0 (by decide) h0
      have h5 := p 5 1 (by decide) h1
      have h6 := p 6 2 (by decide) h2
      have h7 := p 7 3 (by decide) h3
      have h16 := p 16 0 (by decide) h0
      have h17 := p 17 1 (by decide) h1
      have h18 := p 18 2 (by decide) h2
      have h8 := p 8 16 (by decide) h16
      have h9 := p 9 8 (by decide) h8
      have h10 := p 10 8 (by decide) h8
      have h11 := p 11 9 (by decide) h9
      have h12 := p 12 8 (by decide) h8
      have h13 := p 13 9 (by decide) h9
      have h14 := p 14 10 (by decide) h10
      have h15 := p 15 11 (by decide) h11
      rintro a ⟨ha0, ha1⟩
      interval_cases a <;> assumption
    intro x y hx0 hx1 hy0 hy1
    obtain ⟨a, a0, a1, rfl⟩ := numbering_onto hσ hx0 (by omega)
    obtain ⟨b, b0, b1, rfl⟩ := numbering_onto hσ hy0 (by omega)
    exact .trans _ _ _ (hroot a ⟨a0, by omega⟩) (.symm _ _ (hroot b ⟨b0, by omega⟩))

/-- **C91.** Because of C46, a validator that asks `isDAG` refuses every one of these files. -/
theorem C91_isDAG {ρ σ : Int → Int} {E : List (Int × Int)} (hρ : Numbering 19 0 ρ) (hσ : Numbering 19 1 σ)
    (hE : E.Perm (twoCubes.map (directedEdge ρ σ))) {v : ICPC.DiGraph} (hv : ICPC.DiGraph.Reached 1 20 E v) : v.isDAG = .ok none := by
  obtain ⟨o, ho, hiff⟩ := C46_actual hv
  have hlen := (C91_graph hρ hσ hE).1
  rw [ho]
  cases o with
  | none => rfl
  | some o =>
    rw [hiff.1 rfl] at hlen
    exact absurd hlen (by decide)

/-- A path of three vertices: one of its four acyclic directions, with the vertices renamed. -/
example : ([(1, 3), (1, 2)] : List (Int × Int)).Perm ([(0, 1), (1, 2)].map (directedEdge (fun a => (a + 2) % 3) fun a => (a + 2) % 3 + 1)) := by
  decide +kernel

example : Numbering 19 1 fun a => 19 - a := ⟨fun a h1 h2 => by dsimp only; omega, fun a b _ _ _ _ h => by dsimp only at h; omega⟩

/-- One output: nothing is renamed. -/
example : Acyclic (twoCubes.map (directedEdge id fun a => a + 1)) :=
  (C91_graph ⟨fun a h1 h2 => ⟨h1, by show a < 0 + ((19 : Nat) : Int); omega⟩, fun a b _ _ _ _ h => h⟩
    ⟨fun a h1 h2 => ⟨by omega, by omega⟩, fun a b _ _ _ _ h => by omega⟩ (List.Perm.refl _)).2.2.2.1

end

end ICPC.Props
