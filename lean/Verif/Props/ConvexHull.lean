import Verif.Lemmas.ConvexHull
import Verif.Props.Geo

/-!
# C101: `convexHull` of archive/convex.cpp
-/

namespace ICPC.Props

open Spec Archive

theorem hull_form {pts : List Pt} (hs : SmallCoordinates pts) (h2 : ∃ a ∈ pts, ∃ b ∈ pts, a ≠ b) :
    ∃ p0 M A u0, convexHull pts = .ok (A ++ M :: (u0 ++ [p0])) ∧ Good 1 (unique (sortPts pts)).reverse (M :: A.reverse) ∧
      Good (-1) (unique (sortPts pts)) (p0 :: u0.reverse ++ [M]) ∧ A.head? = some p0 ∧
      scan (unique (sortPts pts)).tail [p0] = M :: A.reverse ∧ scan (unique (sortPts pts)).reverse.tail [M] = p0 :: u0.reverse ++ [M] ∧
      (unique (sortPts pts)).head? = some p0 ∧ (unique (sortPts pts)).getLast? = some M ∧ Prec 1 p0 M := by
  have hC : ∀ a b c : Pt, SmallPt a → SmallPt b → SmallPt c → crossP a b c = .ok (turn a b c) := fun a b c ha hb hc => crossP_ok ha hb hc
  have hsm : ∀ x ∈ unique (sortPts pts), SmallPt x := fun x hx => hs x (points_mem.1 hx)
  have hsort := points_sorted pts
  have hmem : ∀ x, x ∈ unique (sortPts pts) ↔ x ∈ pts := fun x => points_mem
  have hdef : convexHull pts = (do
    let h ← chain 1 (unique (sortPts pts)) []
    let h ← chain h.length ((unique (sortPts pts)).reverse.drop 1) h
    .ok h.reverse) := rfl
  rw [hdef]
  generalize unique (sortPts pts) = P at *
  obtain ⟨a, ha, b, hb, hab⟩ := h2
  rw [← hmem] at ha hb
  match P with
  | [] => cases ha
  | [x] => exact absurd ((List.mem_singleton.1 ha).trans (List.mem_singleton.1 hb).symm) hab
  | p0 :: p1 :: rest =>
    have hlt : Prec 1 p0 p1 := (List.pairwise_cons.1 hsort).1 p1 (by simp)
    -- the lower chain
    obtain ⟨l, hl1, hl2⟩ := chain_eq hC (m := p0) (base := []) (hsm p0 (by simp)) (todo := p1 :: rest) (u := [])
      (fun x hx => hsm x (List.mem_cons_of_mem _ hx)) (by simp)
    have hg1 := scan_chain (Or.inl rfl) hsort
    have e1 : (p1 :: rest).reverse ++ [p0] = (p0 :: p1 :: rest).reverse := (List.reverse_cons ..).symm
    rw [e1] at hg1
    have hh1 := (scan_head (p1 :: rest) [p0]).1
    rw [e1] at hh1
    simp only [List.nil_append, List.length_nil, Nat.zero_add] at hl1 hl2
    -- the largest point
    obtain ⟨M, rev, hrev⟩ : ∃ M rev, (p0 :: p1 :: rest).reverse = M :: rev := by
      cases h : (p0 :: p1 :: rest).reverse with
      | nil => simp at h
      | cons M rev => exact ⟨M, rev, rfl⟩
    have hP : p0 :: p1 :: rest = rev.reverse ++ [M] := by
      have := congrArg List.reverse hrev
      rwa [List.reverse_reverse, List.reverse_cons] at this
    rw [hrev, hl2] at hh1
    have hlast : (l ++ [p0]).getLast? = some p0 := by simp
    obtain ⟨base, hb1⟩ : ∃ base, l ++ [p0] = M :: base := by
      cases hc : l ++ [p0] with
      | nil => simp at hc
      | cons x base =>
        rw [hc] at hh1
        simp only [List.head?_cons, Option.some.injEq] at hh1
        exact ⟨base, by rw [hh1]⟩
    rw [hl2] at hg1
    have hp0M : Prec 1 p0 M := by
      have := hg1.top M (by rw [hb1]; rfl) p0 (by simp)
      rcases this with rfl | h
      · have := hg1.top p0 (by rw [hb1]; rfl) p1 (by simp)
        rcases this with rfl | h
        · exact absurd hlt (prec_irrefl _ _)
        · exact absurd (prec_trans (Or.inl rfl) hlt h) (prec_irrefl _ _)
      · exact h
    have hbase : base.getLast? = some p0 := by
      rw [hb1] at hlast
      cases base with
      | nil =>
        simp only [List.getLast?_singleton, Option.some.injEq] at hlast
        rw [hlast] at hp0M
        exact absurd hp0M (prec_irrefl _ _)
      | cons y base => rwa [List.getLast?_cons_cons] at hlast
    -- the upper chain
    have hsort2 : (M :: rev).Pairwise (Prec (-1)) := by
      rw [← hrev, List.pairwise_reverse]
      exact hsort.imp fun h => prec_flip.2 h
    have hMm : SmallPt M := hsm M (by rw [hP]; simp)
    obtain ⟨u, hu1, hu2⟩ := chain_eq hC (m := M) (base := base) hMm (todo := rev) (u := [])
      (fun x hx => hsm x (by rw [hP]; simp [hx])) (by simp)
    have hg2 := scan_chain (Or.inr rfl) hsort2
    have hh2 := (scan_head rev [M]).1
    rw [← hP] at hg2 hh2
    simp only [List.nil_append] at hu1 hu2
    rw [hu2] at hg2 hh2
    obtain ⟨u0, hu0⟩ : ∃ u0, u = p0 :: u0 := by
      cases u with
      | nil =>
        simp only [List.nil_append, List.head?_cons, Option.some.injEq] at hh2
        rw [hh2] at hp0M
        exact absurd hp0M (prec_irrefl _ _)
      | cons x u0 =>
        simp only [List.cons_append, List.head?_cons, Option.some.injEq] at hh2
        exact ⟨u0, by rw [hh2]⟩
    refine ⟨p0, M, base.reverse, u0.reverse, ?_, ?_, ?_, ?_, ?_, ?_, rfl, ?_, hp0M⟩
    · rw [chain, popLoop, ok_bind, hl1, ok_bind, hb1, List.length_cons, hrev, List.drop_one, List.tail_cons, hu1, ok_bind, hu0]
      · simp
      · simp
    · rw [List.reverse_reverse, ← hb1]; exact hg1
    · rw [List.reverse_reverse, ← hu0]; exact hg2
    · rw [List.head?_reverse]; exact hbase
    · rw [List.reverse_reverse, List.tail_cons, hl2, hb1]
    · rw [hrev, List.tail_cons, hu2, hu0, List.reverse_reverse]
    · rw [hP]; simp

/-- The edges of the path. -/
theorem hull_edges {pts : List Pt} {p0 M : Pt} {A u0 : List Pt} (h1 : Good 1 (unique (sortPts pts)).reverse (M :: A.reverse))
    (h2 : Good (-1) (unique (sortPts pts)) (p0 :: u0.reverse ++ [M])) :
    (A ++ M :: (u0 ++ [p0])).IsChain fun a b => a ≠ b ∧ ∀ q ∈ pts, 0 ≤ turn a b q := by
  have key : ∀ (s : Int) (S h : List Pt), Good s S h → (∀ q ∈ pts, q ∈ S) → h.reverse.IsChain fun a b => a ≠ b ∧ ∀ q ∈ pts, 0 ≤ turn a b q := by
    intro s S h hg hS
    rw [List.isChain_reverse]
    have hc := hg.edges
    have hp := hg.sorted.isChain
    rw [List.isChain_iff_getElem] at *
    intro i hi
    refine ⟨fun e => ?_, fun q hq => (hc i hi q (hS q hq)).1⟩
    have := hp i hi
    rw [e] at this
    exact prec_irrefl _ _ this
  have k1 := key 1 _ _ h1 fun q hq => List.mem_reverse.2 (points_mem.2 hq)
  have k2 := key (-1) _ _ h2 fun q hq => points_mem.2 hq
  have e1 : (M :: A.reverse).reverse = A ++ [M] := by simp
  have e2 : (p0 :: u0.reverse ++ [M]).reverse = [M] ++ (u0 ++ [p0]) := by simp
  rw [e1] at k1
  rw [e2] at k2
  have := k1.append_overlap k2 (by simp)
  rwa [List.append_assoc] at this

/-- **C101.** Of at least two different points `convexHull` returns a closed path that has all points on its left. -/
theorem C101_surrounds (pts : List Pt) (hs : SmallCoordinates pts) (h2 : ∃ a ∈ pts, ∃ b ∈ pts, a ≠ b) :
    ∃ h, convexHull pts = .ok h ∧ Surrounds h pts := by
  obtain ⟨p0, M, A, u0, hr, hg1, hg2, hA, -⟩ := hull_form hs h2
  refine ⟨_, hr, ?_, ?_, ?_⟩
  · intro x hx
    rw [← points_mem (pts := pts)]
    rcases List.mem_append.1 hx with hx | hx
    · exact List.mem_reverse.1 (hg1.sub x (by simp [hx]))
    · exact hg2.sub x (by simp at hx ⊢; tauto)
  · rw [List.head?_append, hA, show A ++ M :: (u0 ++ [p0]) = (A ++ M :: u0) ++ [p0] by simp, List.getLast?_concat]
    rfl
  · have := hull_edges hg1 hg2
    rw [List.isChain_iff_getElem] at this
    exact fun i hi => this i hi

/-- **C101.** It contains exactly the points on the boundary. -/
theorem C101_boundary (pts : List Pt) (hs : SmallCoordinates pts) (h2 : ∃ a ∈ pts, ∃ b ∈ pts, a ≠ b) :
    ∃ h, convexHull pts = .ok h ∧ ∀ p, p ∈ h ↔ p ∈ pts ∧ OnBoundary pts p := by
  obtain ⟨h', hr', hsur⟩ := C101_surrounds pts hs h2
  obtain ⟨p0, M, A, u0, hr, hg1, hg2, hA, -⟩ := hull_form hs h2
  refine ⟨_, hr', fun p => ⟨fun hp => ⟨hsur.1 p hp, ?_⟩, fun ⟨hp, d, hd, hb⟩ => ?_⟩⟩
  · -- the edge that starts at `p`
    have hst : ∃ i, ∃ hi : i + 1 < h'.length, h'[i] = p := by
      obtain ⟨i, hi, e⟩ := List.getElem_of_mem hp
      by_cases hl : i + 1 < h'.length
      · exact ⟨i, hl, e⟩
      · have hlen : 2 ≤ h'.length := by
          rw [hr] at hr'
          cases hr'
          cases A with
          | nil => cases hA
          | cons x A => simp; omega
        refine ⟨0, by omega, ?_⟩
        have := hsur.2.1
        rw [List.head?_eq_getElem?, List.getLast?_eq_getElem?, List.getElem?_eq_getElem (by omega), List.getElem?_eq_getElem (by omega),
          Option.some.injEq] at this
        rw [this, ← e]
        congr 1
        omega
    obtain ⟨i, hi, e⟩ := hst
    have := hsur.2.2 i hi
    rw [e] at this
    refine ⟨(h'[i + 1].1 - p.1, h'[i + 1].2 - p.2), fun e0 => this.1 ?_, fun q hq => this.2 q hq⟩
    rw [Prod.mk.injEq] at e0
    exact Prod.ext (by omega) (by omega)
  · rw [hr] at hr'
    cases hr'
    have hdir : Fwd 1 d.1 d.2 ∨ Fwd (-1) d.1 d.2 := by
      unfold Fwd
      by_contra hn
      apply hd
      exact Prod.ext (by simp; omega) (by simp; omega)
    rcases hdir with hdir | hdir
    · have := good_boundary (Or.inl rfl) hg1 (by simp) (List.mem_reverse.2 (points_mem.2 hp)) hdir fun q hq => hb q (points_mem.1 (List.mem_reverse.1 hq))
      simp at this ⊢
      tauto
    · have := good_boundary (Or.inr rfl) hg2 (by simp) (points_mem.2 hp) hdir fun q hq => hb q (points_mem.1 hq)
      simp at this ⊢
      tauto

/-- **C101.** If the points are not on one line, the path is a convex polygon in counter-clockwise order, followed by its first vertex once more.
It starts at the point with the smallest `y` among those with the smallest `x`, no vertex is repeated. -/
theorem C101_polygon (pts : List Pt) (hs : SmallCoordinates pts) (hnc : ¬Collinear pts) :
    ∃ v p0, convexHull pts = .ok (v ++ [p0]) ∧ ConvexPolygon v ∧ v.Nodup ∧ v.head? = some p0 ∧
      (∀ p ∈ pts, p0.1 < p.1 ∨ (p0.1 = p.1 ∧ p0.2 ≤ p.2)) ∧ ∀ p, p ∈ v ↔ p ∈ pts ∧ OnBoundary pts p := by
  have h2 : ∃ a ∈ pts, ∃ b ∈ pts, a ≠ b := by
    by_contra hn
    push Not at hn
    exact hnc fun a ha b hb c hc => by rw [hn a ha b hb, turn_self'']
  obtain ⟨h', hr', hbd⟩ := C101_boundary pts hs h2
  obtain ⟨p0, M, A, u0, hr, hg1, hg2, hA, -, -, -, -, hp0M⟩ := hull_form hs h2
  rw [hr] at hr'
  cases hr'
  have hedge := hull_edges hg1 hg2
  rw [List.isChain_iff_getElem] at hedge
  have hsub : ∀ x ∈ A ++ M :: (u0 ++ [p0]), x ∈ pts := fun x hx => ((hbd x).1 hx).1
  have hlow : (A ++ [M]).Pairwise (Prec 1) := by
    have := hg1.sorted
    rw [← List.pairwise_reverse] at this
    simpa using this
  have hup : (M :: (u0 ++ [p0])).Pairwise (Prec (-1)) := by
    have := hg2.sorted
    rw [← List.pairwise_reverse] at this
    simpa using this
  -- positions
  have i1 : ∀ i j (hj : j < (A ++ M :: (u0 ++ [p0])).length) (hij : i < j), j ≤ A.length →
      Prec 1 ((A ++ M :: (u0 ++ [p0]))[i]'(by omega)) (A ++ M :: (u0 ++ [p0]))[j] := by
    intro i j hj hij hjm
    have e : ∀ k (hk : k < (A ++ M :: (u0 ++ [p0])).length) (hkm : k ≤ A.length), (A ++ M :: (u0 ++ [p0]))[k] = (A ++ [M])[k]'(by simp; omega) := by
      intro k hk hkm
      rw [List.getElem_append, List.getElem_append]
      split
      · rfl
      · have : k - A.length = 0 := by omega
        simp [this]
    rw [e i (by omega) (by omega), e j hj hjm]
    exact List.pairwise_iff_getElem.1 hlow i j _ _ hij
  have i2 : ∀ i j (hj : j < (A ++ M :: (u0 ++ [p0])).length) (hij : i < j), A.length ≤ i →
      Prec (-1) ((A ++ M :: (u0 ++ [p0]))[i]'(by omega)) (A ++ M :: (u0 ++ [p0]))[j] := by
    intro i j hj hij him
    rw [List.getElem_append_right him, List.getElem_append_right (by omega)]
    exact List.pairwise_iff_getElem.1 hup _ _ _ _ (by omega)
  have hbot : ∀ p ∈ pts, p = p0 ∨ Prec 1 p0 p := fun p hp => by
    rcases hg2.top p0 (by simp) p (points_mem.2 hp) with h | h
    · exact Or.inl h
    · exact Or.inr (prec_flip.1 h)
  -- the vertices
  obtain ⟨A', hA'⟩ : ∃ A', A = p0 :: A' := by
    cases A with
    | nil => cases hA
    | cons x A' =>
      simp only [List.head?_cons, Option.some.injEq] at hA
      exact ⟨A', by rw [hA]⟩
  have hlenh : (A ++ M :: (u0 ++ [p0])).length = (A ++ M :: u0).length + 1 := by simp; omega
  have hget : ∀ i (hi : i < (A ++ M :: u0).length), (A ++ M :: u0)[i] = (A ++ M :: (u0 ++ [p0]))[i]'(by omega) := by
    intro i hi
    have e : A ++ M :: (u0 ++ [p0]) = (A ++ M :: u0) ++ [p0] := by simp
    simp only [e]
    rw [List.getElem_append_left hi]
  have hnd : (A ++ M :: u0).Nodup := by
    rw [List.nodup_append]
    have hAn : A.Nodup := (List.pairwise_append.1 hlow).1.imp fun h e => by subst e; exact prec_irrefl _ _ h
    have hBn : (M :: u0).Nodup := by
      have e : M :: (u0 ++ [p0]) = (M :: u0) ++ [p0] := by simp
      rw [e] at hup
      exact (List.pairwise_append.1 hup).1.imp fun h e => by subst e; exact prec_irrefl _ _ h
    refine ⟨hAn, hBn, ?_⟩
    rintro x hx y hy rfl
    apply hnc
    -- edges forward and backward at `x`
    obtain ⟨i, hi, e⟩ := List.getElem_of_mem hx
    obtain ⟨j, hj, e'⟩ := List.getElem_of_mem hy
    have f1 : (A ++ M :: (u0 ++ [p0]))[i]'(by simp; omega) = x := by rw [List.getElem_append_left hi, e]
    have f2 : (A ++ M :: (u0 ++ [p0]))[A.length + j]'(by simp at hj ⊢; omega) = x := by
      rw [List.getElem_append_right (by omega), ← e']
      have e3 : M :: (u0 ++ [p0]) = (M :: u0) ++ [p0] := by simp
      simp only [e3, Nat.add_sub_cancel_left]
      rw [List.getElem_append_left hj]
    have hi' : i + 1 < (A ++ M :: (u0 ++ [p0])).length := by simp; omega
    have hj' : A.length + j + 1 < (A ++ M :: (u0 ++ [p0])).length := by simp at hj ⊢; omega
    have g1 := i1 i (i + 1) hi' (by omega) (by omega)
    have g2 := i2 (A.length + j) (A.length + j + 1) hj' (by omega) (by omega)
    have k1 := (hedge i hi').2
    have k2 := (hedge (A.length + j) hj').2
    rw [f1] at g1 k1
    rw [f2] at g2 k2
    have b1 := hsub _ (List.getElem_mem hi')
    have b2 := hsub _ (List.getElem_mem hj')
    generalize (A ++ M :: (u0 ++ [p0]))[i + 1] = b at *
    generalize (A ++ M :: (u0 ++ [p0]))[A.length + j + 1] = b' at *
    refine collinear_of_edges (x := x) (d := (b.1 - x.1, b.2 - x.2)) (e := (b'.1 - x.1, b'.2 - x.2)) (prec_fwd g1) (prec_fwd g2) ?_
      (fun q hq => k1 q hq) fun q hq => k2 q hq
    have a1 := k1 b' b2
    have a2 := k2 b b1
    unfold turn at a1 a2
    dsimp only
    have : (b.1 - x.1) * (b'.2 - x.2) - (b.2 - x.2) * (b'.1 - x.1) = -((b'.1 - x.1) * (b.2 - x.2) - (b'.2 - x.2) * (b.1 - x.1)) := by ring
    omega
  have htri : ∃ a ∈ A ++ M :: u0, ∃ b ∈ A ++ M :: u0, ∃ c ∈ A ++ M :: u0, turn a b c ≠ 0 := by
    by_contra hn
    push Not at hn
    apply hnc
    have hmem0 : p0 ∈ A ++ M :: u0 := by rw [hA']; simp
    have hmemM : M ∈ A ++ M :: u0 := by simp
    have hmem : ∀ x ∈ A ++ M :: (u0 ++ [p0]), x ∈ A ++ M :: u0 := by
      intro x hx
      simp only [List.mem_append, List.mem_cons, List.not_mem_nil, or_false] at hx
      rcases hx with h | h | h | rfl
      · simp [h]
      · simp [h]
      · simp [h]
      · exact hmem0
    have hl0 : 0 + 1 < (A ++ M :: (u0 ++ [p0])).length := by rw [List.length_append, List.length_cons, List.length_append, List.length_singleton]; omega
    have hlM : A.length + 1 < (A ++ M :: (u0 ++ [p0])).length := by rw [List.length_append, List.length_cons, List.length_append, List.length_singleton]; omega
    have f0 : (A ++ M :: (u0 ++ [p0]))[0]'(by omega) = p0 := by simp [hA']
    have fM : (A ++ M :: (u0 ++ [p0]))[A.length]'(by omega) = M := by simp
    have g1 := i1 0 1 (by omega) (by omega) (by rw [hA']; simp)
    have g2 := i2 A.length (A.length + 1) hlM (by omega) (by omega)
    have k1 := (hedge 0 hl0).2
    have k2 := (hedge A.length hlM).2
    rw [f0] at g1 k1
    rw [fM] at g2 k2
    have z1 := hn p0 hmem0 _ (hmem _ (List.getElem_mem hl0)) M hmemM
    have z2 := hn M hmemM _ (hmem _ (List.getElem_mem hlM)) p0 hmem0
    simp only [Nat.zero_add] at g1 k1 z1
    generalize (A ++ M :: (u0 ++ [p0]))[1] = b at *
    generalize (A ++ M :: (u0 ++ [p0]))[A.length + 1] = b' at *
    refine collinear_of_edges (x := p0) (d := (M.1 - p0.1, M.2 - p0.2)) (e := (p0.1 - M.1, p0.2 - M.2)) (prec_fwd hp0M) (prec_fwd (prec_flip.2 hp0M)) (by dsimp only; ring) ?_ ?_
    · intro q hq
      rcases hbot q hq with rfl | h
      · dsimp only; rw [sub_self, sub_self]; simp
      · have := k1 q hq
        unfold turn at this z1
        exact (cross_trans (Or.inl rfl) (prec_fwd hp0M) (prec_fwd g1) (prec_fwd h) (by
          have : (M.1 - p0.1) * (b.2 - p0.2) - (M.2 - p0.2) * (b.1 - p0.1) = -((b.1 - p0.1) * (M.2 - p0.2) - (b.2 - p0.2) * (M.1 - p0.1)) := by ring
          omega) this).1
    · intro q hq
      have htop := hg1.top M (by simp) q (List.mem_reverse.2 (points_mem.2 hq))
      dsimp only
      have e : (p0.1 - M.1) * (q.2 - p0.2) - (p0.2 - M.2) * (q.1 - p0.1) = (p0.1 - M.1) * (q.2 - M.2) - (p0.2 - M.2) * (q.1 - M.1) := by ring
      rw [e]
      rcases htop with rfl | h
      · rw [sub_self, sub_self]; simp
      · have := k2 q hq
        unfold turn at this z2
        exact (cross_trans (Or.inr rfl) (prec_fwd (prec_flip.2 hp0M)) (prec_fwd g2) (prec_fwd (prec_flip.2 h)) (by
          have : (p0.1 - M.1) * (b'.2 - M.2) - (p0.2 - M.2) * (b'.1 - M.1) = -((b'.1 - M.1) * (p0.2 - M.2) - (b'.2 - M.2) * (p0.1 - M.1)) := by ring
          omega) this).1
  refine ⟨A ++ M :: u0, p0, by rw [hr]; simp, ⟨?_, ?_, ?_, ?_⟩, hnd, by rw [hA']; rfl, ?_, ?_⟩
  · obtain ⟨a, ha, b, hb, c, hc, ht⟩ := htri
    by_contra hlen
    clear hget hlenh hnd
    generalize A ++ M :: u0 = v at ha hb hc hlen
    match v with
    | [] => cases ha
    | [x] =>
      rw [List.mem_singleton] at ha hb hc
      rw [ha, hb, hc, turn_self] at ht
      exact ht rfl
    | [x, y] =>
      simp only [List.mem_cons, List.not_mem_nil, or_false] at ha hb hc
      rcases ha with rfl | rfl <;> rcases hb with rfl | rfl <;> rcases hc with rfl | rfl <;>
        exact ht (by unfold turn; ring)
    | x :: y :: z :: v => simp at hlen
  · intro i j k hi hj hk hij hjk
    rw [hget i hi, hget j hj, hget k hk]
    exact path_convex i1 i2 (fun i hi q hq => (hedge i hi).2 q (hsub q hq)) i j k hij hjk (by omega)
  · intro i hi e
    have hlen : 2 ≤ (A ++ M :: u0).length := by rw [hA', List.length_append, List.length_cons, List.length_cons]; omega
    have := (List.Nodup.getElem_inj_iff hnd).1 e
    by_cases hl : i + 1 < (A ++ M :: u0).length
    · rw [Nat.mod_eq_of_lt hl] at this
      omega
    · have : i + 1 = (A ++ M :: u0).length := by omega
      simp only [this, Nat.mod_self] at *
      omega
  · obtain ⟨a, ha, b, hb, c, hc, ht⟩ := htri
    obtain ⟨i, hi, rfl⟩ := List.getElem_of_mem ha
    obtain ⟨j, hj, rfl⟩ := List.getElem_of_mem hb
    obtain ⟨k, hk, rfl⟩ := List.getElem_of_mem hc
    exact ⟨i, j, k, hi, hj, hk, ht⟩
  · intro p hp
    rcases hbot p hp with rfl | h
    · right; exact ⟨rfl, le_refl _⟩
    · unfold Prec at h
      omega
  · intro p
    rw [← hbd p, hA']
    simp only [List.cons_append, List.mem_cons, List.mem_append, List.not_mem_nil, or_false]
    tauto

/-- **C101.** If at least two different points are given and all are on one line, the path goes through all of them twice, except for the last one. -/
theorem C101_collinear (pts : List Pt) (hs : SmallCoordinates pts) (h2 : ∃ a ∈ pts, ∃ b ∈ pts, a ≠ b) (hc : Collinear pts) :
    ∃ p : List Pt, (∀ x, x ∈ p ↔ x ∈ pts) ∧ p.Pairwise (fun a b => a.1 < b.1 ∨ (a.1 = b.1 ∧ a.2 < b.2)) ∧
      convexHull pts = .ok (p ++ p.reverse.tail) := by
  obtain ⟨p0, M, A, u0, hr, -, -, -, hs1, hs2, hh, hl, -⟩ := hull_form hs h2
  refine ⟨unique (sortPts pts), fun x => points_mem, (points_sorted pts).imp fun {a b} h => by unfold Prec at h; omega, ?_⟩
  have hmem : ∀ x, x ∈ unique (sortPts pts) ↔ x ∈ pts := fun x => points_mem
  generalize unique (sortPts pts) = P at *
  cases P with
  | nil => cases hh
  | cons x P =>
    simp only [List.head?_cons, Option.some.injEq] at hh
    subst hh
    have hrev : ∃ R, (x :: P).reverse = M :: R := by
      rw [← List.head?_reverse] at hl
      cases h : (x :: P).reverse with
      | nil => rw [h] at hl; cases hl
      | cons y R =>
        rw [h] at hl
        simp only [List.head?_cons, Option.some.injEq] at hl
        exact ⟨R, by rw [hl]⟩
    obtain ⟨R, hR⟩ := hrev
    rw [List.tail_cons, scan_straight (fun a ha b hb c hc' => hc a ((hmem a).1 (by simpa [or_comm] using ha)) b ((hmem b).1 (by simpa [or_comm] using hb)) c
      ((hmem c).1 (by simpa [or_comm] using hc'))), ← List.reverse_cons] at hs1
    have hmem' : ∀ y, y ∈ R ++ [M] → y ∈ x :: P := by
      intro y hy
      have : y ∈ (x :: P).reverse := by rw [hR]; simpa [or_comm] using hy
      exact List.mem_reverse.1 this
    rw [hR, List.tail_cons, scan_straight (fun a ha b hb c hc' => hc a ((hmem a).1 (hmem' a ha)) b ((hmem b).1 (hmem' b hb)) c ((hmem c).1 (hmem' c hc'))),
      List.append_left_inj] at hs2
    rw [hr, hR, List.tail_cons]
    have e1 : A ++ [M] = x :: P := by
      have := congrArg List.reverse hs1
      simpa using this.symm
    have e2 : R = u0 ++ [x] := by
      have := congrArg List.reverse hs2
      simpa using this
    rw [e2, ← e1]
    simp

/-- **C101.** One point, however often it is given, is returned once. -/
theorem C101_single (p : Pt) (k : Nat) : convexHull (List.replicate (k + 1) p) = .ok [p] ∧ convexHull [] = .ok [] := by
  refine ⟨?_, rfl⟩
  have h1 : sortPts (List.replicate (k + 1) p) = List.replicate (k + 1) p := by
    have := List.perm_insertionSort (fun a b : Pt => ptLess b a = false) (List.replicate (k + 1) p)
    exact List.perm_replicate.1 this
  have h2 : ∀ k, unique (List.replicate (k + 1) p) = [p] := by
    intro k
    induction k with
    | zero => rfl
    | succ k ih => rw [List.replicate_succ, List.replicate_succ, unique, if_pos rfl, ← List.replicate_succ, ih]
  unfold convexHull
  rw [h1, h2]
  rfl

/-- A square with the middle of a side and an inner point: the middle of the side is kept. -/
example : convexHull [(4, 4), (2, 0), (0, 4), (1, 1), (0, 0), (4, 0)] = .ok [(0, 0), (2, 0), (4, 0), (4, 4), (0, 4), (0, 0)] := by decide +kernel

/-- Points on a line. -/
example : convexHull [(2, 2), (0, 0), (1, 1)] = .ok [(0, 0), (1, 1), (2, 2), (1, 1), (0, 0)] := by decide +kernel

end ICPC.Props
