import Verif.Lemmas.Simple5
import Mathlib.Tactic.IntervalCases
import Mathlib.Tactic.FinCases

/-!
# C67: `isSimple`
-/

namespace ICPC.Props
open ICPC ICPC.Spec ICPC.Sweep

theorem noSpikes_of_simple {pts : List Pt} (h : SimplePolygon pts) : NoSpikes pts := by
  obtain ⟨h3, hne, hc⟩ := h
  refine ⟨hne, fun i hi p h1 h2 => ?_⟩
  rcases Nat.lt_or_ge (i + 1) pts.length with hlt | hge
  · rcases hc i (i + 1) (by omega) hlt p h1 h2 with ⟨-, h4⟩ | ⟨h4, h5, -⟩
    · exact h4
    · omega
  · have hin : i = pts.length - 1 := by omega
    have e : (i + 1) % pts.length = 0 := by rw [show i + 1 = pts.length by omega, Nat.mod_self]
    rw [← onEdge_mod, e] at h2
    rcases hc 0 i (by omega) hi p h2 h1 with ⟨h4, -⟩ | ⟨-, -, h4⟩
    · omega
    · unfold IsVertex at *
      rw [← vertex_mod pts (i + 1), e]
      exact h4

theorem not_crossing_of_simple {pts : List Pt} (hs : ∀ p ∈ pts, Small p) (h : SimplePolygon pts) : ¬ Crossing pts := by
  obtain ⟨h3, hne, hc⟩ := h
  have key : ∀ i j, i < j → j < pts.length → ¬ Adj pts.length i j → ¬ Meet (segOf pts i) (segOf pts j) := by
    intro i j hij hj hna hm
    rw [meet_iff (segOf_proper hs (hne i (by omega))) (segOf_proper hs (hne j hj))] at hm
    obtain ⟨p, h1, h2⟩ := hm
    rw [← onEdge_iff] at h1 h2
    apply hna
    unfold Adj distN
    rw [if_neg (by omega)]
    rcases hc i j hij hj p h1 h2 with ⟨h4, -⟩ | ⟨h4, h5, -⟩
    · left; omega
    · right; omega
  rintro ⟨i, j, hi, hj, hij, hna, hm⟩
  rcases lt_or_gt_of_ne hij with h | h
  · exact key i j h hj hna hm
  · exact key j i h hi (fun hc => hna (adj_comm.1 hc)) hm.symm

theorem simple_of_not_crossing {pts : List Pt} (hp : Poly pts) (h : ¬ Crossing pts) : SimplePolygon pts := by
  have h3 := hp.three
  refine ⟨h3, hp.ne, fun i j hij hj p h1 h2 => ?_⟩
  by_cases hadj : Adj pts.length i j
  · unfold Adj distN at hadj
    rw [if_neg (by omega)] at hadj
    rcases hadj with hadj | hadj
    · have hji : j = i + 1 := by omega
      subst hji
      exact Or.inl ⟨rfl, hp.spike i (by omega) p h1 h2⟩
    · right
      refine ⟨by omega, by omega, ?_⟩
      have e : (j + 1) % pts.length = 0 := by rw [show j + 1 = pts.length by omega, Nat.mod_self]
      have hi0 : i = 0 := by omega
      subst hi0
      have := hp.spike j hj p h2 (by rw [← onEdge_mod, e]; exact h1)
      unfold IsVertex at *
      rw [← vertex_mod pts (j + 1), e] at this
      exact this
  · exfalso
    apply h
    refine ⟨i, j, by omega, hj, by omega, hadj, ?_⟩
    rw [meet_iff (hp.proper (by omega)) (hp.proper hj)]
    exact ⟨p, (onEdge_iff _ _ _).1 h1, (onEdge_iff _ _ _).1 h2⟩

theorem isSimple_eq {pts : List Pt} (hs : SmallCoordinates pts) (h3 : 3 ≤ pts.length) (shape : Nat → Nat → Nat → Nat) :
    isSimple shape pts = sweep shape pts 0 (evs pts) [] := by
  unfold isSimple
  rw [assertBounds_ok hs, ok_bind, if_neg (by omega), eventsLoop_ok _ (fun i hi => List.mem_range.1 hi), ok_bind]
  rfl

/-- **C67.**  Every simple polygon with coordinates of absolute value at most `2^30 - 1` is accepted, whatever the
shape of the search tree. -/
theorem C67_accepts_simple (shape : Nat → Nat → Nat → Nat) (pts : List Pt) (hs : SmallCoordinates pts)
    (h : SimplePolygon pts) : isSimple shape pts = .ok true := by
  have hns := noSpikes_of_simple h
  have hp : Poly pts := ⟨hs, h.1, hns.1, hns.2⟩
  rw [isSimple_eq hs h.1]
  rcases sweep_decides hp shape with ⟨-, h2⟩ | ⟨h1, -⟩
  · exact absurd h2 (not_crossing_of_simple hs h)
  · exact h1

/-- **C67.**  On polygons without spikes (no edge of length zero, no edge that folds back onto the edge before it),
`isSimple` decides exactly whether the polygon is simple, whatever the shape of the search tree.  Missing for the
full claim: polygons with spikes, see `C67_spike_refuted`. -/
theorem C67_decides_partial (shape : Nat → Nat → Nat → Nat) (pts : List Pt) (hs : SmallCoordinates pts)
    (hns : NoSpikes pts) : ∃ b, isSimple shape pts = .ok b ∧ (b = true ↔ SimplePolygon pts) := by
  by_cases h3 : 3 ≤ pts.length
  · have hp : Poly pts := ⟨hs, h3, hns.1, hns.2⟩
    rw [isSimple_eq hs h3]
    rcases sweep_decides hp shape with ⟨h1, h2⟩ | ⟨h1, h2⟩
    · exact ⟨false, h1, by simpa using fun h => not_crossing_of_simple hs h h2⟩
    · exact ⟨true, h1, by simpa using simple_of_not_crossing hp h2⟩
  · refine ⟨false, ?_, ?_⟩
    · unfold isSimple
      rw [assertBounds_ok hs, ok_bind, if_pos (by omega)]
      rfl
    · simp only [Bool.false_eq_true, false_iff]
      exact fun h => h3 h.1

/-- **C67.**  On coordinates of absolute value at most `2^30 - 1`, `isSimple` always returns: no overflow, no use of
an iterator that was not set.  On other coordinates (but the smallest `Integer`) it throws. -/
theorem C67_returns (shape : Nat → Nat → Nat → Nat) (pts : List Pt) :
    (SmallCoordinates pts → ∃ b, isSimple shape pts = .ok b) ∧
    ((∀ p ∈ pts, (I64 p.1 ∧ p.1 ≠ -9223372036854775808) ∧ I64 p.2 ∧ p.2 ≠ -9223372036854775808) →
      ¬ SmallCoordinates pts → isSimple shape pts = .error .throw) := by
  refine ⟨fun hs => ?_, fun h64 hs => ?_⟩
  · by_cases h3 : 3 ≤ pts.length
    · rw [isSimple_eq hs h3]
      exact sweep_returns hs shape (evs pts) [] 0 [] rfl ⟨by simp, by simp, by simp⟩
    · refine ⟨false, ?_⟩
      unfold isSimple
      rw [assertBounds_ok hs, ok_bind, if_pos (by omega)]
      rfl
  · unfold isSimple
    rw [assertBounds_bad h64 hs]
    rfl

/-- A dart: simple, not convex. -/
theorem dart_simple : SimplePolygon [(0, 0), (4, 0), (1, 1), (0, 4)] := by
  refine ⟨by simp, ?_, ?_⟩
  · intro i hi
    have : i < 4 := hi
    interval_cases i <;> simp [vertex]
  · intro i j hij hj p h1 h2
    have : j < 4 := hj
    obtain ⟨t, t0, t1, tx, ty⟩ := h1
    obtain ⟨u, u0, u1, ux, uy⟩ := h2
    interval_cases j <;> interval_cases i <;> simp [vertex] at tx ty ux uy <;>
      first
      | (exfalso; linarith)
      | (left; refine ⟨rfl, Prod.ext ?_ ?_⟩ <;> simp [vertex] <;> linarith)
      | (right; refine ⟨rfl, rfl, Prod.ext ?_ ?_⟩ <;> simp [vertex] <;> linarith)

/-- A bow tie: not simple, without spikes. -/
theorem bowTie_noSpikes : NoSpikes [(0, 0), (2, 2), (2, 0), (0, 2)] := by
  refine ⟨?_, ?_⟩
  · intro i hi
    have : i < 4 := hi
    interval_cases i <;> simp [vertex]
  · intro i hi p h1 h2
    have : i < 4 := hi
    obtain ⟨t, t0, t1, tx, ty⟩ := h1
    obtain ⟨u, u0, u1, ux, uy⟩ := h2
    interval_cases i <;> simp [vertex] at tx ty ux uy <;>
      (refine Prod.ext ?_ ?_ <;> simp [vertex] <;> linarith)

example : isSimple (fun _ _ hi => hi) [(0, 0), (4, 0), (1, 1), (0, 4)] = .ok true :=
  C67_accepts_simple _ _ (by intro p hp; fin_cases hp <;> decide) dart_simple

example : isSimple (fun _ _ hi => hi) [(0, 0), (2, 2), (2, 0), (0, 2)] = .ok false := by decide +kernel

example : ¬ SimplePolygon [(0, 0), (2, 2), (2, 0), (0, 2)] := by
  intro h
  obtain ⟨b, h1, h2⟩ := C67_decides_partial (fun _ _ hi => hi) _ (by intro p hp; fin_cases hp <;> decide) bowTie_noSpikes
  rw [h2.2 h] at h1
  exact absurd h1 (by decide +kernel)

/-! ### Runs on which the shape of the tree does not matter -/

/-- Exactly the elements of `A` from some position on are greater than `s`. -/
def monoAt (s : Seg) (A : List Seg) : Bool :=
  (List.range (A.length + 1)).any fun k =>
    (List.range A.length).all fun m => decide ((segAt A m >>= segLt s) = .ok (decide (k ≤ m)))

/-- That is so at every insertion of a run. -/
def monoRun (pts : List Pt) : List Ev → List Seg → Bool
  | [], _ => true
  | e :: es, A =>
    let e₁ := ofLex (ofLex (ofLex e).2).2
    let e₂ := ofLex e₁.2
    (e₁.1 || (decide (e₂.2 < pts.length) &&
      monoAt ⟨if e₂.1 then vertex pts (e₂.2 + 1) else vertex pts e₂.2,
        if e₂.1 then vertex pts e₂.2 else vertex pts (e₂.2 + 1), e₂.2⟩ A)) &&
    match sweepStep (fun _ _ _ => 0) pts 0 e A with
    | .ok (some A') => monoRun pts es A'
    | _ => true

theorem descend_mono {pick : Nat → Nat → Nat} {s : Seg} {A : List Seg} {k : Nat}
    (h : ∀ m < A.length, (segAt A m >>= segLt s) = .ok (decide (k ≤ m))) :
    ∀ f lo hi, lo ≤ k → k ≤ hi → hi ≤ A.length → hi - lo ≤ f → descend pick s A f lo hi = .ok k := by
  intro f
  induction f with
  | zero =>
    intro lo hi h1 h2 h3 h4
    unfold descend
    rw [show lo = k by omega]
  | succ f ih =>
    intro lo hi h1 h2 h3 h4
    unfold descend
    by_cases hlt : lo < hi
    · rw [if_pos hlt]
      dsimp only
      generalize hm : max lo (min (pick lo hi) (hi - 1)) = m
      have hm1 : lo ≤ m := by omega
      have hm2 : m < hi := by omega
      have := h m (by omega)
      rw [segAt_lt (by omega), ok_bind] at this
      rw [segAt_lt (by omega), ok_bind, this, ok_bind]
      by_cases hk : k ≤ m
      · rw [decide_eq_true hk]
        exact ih lo m h1 hk (by omega) (by omega)
      · rw [decide_eq_false hk]
        exact ih (m + 1) hi (by omega) h2 h3 (by omega)
    · rw [if_neg hlt, show lo = k by omega]

theorem sweep_indep {pts : List Pt} (shape : Nat → Nat → Nat → Nat) : ∀ (es : List Ev) (t u : Nat) (A : List Seg),
    monoRun pts es A = true → sweep shape pts t es A = sweep (fun _ _ _ => 0) pts u es A := by
  intro es
  induction es with
  | nil => intro t u A _; rfl
  | cons e es ih =>
    intro t u A h
    unfold monoRun at h
    dsimp only at h
    rw [Bool.and_eq_true] at h
    obtain ⟨h1, h2⟩ := h
    have hstep : sweepStep shape pts t e A = sweepStep (fun _ _ _ => 0) pts 0 e A := by
      unfold sweepStep
      dsimp only
      generalize (ofLex (ofLex (ofLex e).2).2).1 = b at *
      generalize ofLex (ofLex (ofLex (ofLex e).2).2).2 = c at *
      cases b with
      | true => rfl
      | false =>
        simp only [Bool.false_or, Bool.and_eq_true, decide_eq_true_eq] at h1
        obtain ⟨hc, hm⟩ := h1
        unfold monoAt at hm
        rw [List.any_eq_true] at hm
        obtain ⟨k, hk, hm⟩ := hm
        rw [List.all_eq_true] at hm
        have hk' : k ≤ A.length := by have := List.mem_range.1 hk; omega
        have hm' : ∀ m < A.length, (segAt A m >>= segLt _) = .ok (decide (k ≤ m)) :=
          fun m hml => of_decide_eq_true (hm m (List.mem_range.2 hml))
        simp only [Bool.false_eq_true, if_false]
        unfold sweepInsert
        rw [ptAt_vertex hc, ok_bind, ok_bind, ptAt_vertex (Nat.mod_lt _ (by omega)), ok_bind, ok_bind, vertex_mod]
        dsimp only
        rw [descend_mono hm' A.length 0 A.length (by omega) hk' le_rfl (by omega),
          descend_mono hm' A.length 0 A.length (by omega) hk' le_rfl (by omega)]
    rw [sweep_cons, sweep_cons, hstep]
    have hstep2 : sweepStep (fun _ _ _ => 0) pts u e A = sweepStep (fun _ _ _ => 0) pts 0 e A := rfl
    rw [hstep2]
    cases hs : sweepStep (fun _ _ _ => 0) pts 0 e A with
    | error x => rfl
    | ok r =>
      rw [hs] at h2
      cases r with
      | none => rfl
      | some A' =>
        dsimp only at h2
        exact ih (t + 1) (u + 1) A' h2

/-- **C67, refuted as documented.**  This polygon is not simple, its edges from `(1, 2)` to `(2, 2)` and from `(2, 2)`
to `(0, 2)` overlap, but `isSimple` accepts it, whatever the shape of the search tree. -/
theorem C67_spike_refuted :
    (∀ shape, isSimple shape [(0, 2), (2, 0), (1, 2), (2, 2)] = .ok true) ∧
    ¬ SimplePolygon [(0, 2), (2, 0), (1, 2), (2, 2)] := by
  constructor
  · intro shape
    have h0 : isSimple (fun _ _ _ => 0) [(0, 2), (2, 0), (1, 2), (2, 2)] = .ok true := by decide +kernel
    have hs : SmallCoordinates [(0, 2), (2, 0), (1, 2), (2, 2)] := by intro p hp; fin_cases hp <;> decide
    rw [isSimple_eq hs (by decide)] at h0 ⊢
    rw [sweep_indep shape _ 0 0 [] (by decide +kernel), h0]
  · rintro ⟨-, -, h⟩
    have := h 2 3 (by decide) (by decide) (1, 2) ⟨0, by norm_num, by norm_num, by simp [vertex], by simp [vertex]⟩
      ⟨1 / 2, by norm_num, by norm_num, by norm_num [vertex], by simp [vertex]⟩
    rcases this with ⟨-, h1⟩ | ⟨h1, -⟩
    · have := congrArg Prod.fst h1
      simp [vertex] at this
    · exact absurd h1 (by decide)

end ICPC.Props
