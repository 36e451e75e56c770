import Verif.Lemmas.GraphGenErase

/-!
# C48: the graph container
-/

namespace ICPC.Props

open ICPC ICPC.Gen Spec.EdgeMap

variable {E : Type}

/-- **C48, calls.** Every sequence of calls, valid or not, on a graph that represents `a.m` returns (or throws) exactly what the abstract map
says, and afterwards the graph represents the map after these calls. -/
theorem C48_calls (dir : Bool) (n : Nat) : ∀ (ops : List (Op E)) (g : Graph E) (a : Abs E), Good g dir a.lo n a.m → (∀ o ∈ ops, o.Fits n) →
    (calls g ops).1 = (a.run dir n ops).1 ∧ Good (calls g ops).2 dir (a.run dir n ops).2.lo n (a.run dir n ops).2.m
  | [], _, _, h, _ => ⟨rfl, h⟩
  | o :: ops, g, a, h, hf => by
    suffices hs : (call g o).1 = (a.step dir n o).1 ∧ Good (call g o).2 dir (a.step dir n o).2.lo n (a.step dir n o).2.m by
      obtain ⟨h1, h2⟩ := C48_calls dir n ops _ _ hs.2 fun o ho => hf o (by simp [ho])
      exact ⟨by unfold calls Abs.run; simp only; rw [hs.1, h1], h2⟩
    cases o with
    | addEdge u v d =>
      unfold call Abs.step
      by_cases hv : In a.lo n u ∧ In a.lo n v ∧ u ≠ v
      · obtain ⟨g', h1, h2, -⟩ := h.addEdge d hv.1 hv.2.1 hv.2.2
        simp only
        rw [if_pos hv, h1]
        exact ⟨rfl, h2⟩
      · simp only
        rw [if_neg hv, h.addEdge_throw d hv]
        exact ⟨rfl, h⟩
    | eraseEdge u v =>
      unfold call Abs.step
      by_cases hv : In a.lo n u ∧ In a.lo n v
      · obtain ⟨g', h1, h2, -⟩ := h.eraseEdge hv.1 hv.2
        simp only
        rw [if_pos hv, h1]
        exact ⟨rfl, h2⟩
      · simp only
        rw [if_neg hv, h.eraseEdge_throw hv]
        exact ⟨rfl, h⟩
    | setMinId k =>
      obtain ⟨hk, hk'⟩ := hf _ (by simp : Op.setMinId k ∈ Op.setMinId k :: ops)
      obtain ⟨g', h1, h2, -⟩ := h.setMinId k hk hk'
      unfold call Abs.step
      simp only
      rw [h1]
      exact ⟨rfl, h2⟩
    | normalize =>
      obtain ⟨g', h1, h2, -⟩ := h.setMinId 0 (by decide) (by simpa using h.simple.n64)
      unfold call Abs.step Graph.normalize
      simp only
      rw [h1]
      exact ⟨rfl, h2⟩
    | copy =>
      obtain ⟨g', h1, h2, -⟩ := h.copy
      unfold call Abs.step
      simp only
      rw [h1]
      exact ⟨rfl, h2⟩

/-- **C48.** Starting from an empty graph, after every sequence of calls all replies and all observations agree with the abstract map;
invalid calls throw and change nothing. -/
theorem C48_container (dir : Bool) (l r : Int) (hl : I64 l) (hr : I64 r) (hle : l ≤ r) (hlen : I64 (r - l)) (ops : List (Op E))
    (hf : ∀ o ∈ ops, o.Fits (r - l).toNat) :
    ∃ g, Graph.new dir l r = .ok g ∧ (calls g ops).1 = (Abs.run dir (r - l).toNat ⟨l, fun _ _ => none⟩ ops).1 ∧
      Agrees (calls g ops).2 dir (Abs.run dir (r - l).toNat ⟨l, fun _ _ => none⟩ ops).2.lo (r - l).toNat
        (Abs.run dir (r - l).toNat ⟨l, fun _ _ => none⟩ ops).2.m := by
  obtain ⟨g, h1, h2, -⟩ := new_good (E := E) dir hl hr hle hlen
  obtain ⟨h3, h4⟩ := C48_calls dir (r - l).toNat ops g ⟨l, fun _ _ => none⟩ h2 hf
  exact ⟨g, h1, h3, h4.agrees⟩

/-- **C48, constructor.** A negative number of vertices makes the constructor throw. -/
theorem C48_new_throws (dir : Bool) (l r : Int) (hlt : r < l) (hlen : I64 (r - l)) : (Graph.new dir l r : Out (Graph E)) = .error .throw := by
  unfold Graph.new
  rw [chk_ok hlen, ok_bind, decide_eq_false (by omega)]
  rfl

/-- **C48, keys.** The exclusive or of the ends is a valid key, as the comment in the code demands. -/
theorem C48_key (a b c : Int) (hb : I64 b) (hc : I64 c) : xorI a b = xorI b a ∧ (xorI a b = xorI a c ↔ b = c) :=
  ⟨xorI_comm a b, fun h => xorI_inj hb hc h, fun h => h ▸ rfl⟩

/-- Erasing moves the last edge. Undirected, with negative vertex numbers. -/
example : (do
    let g ← (Graph.new false (-2) 3 : Out (Graph Nat))
    let g ← g.add (-2) 1 10
    let g ← g.add 2 (-2) 11
    let g ← g.add 1 2 12
    let g ← g.add 1 (-2) 13
    let g ← g.erase 1 (-2)
    let l ← g.neighbours 2
    let b ← g.hasEdge (-2) 1
    pure (g.getEdges, l, b)) = .ok ([⟨1, 2, 12⟩, ⟨2, -2, 11⟩], [⟨2, -2, 11⟩, ⟨2, 1, 12⟩], false) := by decide +kernel

/-- Directed: both directions are different edges. -/
example : (do
    let g ← (Graph.new true 0 3 : Out (Graph Nat))
    let g ← g.add 0 1 10
    let g ← g.add 1 0 11
    let g ← g.add 1 2 12
    let g ← g.erase 0 1
    let g ← g.setMinId 5
    let l ← g.neighbours 6
    let b ← g.hasEdge 5 6
    pure (g.getEdges, l, b)) = .ok ([⟨6, 7, 12⟩, ⟨6, 5, 11⟩], [⟨6, 7, 12⟩, ⟨6, 5, 11⟩], false) := by decide +kernel

example : (calls ⟨false, [[], []], ([] : List (Rec Nat)), 0⟩ [.addEdge 0 2 1, .addEdge 1 1 1, .eraseEdge 0 1, .addEdge 1 0 7, .eraseEdge 0 1]).1 =
    [.error .throw, .error .throw, .ok (.bool false), .ok (.edge ⟨1, 0, 7⟩), .ok (.bool true)] := by decide +kernel

end ICPC.Props
