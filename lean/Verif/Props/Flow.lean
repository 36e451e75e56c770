import Verif.Model.Flow
import Verif.Spec.Flow
import Verif.Lemmas.Families
import Verif.Lemmas.FordFulkerson

/-!
# C76: worst cases for flow algorithms
-/

namespace ICPC.Props

open ICPC ICPC.Gen Spec.EdgeMap Spec.Flow

/-- The network described for Ford and Fulkerson with `k` layers around the middle edge: layer `l` has capacity `2^l` and surrounds the vertices
`n-1-l, ..., n+l`. -/
def FfEdge (n k u v c : Int) : Prop :=
  (u = n - 1 ∧ v = n ∧ c = 1) ∨ ∃ l : Int, 0 ≤ l ∧ l < k ∧ c = 2 ^ l.toNat ∧
    ((u = n - 2 - l ∧ (v = n - 1 - l ∨ v = n + l)) ∨ (v = n + 1 + l ∧ (u = n - 1 - l ∨ u = n + l)))

/-- What `findEdge` says about the capacity. -/
def capOf (g : Graph Int) (u v : Int) : Int :=
  match g.findEdge u v with
  | .ok (some e) => e.data
  | _ => 0

theorem ffEdge_zero {n u v c : Int} : FfEdge n 0 u v c ↔ (u = n - 1 ∧ v = n ∧ c = 1) := by
  unfold FfEdge
  constructor
  · rintro (h | ⟨l, h1, h2, -⟩)
    · exact h
    · omega
  · exact Or.inl

theorem ffEdge_succ {n k u v c : Int} (hk : 0 ≤ k) : FfEdge n (k + 1) u v c ↔ FfEdge n k u v c ∨ (c = 2 ^ k.toNat ∧
    ((u = n - 2 - k ∧ (v = n - 1 - k ∨ v = n + k)) ∨ (v = n + 1 + k ∧ (u = n - 1 - k ∨ u = n + k)))) := by
  unfold FfEdge
  constructor
  · rintro (h | ⟨l, h1, h2, h3⟩)
    · exact Or.inl (Or.inl h)
    · rcases (show l < k ∨ l = k by omega) with h | rfl
      · exact Or.inl (Or.inr ⟨l, h1, h, h3⟩)
      · exact Or.inr h3
  · rintro ((h | ⟨l, h1, h2, h3⟩) | h)
    · exact Or.inl h
    · exact Or.inr ⟨l, h1, by omega, h3⟩
    · exact Or.inr ⟨k, hk, by omega, h⟩

theorem ffEdge_range {n k u v c : Int} (h : FfEdge n k u v c) (hk : 0 ≤ k) : n - 1 - k ≤ u ∧ u < v ∧ v ≤ n + k := by
  rcases h with h | ⟨l, h1, h2, -, h3⟩ <;> omega

/-- One more edge. -/
theorem add_new {E : Type} {g : Graph E} {lo : Int} {n : Nat} {m : Map E} (h : Good g true lo n m) {u v : Int} (d : E) (hu : In lo n u) (hv : In lo n v)
    (hne : u ≠ v) (hm : m u v = none) : ∃ g', g.add u v d = .ok g' ∧
      Good g' true lo n (fun x y => if x = u ∧ y = v then some d else m x y) ∧ g'.edges.length = g.edges.length + 1 ∧
      g'.getEdges = g.getEdges ++ [⟨u, v, d⟩] := by
  obtain ⟨g', h1, h2, h3⟩ := h.add d hu hv hne
  refine ⟨g', h1, ?_, by rw [h3, hm]; rfl, ?_⟩
  · convert h2 using 1
    funext x y
    simp [put, Same]
  · have hu64 := in_i64 hu h.simple.lo64 h.simple.hi64
    have e : g'.edges = (g.emplaceEdge u v d).edges := by
      unfold Graph.add Graph.addEdge at h1
      rw [h.assertNode_ok hu, h.assertNode_ok hv, decide_eq_true hne, judgeAssert_true] at h1
      simp only [ok_bind] at h1
      obtain ⟨s, k1, -, -, k4⟩ := h.adjAt hu
      rw [k1] at h1
      simp only at h1
      cases hf : setFind g.edges s (xorI u v) with
      | none =>
        rw [hf] at h1
        simp only at h1
        have hdir : (g.emplaceEdge u v d).dir = true := h.isDir
        have hl : (g.emplaceEdge u v d).edges.length - 1 = g.edges.length := by simp [Graph.emplaceEdge]
        have hr : (g.emplaceEdge u v d).edges[g.edges.length]? = some ⟨xorI u v, v, d⟩ := by simp [Graph.emplaceEdge]
        rw [hl] at h1
        unfold Graph.addInternal at h1
        rw [hr] at h1
        simp only [hdir] at h1
        simp only [Bool.not_true, Bool.false_and, Bool.false_eq_true, if_false, pure_bind] at h1
        cases hi : (g.emplaceEdge u v d).insertAt (⟨xorI u v, v, d⟩ : Rec E).src g.edges.length with
        | error e => rw [hi] at h1; cases h1
        | ok p =>
          have he : p.1.edges = (g.emplaceEdge u v d).edges := by
            unfold Graph.insertAt at hi
            cases ha : (g.emplaceEdge u v d).adjAt (⟨xorI u v, v, d⟩ : Rec E).src with
            | error e => rw [ha] at hi; cases hi
            | ok s' =>
              rw [ha, ok_bind] at hi
              cases hi
              rfl
          rw [hi] at h1
          simp only at h1
          cases hp : p.1.edges[p.2]? with
          | none => rw [hp] at h1; cases h1
          | some r =>
            rw [hp] at h1
            simp only [Except.ok.injEq] at h1
            rw [← h1, he]
      | some i =>
        obtain ⟨r, -, -, hm'⟩ := h.setFind_some hv k4 hf
        rw [hm] at hm'
        cases hm'
    unfold Graph.getEdges
    rw [e]
    unfold Graph.emplaceEdge
    rw [List.map_append, List.map_singleton, show (⟨xorI u v, v, d⟩ : Rec E).src = u from xorI_cancel hu64]

theorem ffLoop_ok (n : Nat) (hn : n ≤ 63) : ∀ (fuel k : Nat) (g : Graph Int) (m : Map Int), Good g true 0 (2 * n) m →
    (∀ u v c, m u v = some c ↔ FfEdge n k u v c) → k + fuel = n → g.getEdges = FFProof.ffEdges n k → 0 < fuel →
    ∃ g' m', ffLoop n fuel (n - 2 - k) (n + 1 + k) (2 ^ k) g = .ok g' ∧ Good g' true 0 (2 * n) m' ∧
      (∀ u v c, m' u v = some c ↔ FfEdge n (n - 1) u v c) ∧ g'.getEdges = FFProof.ffEdges n (n - 1) := by
  intro fuel
  induction fuel with
  | zero => intro k g m _ _ _ _ h; omega
  | succ fuel ih =>
    intro k g m hg hm hf hl _
    unfold ffLoop
    by_cases hc : (n : Int) + 1 + k < 2 * n
    · rw [if_pos hc]
      have hnone : ∀ u v : Int, (u < n - 1 - k ∨ v > n + k) → m u v = none := by
        intro u v huv
        cases he : m u v with
        | none => rfl
        | some c =>
          have := ffEdge_range ((hm u v c).1 he) (by omega)
          omega
      obtain ⟨g1, a1, b1, -, c1⟩ := add_new hg ((2 : Int) ^ k) (u := n - 2 - k) (v := n - 2 - k + 1) (by unfold In; omega) (by unfold In; omega) (by omega)
        (hnone _ _ (by omega))
      obtain ⟨g2, a2, b2, -, c2⟩ := add_new b1 ((2 : Int) ^ k) (u := n - 2 - k) (v := n + 1 + k - 1) (by unfold In; omega) (by unfold In; omega) (by omega)
        (by rw [if_neg (by omega)]; exact hnone _ _ (by omega))
      obtain ⟨g3, a3, b3, -, c3⟩ := add_new b2 ((2 : Int) ^ k) (u := n - 2 - k + 1) (v := n + 1 + k) (by unfold In; omega) (by unfold In; omega) (by omega)
        (by rw [if_neg (by omega), if_neg (by omega)]; exact hnone _ _ (by omega))
      obtain ⟨g4, a4, b4, -, c4⟩ := add_new b3 ((2 : Int) ^ k) (u := n + 1 + k - 1) (v := n + 1 + k) (by unfold In; omega) (by unfold In; omega) (by omega)
        (by rw [if_neg (by omega), if_neg (by omega), if_neg (by omega)]; exact hnone _ _ (by omega))
      have hp : (2 : Int) ^ k * 2 ≤ 2 ^ 62 := by
        rw [← pow_succ]
        exact pow_le_pow_right₀ (by norm_num) (by omega)
      have hp0 : (0 : Int) < 2 ^ k := by positivity
      have h64 : I64 ((2 : Int) ^ k * 2) := by unfold I64; omega
      rw [a1, ok_bind, a2, ok_bind, a3, ok_bind, a4, ok_bind, chk_ok h64, ok_bind]
      have := ih (k + 1) g4 _ b4 (fun u v c => ?_) (by omega) ?_ (by omega)
      · rw [show (n : Int) - 2 - (k : Nat) - 1 = n - 2 - ((k + 1 : Nat) : Int) by push_cast; ring,
          show (n : Int) + 1 + (k : Nat) + 1 = n + 1 + ((k + 1 : Nat) : Int) by push_cast; ring, ← pow_succ]
        exact this
      · push_cast
        rw [ffEdge_succ (by omega), Int.toNat_natCast, ← hm]
        by_cases h1 : u = n + 1 + k - 1 ∧ v = n + 1 + k
        · rw [if_pos h1, hnone u v (by omega)]
          simp only [Option.some.injEq, reduceCtorEq, false_or]
          constructor
          · rintro rfl; exact ⟨rfl, by omega⟩
          · exact fun h => h.1.symm
        · rw [if_neg h1]
          by_cases h2 : u = n - 2 - k + 1 ∧ v = n + 1 + k
          · rw [if_pos h2, hnone u v (by omega)]
            simp only [Option.some.injEq, reduceCtorEq, false_or]
            constructor
            · rintro rfl; exact ⟨rfl, by omega⟩
            · exact fun h => h.1.symm
          · rw [if_neg h2]
            by_cases h3 : u = n - 2 - k ∧ v = n + 1 + k - 1
            · rw [if_pos h3, hnone u v (by omega)]
              simp only [Option.some.injEq, reduceCtorEq, false_or]
              constructor
              · rintro rfl; exact ⟨rfl, by omega⟩
              · exact fun h => h.1.symm
            · rw [if_neg h3]
              by_cases h4 : u = n - 2 - k ∧ v = n - 2 - k + 1
              · rw [if_pos h4, hnone u v (by omega)]
                simp only [Option.some.injEq, reduceCtorEq, false_or]
                constructor
                · rintro rfl; exact ⟨rfl, by omega⟩
                · exact fun h => h.1.symm
              · rw [if_neg h4]
                constructor
                · exact Or.inl
                · rintro (h | h)
                  · exact h
                  · omega
      · rw [c4, c3, c2, c1, hl, FFProof.ffEdges, FFProof.layer]
        simp only [List.append_assoc, List.cons_append, List.nil_append]
        congr 2
        · unfold FFProof.A; push_cast; congr 1 <;> ring
        · unfold FFProof.A FFProof.B
          push_cast
          congr 1
          · congr 1 <;> ring
          · congr 1
            · congr 1 <;> ring
            · congr 2 <;> ring
    · rw [if_neg hc]
      have : k = n - 1 := by omega
      refine ⟨g, m, rfl, hg, ?_, by rw [hl, this]⟩
      rw [this] at hm
      have e : ((n - 1 : Nat) : Int) = (n : Int) - 1 := by omega
      rw [e] at hm
      exact hm

theorem ffWorstcase_ok (n : Nat) (h0 : 0 < n) (hn : n ≤ 63) : ∃ g m, ffWorstcase n = .ok g ∧ Good g true 0 (2 * n) m ∧
    (∀ u v c, m u v = some c ↔ FfEdge n (n - 1) u v c) ∧ g.getEdges = FFProof.ffEdges n (n - 1) := by
  obtain ⟨res, h1, h2, h3⟩ := new_good (E := Int) true (l := 0) (r := ((2 * n : Nat) : Int)) i64_zero (by unfold I64; omega) (by omega) (by unfold I64; omega)
  rw [show (((2 * n : Nat) : Int) - 0).toNat = 2 * n by omega] at h2
  obtain ⟨g1, a1, b1, -, c1⟩ := add_new h2 (1 : Int) (u := n - 1) (v := n) (by unfold In; omega) (by unfold In; omega) (by omega) rfl
  obtain ⟨g, m, l1, l2, l3, l4⟩ := ffLoop_ok n hn n 0 g1 _ b1 (fun u v c => by
    rw [Nat.cast_zero, ffEdge_zero]
    by_cases h : u = n - 1 ∧ v = n
    · rw [if_pos h]
      simp only [Option.some.injEq]
      constructor
      · intro e; omega
      · intro e; omega
    · rw [if_neg h]
      simp only [reduceCtorEq, false_iff]
      omega) (by omega) (by rw [c1]; unfold Graph.getEdges; rw [h3]; simp [FFProof.ffEdges, FFProof.A, FFProof.B]) h0
  refine ⟨g, m, ?_, l2, l3, l4⟩
  unfold ffWorstcase
  rw [decide_eq_true (by omega), judgeAssert_true, ok_bind, show (2 * (n : Int)) = ((2 * n : Nat) : Int) by push_cast; rfl]
  unfold Graph.ofSize
  rw [h1, ok_bind, a1, ok_bind, Int.toNat_natCast]
  simpa using l1

/-- The capacities that the graph reports. -/
theorem capOf_eq {g : Graph Int} {n : Nat} {m : Map Int} (h : Good g true 0 n m) {u v : Int} (hu : In 0 n u) (hv : In 0 n v) :
    capOf g u v = (m u v).getD 0 := by
  unfold capOf
  rw [h.agrees.find, if_pos ⟨hu, hv⟩]
  cases m u v <;> rfl

/-- The vertices `0, ..., k-1`. -/
noncomputable def vertices (k : Nat) : Finset Int := Finset.Ico 0 (k : Int)

theorem mem_vertices {k : Nat} {u : Int} : u ∈ vertices k ↔ In 0 k u := by simp [vertices, In]

/-- The capacity in terms of the description. -/
theorem cap_some {g : Graph Int} {n N : Nat} {m : Map Int} (h : Good g true 0 N m) {k : Int} (hm : ∀ u v c, m u v = some c ↔ FfEdge n k u v c)
    {u v c : Int} (hu : In 0 N u) (hv : In 0 N v) (he : FfEdge n k u v c) : capOf g u v = c := by
  rw [capOf_eq h hu hv, (hm u v c).2 he]
  rfl

theorem cap_none {g : Graph Int} {n N : Nat} {m : Map Int} (h : Good g true 0 N m) {k : Int} (hm : ∀ u v c, m u v = some c ↔ FfEdge n k u v c)
    {u v : Int} (hu : In 0 N u) (hv : In 0 N v) (he : ∀ c, ¬FfEdge n k u v c) : capOf g u v = 0 := by
  rw [capOf_eq h hu hv]
  cases hc : m u v with
  | none => rfl
  | some c => exact absurd ((hm u v c).1 hc) (he c)

theorem cap_nonneg {g : Graph Int} {n N : Nat} {m : Map Int} (h : Good g true 0 N m) {k : Int} (hm : ∀ u v c, m u v = some c ↔ FfEdge n k u v c)
    {u v : Int} (hu : In 0 N u) (hv : In 0 N v) : 0 ≤ capOf g u v := by
  rw [capOf_eq h hu hv]
  cases hc : m u v with
  | none => exact le_rfl
  | some c =>
    rcases (hm u v c).1 hc with ⟨-, -, rfl⟩ | ⟨l, -, -, rfl, -⟩
    · exact zero_le_one
    · exact pow_nonneg (by norm_num) _

/-- The largest flow: `2^(n-2)` on both ways through the outermost layer. -/
def ffFlow (n : Nat) (u v : Int) : Int :=
  if n = 1 then (if u = 0 ∧ v = 1 then 1 else 0)
  else if (u = 0 ∧ (v = 1 ∨ v = 2 * n - 2)) ∨ ((u = 1 ∨ u = 2 * n - 2) ∧ v = 2 * n - 1) then 2 ^ (n - 2) else 0

theorem ffFlow_pos {n : Nat} (hn : 2 ≤ n) {u v : Int} (h : (u = 0 ∧ (v = 1 ∨ v = 2 * n - 2)) ∨ ((u = 1 ∨ u = 2 * n - 2) ∧ v = 2 * n - 1)) :
    ffFlow n u v = 2 ^ (n - 2) := by
  unfold ffFlow
  rw [if_neg (by omega), if_pos h]

theorem ff_maxFlow {g : Graph Int} {n : Nat} {m : Map Int} (h0 : 0 < n) (h : Good g true 0 (2 * n) m)
    (hm : ∀ u v c, m u v = some c ↔ FfEdge n (n - 1) u v c) : MaxFlow (vertices (2 * n)) (capOf g) 0 (2 * n - 1) (2 ^ (n - 1)) := by
  have hp : (0 : Int) < 2 ^ (n - 2) := by positivity
  rcases (show n = 1 ∨ 2 ≤ n by omega) with rfl | h2
  · have hv : vertices (2 * 1) = {0, 1} := by decide
    have c01 : capOf g 0 1 = 1 := cap_some h hm (by decide) (by decide) (Or.inl ⟨by norm_num, by norm_num, rfl⟩)
    have cnn : ∀ u v, u ∈ vertices (2 * 1) → v ∈ vertices (2 * 1) → 0 ≤ capOf g u v := fun u v hu hv => cap_nonneg h hm (mem_vertices.1 hu) (mem_vertices.1 hv)
    refine ⟨⟨ffFlow 1, ⟨?_, ?_, ?_⟩, ?_⟩, ?_⟩
    · intro u _ v _
      unfold ffFlow
      rw [if_pos rfl]
      split <;> omega
    · intro u hu v hv
      unfold ffFlow
      rw [if_pos rfl]
      split
      · rename_i e; rw [e.1, e.2, c01]
      · exact cnn u v hu hv
    · intro v hv' h1 h2
      rw [hv] at hv'
      simp at hv'
      omega
    · rw [hv]; simp [value, ffFlow]
    · intro f hf
      have := hf.le_cap 0 (by rw [hv]; simp) 1 (by rw [hv]; simp)
      have := hf.nonneg 1 (by rw [hv]; simp) 0 (by rw [hv]; simp)
      unfold value
      rw [hv, Finset.sum_pair (by norm_num), Finset.sum_pair (by norm_num)]
      simp only [Nat.sub_self, pow_zero]
      omega
  · have hpow : (2 : Int) ^ (n - 1) = 2 ^ (n - 2) + 2 ^ (n - 2) := by
      rw [show n - 1 = (n - 2) + 1 by omega, pow_succ]; ring
    have edge : ∀ u v : Int, ((u = 0 ∧ (v = 1 ∨ v = 2 * n - 2)) ∨ ((u = 1 ∨ u = 2 * n - 2) ∧ v = 2 * n - 1)) → FfEdge n (n - 1) u v (2 ^ (n - 2)) := by
      intro u v huv
      refine Or.inr ⟨n - 2, by omega, by omega, ?_, by omega⟩
      congr 1
      omega
    have edge0 : ∀ v c : Int, FfEdge n (n - 1) 0 v c → v = 1 ∨ v = 2 * n - 2 := by
      rintro v c (e | ⟨l, h1, h2, -, h3⟩) <;> omega
    refine ⟨⟨ffFlow n, ⟨?_, ?_, ?_⟩, ?_⟩, ?_⟩
    · intro u _ v _
      unfold ffFlow
      rw [if_neg (by omega)]
      split <;> omega
    · intro u hu v hv
      unfold ffFlow
      rw [if_neg (by omega)]
      split
      · rename_i e
        rw [cap_some h hm (mem_vertices.1 hu) (mem_vertices.1 hv) (edge u v e)]
      · exact cap_nonneg h hm (mem_vertices.1 hu) (mem_vertices.1 hv)
    · intro v hv' h1 h2
      by_cases hv : v = 1 ∨ v = 2 * n - 2
      · rw [Finset.sum_eq_single 0, Finset.sum_eq_single (2 * n - 1 : Int)]
        · rw [ffFlow_pos (by omega) (by omega), ffFlow_pos (by omega) (by omega)]
        · intro u hu hne
          unfold ffFlow
          rw [if_neg (by omega), if_neg (by omega)]
        · exact fun h => absurd (mem_vertices.2 (by unfold In; omega)) h
        · intro u hu hne
          unfold ffFlow
          rw [if_neg (by omega), if_neg (by omega)]
        · exact fun h => absurd (mem_vertices.2 (by unfold In; omega)) h
      · rw [Finset.sum_eq_zero, Finset.sum_eq_zero]
        · intro u hu
          unfold ffFlow
          rw [if_neg (by omega), if_neg (by omega)]
        · intro u hu
          unfold ffFlow
          rw [if_neg (by omega), if_neg (by omega)]
    · unfold value
      rw [Finset.sum_eq_add (1 : Int) (2 * n - 2 : Int), Finset.sum_eq_zero]
      · rw [ffFlow_pos (by omega) (by omega), ffFlow_pos (by omega) (by omega), hpow, sub_zero]
      · intro u hu
        unfold ffFlow
        rw [if_neg (by omega), if_neg (by omega)]
      · omega
      · intro u hu hne
        unfold ffFlow
        rw [if_neg (by omega), if_neg (by omega)]
      · exact fun h => absurd (mem_vertices.2 (by unfold In; omega)) h
      · exact fun h => absurd (mem_vertices.2 (by unfold In; omega)) h
    · intro f hf
      refine (value_le_cut hf (S := {0}) (by
        intro x hx
        rw [Finset.mem_singleton] at hx
        exact mem_vertices.2 (by unfold In; omega)) (by simp) (by simp; omega)).trans ?_
      rw [Finset.sum_singleton, Finset.sum_eq_add (1 : Int) (2 * n - 2 : Int)]
      · have i0 : In 0 (2 * n) 0 := by unfold In; omega
        rw [cap_some h hm i0 (by unfold In; omega) (edge 0 1 (by omega)), cap_some h hm i0 (by unfold In; omega) (edge 0 (2 * n - 2) (by omega)), hpow]
      · omega
      · intro v hv hne
        rw [Finset.mem_sdiff, mem_vertices] at hv
        refine cap_none h hm (by unfold In; omega) hv.1 fun c hc => ?_
        have := edge0 v c hc
        tauto
      · refine fun h => absurd (Finset.mem_sdiff.2 ⟨mem_vertices.2 (by unfold In; omega), ?_⟩) h
        simp
      · refine fun h => absurd (Finset.mem_sdiff.2 ⟨mem_vertices.2 (by unfold In; omega), ?_⟩) h
        simp
        omega

/-- **C76**: `ffWorstcase(n)` has `2n` vertices and exactly the `4n - 3` edges of the construction, and nothing overflows. -/
theorem C76_ffWorstcase (n : Nat) (h0 : 0 < n) (hn : n ≤ 63) : ∃ g m, ffWorstcase n = .ok g ∧ Agrees g true 0 (2 * n) m ∧
    (∀ u v c, m u v = some c ↔ FfEdge n (n - 1) u v c) ∧ g.nodeCount = 2 * n ∧ g.edgeCount = 4 * n - 3 := by
  obtain ⟨g, m, h1, h2, h3, h4⟩ := ffWorstcase_ok n h0 hn
  refine ⟨g, m, h1, h2.agrees, h3, by rw [h2.agrees.nodeCount]; push_cast; rfl, ?_⟩
  have e := congrArg List.length h4
  rw [FFProof.ffEdges_length] at e
  unfold Graph.getEdges at e
  rw [List.length_map] at e
  unfold Graph.edgeCount
  omega

/-- **C76**: the largest flow from 0 to `2n-1` is `2^(n-1)`. -/
theorem C76_ff_flow (n : Nat) (h0 : 0 < n) (hn : n ≤ 63) :
    ∃ g, ffWorstcase n = .ok g ∧ MaxFlow (vertices (2 * n)) (capOf g) 0 (2 * n - 1) (2 ^ (n - 1)) := by
  obtain ⟨g, m, h1, h2, h3, -⟩ := ffWorstcase_ok n h0 hn
  exact ⟨g, h1, ff_maxFlow h0 h2 h3⟩

/-- **C76 refuted**: the documented flow of `2^n` is wrong for every `n`. -/
theorem C76_ff_flow_refuted (n : Nat) (h0 : 0 < n) (hn : n ≤ 63) :
    ∃ g, ffWorstcase n = .ok g ∧ ¬MaxFlow (vertices (2 * n)) (capOf g) 0 (2 * n - 1) (2 ^ n) := by
  obtain ⟨g, h1, h2⟩ := C76_ff_flow n h0 hn
  refine ⟨g, h1, fun h => ?_⟩
  have := MaxFlow.unique h h2
  have := Nat.pow_right_injective le_rfl (by exact_mod_cast this : (2 : Nat) ^ n = 2 ^ (n - 1))
  omega

/-- **C76**: with this order of the edges the algorithm of Ford and Fulkerson with a depth first search needs `2^(n-1)` augmentations, each by one. -/
theorem C76_ff_augmentations (n : Nat) (h0 : 0 < n) (hn : n ≤ 63) (fuel : Nat) (hfuel : 2 * n ≤ fuel) :
    ∃ g, ffWorstcase n = .ok g ∧ Spec.FF.Runs g.getEdges fuel 0 (2 * n - 1) (fun _ => 0) (List.replicate (2 ^ (n - 1)) 1) := by
  obtain ⟨g, m, h1, -, -, h4⟩ := ffWorstcase_ok n h0 hn
  refine ⟨g, h1, ?_⟩
  rw [h4]
  exact FFProof.runs h0 hfuel (2 ^ (n - 1)) 0 _ (FFProof.St.zero _) (by push_cast; ring)

/-- Ten layers. -/
example : ∃ g, ffWorstcase 10 = .ok g ∧ Spec.FF.Runs g.getEdges 20 0 19 (fun _ => 0) (List.replicate 512 1) := by
  have h := C76_ff_augmentations 10 (by norm_num) (by norm_num) 20 (by norm_num)
  norm_num at h
  exact h

/-- **C76**: other arguments are rejected. -/
theorem C76_ff_throws (n : Int) (h : ¬(0 < n ∧ n ≤ 63)) : ffWorstcase n = .error .throw := by
  unfold ffWorstcase
  rw [decide_eq_false h]
  rfl

end ICPC.Props
