import Verif.Model.GraphIO
import Verif.Spec.GraphIO
import Verif.Props.Input
import Verif.Props.GraphVal
import Verif.Props.Tree

/-!
# C78: graphs from the generator to the validator

The text of a generated graph, the complete example program that validates it, and both together.
-/

namespace ICPC.Props

open ICPC ICPC.Spec ICPC.GraphIO

/-! ## The text of a graph -/

/-- The generator writes the number of vertices and edges and then one line for each edge, in decimal notation; the
line break of the last line is left to the caller. -/
theorem C78_text (g : Gen.Graph Unit) :
    writeGraph none g ++ ['\n'] = graphText g.nodeCount (g.getEdges.map fun e => (e.src, e.dst)) := by
  have key : ∀ l : List (Gen.Edge Unit), (l.map fun e => write (.text ['\n']) ++ writeEdge none e).flatten ++ ['\n'] =
      '\n' :: edgeLines (l.map fun e => (e.src, e.dst)) := by
    intro l
    induction l with
    | nil => rfl
    | cons e l ih =>
      rw [List.map_cons, List.map_cons, List.flatten_cons, List.append_assoc, ih]
      simp [writeEdge, write, edgeLines, printInt_eq]
  unfold writeGraph
  rw [List.append_assoc, key]
  simp [graphText, write, printInt_eq, Gen.Graph.edgeCount, Gen.Graph.getEdges]

/-- With data every line ends with a blank and the data. -/
theorem C78_text_data {E : Type} (f : E → OutVal) (g : Gen.Graph E) :
    writeGraph (some f) g = decimal g.nodeCount ++ ' ' :: decimal g.getEdges.length ++
      (g.getEdges.map fun e => '\n' :: (decimal e.src ++ ' ' :: decimal e.dst ++ ' ' :: write (f e.data))).flatten := by
  unfold writeGraph
  simp [writeEdge, write, printInt_eq, Gen.Graph.edgeCount, Gen.Graph.getEdges]

/-! ## The validator -/

theorem space_strict {cfg : StreamCfg} (hs : cfg.spaceSensitive = true) (s s' : List Char) :
    Stream.space cfg s = .ok s' ↔ s = ' ' :: s' := by
  unfold Stream.space Stream.noteof
  rw [hs]
  rcases s with _ | ⟨c, s⟩
  · simp [bind_eq_ok, Stream.fail]
  · simp only [if_true, Bool.not_true, Bool.false_eq_true, if_false, List.isEmpty_cons, ok_bind, Stream.getExpect]
    split_ifs with h
    · simp [Stream.fail, h]
    · rw [not_not] at h
      simp [h]

theorem newline_strict {cfg : StreamCfg} (hs : cfg.spaceSensitive = true) (s s' : List Char) :
    Stream.newline cfg s = .ok s' ↔ s = '\n' :: s' := by
  unfold Stream.newline Stream.noteof
  rw [hs]
  rcases s with _ | ⟨c, s⟩
  · simp [bind_eq_ok, Stream.fail]
  · simp only [if_true, Bool.not_true, Bool.false_eq_true, if_false, List.isEmpty_cons, ok_bind, Stream.getExpect]
    split_ifs with h
    · simp [Stream.fail, h]
    · rw [not_not] at h
      simp [h]

theorem eof_strict {cfg : StreamCfg} (hs : cfg.spaceSensitive = true) (s s' : List Char) :
    Stream.eof cfg s = .ok s' ↔ s = [] ∧ s' = [] := by
  unfold Stream.eof
  rw [hs]
  rcases s with _ | ⟨c, s⟩
  · simp [eq_comm]
  · simp [Stream.fail]

private theorem integer_ok {cfg : StreamCfg} {l u : Int} {s : List Char} :
    OkOrFail cfg (Stream.integerBounded cfg l u s) := (integer_okOrFail cfg s).bind fun _ => ite_okOrFail

private theorem readEdges_ok {cfg : StreamCfg} (hs : cfg.spaceSensitive = true) (n : Int) (hn : 0 ≤ n) (hn' : n < 100000) :
    ∀ (k : Nat) (E₀ : List (Int × Int)) (g : Graph) (s : List Char), Graph.Reached 1 (n + 1) E₀ g → E₀.length + k < 2 ^ 62 →
      (∃ (E : List (Int × Int)) (g' : Graph) (rest : List Char), E.length = k ∧
        (∀ e ∈ E, (1 ≤ e.1 ∧ e.1 ≤ n) ∧ 1 ≤ e.2 ∧ e.2 ≤ n) ∧ s = edgeLines E ++ rest ∧
        Graph.Reached 1 (n + 1) (E₀ ++ E) g' ∧ readEdges cfg n k s g = .ok (g', rest)) ∨
      (readEdges cfg n k s g = .error (.exit cfg.onFail) ∧ ¬ ∃ (E : List (Int × Int)) (rest : List Char), E.length = k ∧
        (∀ e ∈ E, (1 ≤ e.1 ∧ e.1 ≤ n) ∧ 1 ≤ e.2 ∧ e.2 ≤ n) ∧ s = edgeLines E ++ rest) := by
  intro k
  induction k with
  | zero =>
    intro E₀ g s h _
    left
    exact ⟨[], g, s, rfl, by simp, rfl, by rwa [List.append_nil], rfl⟩
  | succ k ih =>
    intro E₀ g s h hlen
    have hint := fun (x : List Char) => C31_integer cfg hs 1 (n + 1) x
    have hdel : ∀ c : Char, White c → ∀ r, Delimited (c :: r) := fun c h r => Or.inr ⟨c, r, rfl, h⟩
    have hblank : White ' ' := Or.inl rfl
    have hline : White '\n' := Or.inr (Or.inr (Or.inl rfl))
    unfold readEdges
    -- what any admissible text does
    have hrun : ∀ (a b : Int) (r : List Char), (1 ≤ a ∧ a ≤ n) → (1 ≤ b ∧ b ≤ n) →
        s = decimal a ++ ' ' :: (decimal b ++ '\n' :: r) →
        ∃ g', g.addEdge a b = .ok g' ∧ readEdges cfg n (k + 1) s g = readEdges cfg n k r g' := by
      intro a b r ha hb hsr
      obtain ⟨g', hg'⟩ := (C42_total 1 (n + 1) (by omega) (by omega)).2 E₀ g a b h (by omega) (by omega) (by omega)
      refine ⟨g', hg', ?_⟩
      have h1 : Stream.integerBounded cfg 1 (n + 1) s = .ok (a, ' ' :: (decimal b ++ '\n' :: r)) :=
        ((hint s).1 _ _).2 ⟨hsr, hdel _ hblank _, by omega, by omega, by omega⟩
      have h3 : Stream.integerBounded cfg 1 (n + 1) (decimal b ++ '\n' :: r) = .ok (b, '\n' :: r) :=
        ((hint _).1 _ _).2 ⟨rfl, hdel _ hline _, by omega, by omega, by omega⟩
      conv_lhs => unfold readEdges
      rw [h1, ok_bind]
      simp only []
      rw [(space_strict hs _ _).2 rfl, ok_bind, h3, ok_bind]
      simp only []
      rw [(newline_strict hs _ _).2 rfl, ok_bind, hg', ok_bind]
    by_cases hex : ∃ (a b : Int) (r : List Char), (1 ≤ a ∧ a ≤ n) ∧ (1 ≤ b ∧ b ≤ n) ∧
        s = decimal a ++ ' ' :: (decimal b ++ '\n' :: r)
    · obtain ⟨a, b, r, ha, hb, hsr⟩ := hex
      obtain ⟨g', hg', hrd⟩ := hrun a b r ha hb hsr
      rw [show (do
          let (a, s) ← Stream.integerBounded cfg 1 (n + 1) s
          let s ← Stream.space cfg s
          let (b, s) ← Stream.integerBounded cfg 1 (n + 1) s
          let s ← Stream.newline cfg s
          let g ← g.addEdge a b
          readEdges cfg n k s g : Out (Graph × List Char)) = readEdges cfg n k r g' from hrd]
      have hreach := Graph.Reached.add h hg'
      have hdet : ∀ (E : List (Int × Int)) (rest : List Char), E.length = k + 1 →
          (∀ e ∈ E, (1 ≤ e.1 ∧ e.1 ≤ n) ∧ 1 ≤ e.2 ∧ e.2 ≤ n) → s = edgeLines E ++ rest →
          ∃ E', E = (a, b) :: E' ∧ r = edgeLines E' ++ rest := by
        intro E rest hE hv hs'
        rcases E with _ | ⟨⟨a', b'⟩, E'⟩
        · simp at hE
        have hv' := hv (a', b') (by simp)
        obtain ⟨g'', hg'', hrd'⟩ := hrun a' b' (edgeLines E' ++ rest) hv'.1 hv'.2 (by
          rw [hs']; simp [edgeLines])
        have e1 : Stream.integerBounded cfg 1 (n + 1) s = .ok (a, ' ' :: (decimal b ++ '\n' :: r)) :=
          ((hint s).1 _ _).2 ⟨hsr, hdel _ hblank _, by omega, by omega, by omega⟩
        have e2 : Stream.integerBounded cfg 1 (n + 1) s = .ok (a', ' ' :: (decimal b' ++ '\n' :: (edgeLines E' ++ rest))) :=
          ((hint s).1 _ _).2 ⟨by rw [hs']; simp [edgeLines], hdel _ hblank _, by omega, by omega, by omega⟩
        rw [e1] at e2
        have e3 := Prod.mk.inj (Except.ok.inj e2)
        obtain ⟨rfl, e3⟩ := e3
        have e3 := (List.cons.inj e3).2
        have f1 : Stream.integerBounded cfg 1 (n + 1) (decimal b ++ '\n' :: r) = .ok (b, '\n' :: r) :=
          ((hint _).1 _ _).2 ⟨rfl, hdel _ hline _, by omega, by omega, by omega⟩
        have f2 : Stream.integerBounded cfg 1 (n + 1) (decimal b ++ '\n' :: r) = .ok (b', '\n' :: (edgeLines E' ++ rest)) :=
          ((hint _).1 _ _).2 ⟨e3, hdel _ hline _, by omega, by omega, by omega⟩
        rw [f1] at f2
        obtain ⟨rfl, f3⟩ := Prod.mk.inj (Except.ok.inj f2)
        exact ⟨E', rfl, (List.cons.inj f3).2⟩
      rcases ih (E₀ ++ [(a, b)]) g' r hreach (by simp; omega) with ⟨E, g'', rest, hE, hv, hr, hre, hrun'⟩ | ⟨hf, hno⟩
      · left
        refine ⟨(a, b) :: E, g'', rest, by simp [hE], ?_, ?_, ?_, hrun'⟩
        · intro e he
          rcases List.mem_cons.1 he with rfl | he
          · exact ⟨ha, hb⟩
          · exact hv e he
        · rw [hsr, hr]; simp [edgeLines]
        · rwa [List.append_assoc] at hre
      · right
        refine ⟨hf, ?_⟩
        rintro ⟨E, rest, hE, hv, hs'⟩
        obtain ⟨E', rfl, hr⟩ := hdet E rest hE hv hs'
        exact hno ⟨E', rest, by simpa using hE, fun e he => hv e (by simp [he]), hr⟩
    · right
      constructor
      · rcases integer_ok (cfg := cfg) (l := 1) (u := n + 1) (s := s) with ⟨⟨a, s1⟩, e1⟩ | e1
        · rw [e1, ok_bind]
          simp only []
          obtain ⟨h1, h2, h3, h4, h5⟩ := ((hint s).1 _ _).1 e1
          rcases space_okOrFail cfg s1 with ⟨s2, e2⟩ | e2
          · rw [e2, ok_bind]
            rw [space_strict hs] at e2
            rcases integer_ok (cfg := cfg) (l := 1) (u := n + 1) (s := s2) with ⟨⟨b, s3⟩, e3⟩ | e3
            · rw [e3, ok_bind]
              simp only []
              obtain ⟨g1, g2, g3, g4, g5⟩ := ((hint s2).1 _ _).1 e3
              rcases newline_okOrFail cfg s3 with ⟨s4, e4⟩ | e4
              · rw [newline_strict hs] at e4
                exact absurd ⟨a, b, s4, by omega, by omega, by rw [h1, e2, g1, e4]⟩ hex
              · rw [e4]; rfl
            · rw [e3]; rfl
          · rw [e2]; rfl
        · rw [e1]; rfl
      · rintro ⟨E, rest, hE, hv, hs'⟩
        rcases E with _ | ⟨⟨a, b⟩, E'⟩
        · simp at hE
        · have := hv (a, b) (by simp)
          exact hex ⟨a, b, edgeLines E' ++ rest, this.1, this.2, by rw [hs']; simp [edgeLines]⟩

/-- A graph without cycles can be coloured with two colours. -/
theorem forest_twoColourable (E : List (Int × Int)) : Forest E → TwoColourable E := by
  induction E using List.reverseRecOn with
  | nil => intro _; exact ⟨fun _ => true, by simp⟩
  | append_singleton E e ih =>
    obtain ⟨a, b⟩ := e
    rw [forest_append]
    rintro ⟨hF, hJ⟩
    obtain ⟨c, hc⟩ := ih hF
    classical
    refine ⟨fun x => if Joined E a x then (c x ^^ (c a == c b)) else c x, ?_⟩
    intro e he
    rcases List.mem_append.1 he with he | he
    · have hj : Joined E a e.1 ↔ Joined E a e.2 :=
        ⟨fun h => joined_trans h (joined_edge he), fun h => joined_trans h (joined_symm (joined_edge he))⟩
      have := hc e he
      by_cases h : Joined E a e.1
      · simp only [if_pos h, if_pos (hj.1 h)]
        intro h'
        exact this (by simpa using h')
      · simp only [if_neg h, if_neg (fun h' => h (hj.2 h'))]
        exact this
    · rw [List.mem_singleton] at he
      subst he
      simp only [if_pos (joined_refl E a), if_neg hJ]
      cases c a <;> cases c b <;> simp

/-- The checks accept exactly the trees and never end with `FAIL`. -/
private theorem judge_eq {n : Int} {E : List (Int × Int)} {g : Graph} (h : Graph.Reached 1 (n + 1) E g) :
    (Forest E ∧ Connected 1 (n + 1) E → judge g = .error (.exit 42)) ∧
    (¬ (Forest E ∧ Connected 1 (n + 1) E) → judge g = .error (.exit 43)) := by
  have ht := C43_isTree h
  have hc := C42_isConnected h
  have hb := C44_isBipartite h
  constructor
  · rintro ⟨hF, hC⟩
    have h1 : g.base.selfloop = none := by
      rcases hl : g.base.selfloop with _ | a
      · rfl
      · have he := (C45_selfloop h).1 a hl
        obtain ⟨i, hi⟩ := List.getElem?_of_mem he
        have := hF a [i] (.cons (Or.inl hi) (.nil a)) (by simp)
        simp at this
    have h2 : g.base.multiedge = none := by
      rcases hl : g.base.multiedge with _ | ⟨a, b⟩
      · rfl
      · obtain ⟨i, j, hij, hi, hj⟩ := (C45_multiedge h).1 a b hl
        have := hF a [i, j] (.cons hi (.cons hj.symm (.nil a))) (by simp; omega)
        simp at this
    unfold judge
    rw [h1, h2, hc.2 hC, ht.2 ⟨hF, hC⟩, hb.2 (forest_twoColourable E hF)]
    rfl
  · intro hn
    have h0 : g.isTree = false := by
      rw [Bool.eq_false_iff]
      exact fun hT => hn (ht.1 hT)
    unfold judge
    rw [h0]
    split_ifs <;> first | rfl | simp_all

/-- The lines determine the edges. -/
private theorem edgeLines_inj {cfg : StreamCfg} (hs : cfg.spaceSensitive = true) {n : Int} (hn : n < 100000) :
    ∀ (A B : List (Int × Int)) (t : List Char), A.length = B.length → edgeLines A = edgeLines B ++ t →
      (∀ e ∈ A, (1 ≤ e.1 ∧ e.1 ≤ n) ∧ 1 ≤ e.2 ∧ e.2 ≤ n) → (∀ e ∈ B, (1 ≤ e.1 ∧ e.1 ≤ n) ∧ 1 ≤ e.2 ∧ e.2 ≤ n) →
      A = B ∧ t = [] := by
  have hdel : ∀ c : Char, White c → ∀ r, Delimited (c :: r) := fun c h r => Or.inr ⟨c, r, rfl, h⟩
  have hblank : White ' ' := Or.inl rfl
  have hline : White '\n' := Or.inr (Or.inr (Or.inl rfl))
  intro A
  induction A with
  | nil =>
    intro B t hAB hl _ _
    simp at hAB
    have hB := List.length_eq_zero_iff.1 hAB.symm
    rw [hB] at hl
    exact ⟨hB.symm, by simpa [edgeLines] using hl.symm⟩
  | cons x A ih =>
    intro B t hAB hl hA hB
    rcases B with _ | ⟨y, B⟩
    · simp at hAB
    obtain ⟨x1, x2⟩ := x
    obtain ⟨y1, y2⟩ := y
    have hx := hA (x1, x2) (by simp)
    have hy := hB (y1, y2) (by simp)
    have hI := C31_integer cfg hs 1 (n + 1)
    have hl' : decimal x1 ++ ' ' :: (decimal x2 ++ '\n' :: edgeLines A) =
        decimal y1 ++ ' ' :: (decimal y2 ++ '\n' :: (edgeLines B ++ t)) := by simpa [edgeLines] using hl
    have e1 := ((hI (decimal x1 ++ ' ' :: (decimal x2 ++ '\n' :: edgeLines A))).1 x1 _).2
      ⟨rfl, hdel _ hblank _, by omega, by omega, by omega⟩
    have e2 := ((hI (decimal x1 ++ ' ' :: (decimal x2 ++ '\n' :: edgeLines A))).1 y1 _).2
      ⟨hl', hdel _ hblank _, by omega, by omega, by omega⟩
    rw [e1] at e2
    obtain ⟨rfl, e3⟩ := Prod.mk.inj (Except.ok.inj e2)
    have e3 := (List.cons.inj e3).2
    have f1 := ((hI (decimal x2 ++ '\n' :: edgeLines A)).1 x2 _).2
      ⟨rfl, hdel _ hline _, by omega, by omega, by omega⟩
    have f2 := ((hI (decimal x2 ++ '\n' :: edgeLines A)).1 y2 _).2
      ⟨e3, hdel _ hline _, by omega, by omega, by omega⟩
    rw [f1] at f2
    obtain ⟨rfl, f3⟩ := Prod.mk.inj (Except.ok.inj f2)
    obtain ⟨rfl, rfl⟩ := ih B t (by simpa using hAB) (List.cons.inj f3).2 (fun e he => hA e (by simp [he]))
      (fun e he => hB e (by simp [he]))
    exact ⟨rfl, rfl⟩

/-- **C78.** The example validator accepts a file (exit code 42) if and only if it describes a tree, and rejects all
other files with exit code 43: it neither crashes nor throws nor fails for any file.  In particular the line that
claims that trees are always bipartite is never reached. -/
theorem C78_validator (cfg : StreamCfg) (hs : cfg.spaceSensitive = true) (hw : cfg.onFail = 43) (s : List Char) :
    (TreeFile s → GraphIO.main cfg s = .error (.exit 42)) ∧ (¬ TreeFile s → GraphIO.main cfg s = .error (.exit 43)) := by
  have hdel : ∀ c : Char, White c → ∀ r, Delimited (c :: r) := fun c h r => Or.inr ⟨c, r, rfl, h⟩
  have hblank : White ' ' := Or.inl rfl
  have hline : White '\n' := Or.inr (Or.inr (Or.inl rfl))
  have hN := C31_integer cfg hs 1 100000
  have hM := C31_integer cfg hs 1 200000
  -- what a correct first line does
  have hrun : ∀ (n m : Int) (r : List Char), (1 ≤ n ∧ n < 100000) → (1 ≤ m ∧ m < 200000) →
      s = decimal n ++ ' ' :: (decimal m ++ '\n' :: r) →
      ∃ g, Graph.new 1 (n + 1) = .ok g ∧ GraphIO.main cfg s = (do
        let (g, s) ← readEdges cfg n m.toNat r g
        let _ ← Stream.eof cfg s
        judge g) := by
    intro n m r hn hm hsr
    obtain ⟨g, hg⟩ := (C42_total 1 (n + 1) (by omega) (by omega)).1
    refine ⟨g, hg, ?_⟩
    have h1 : Stream.integerBounded cfg 1 100000 s = .ok (n, ' ' :: (decimal m ++ '\n' :: r)) :=
      ((hN s).1 _ _).2 ⟨hsr, hdel _ hblank _, by omega, by omega, by omega⟩
    have h3 : Stream.integerBounded cfg 1 200000 (decimal m ++ '\n' :: r) = .ok (m, '\n' :: r) :=
      ((hM _).1 _ _).2 ⟨rfl, hdel _ hline _, by omega, by omega, by omega⟩
    unfold GraphIO.main
    rw [h1, ok_bind]
    simp only []
    rw [(space_strict hs _ _).2 rfl, ok_bind, h3, ok_bind]
    simp only []
    rw [(newline_strict hs _ _).2 rfl, ok_bind, hg, ok_bind]
  have htext : ∀ (n : Int) (E : List (Int × Int)), s = graphText n E →
      s = decimal n ++ ' ' :: (decimal (E.length : Int) ++ '\n' :: edgeLines E) := by
    intro n E h; rw [h]; simp [graphText]
  by_cases hex : ∃ (n m : Int) (r : List Char), (1 ≤ n ∧ n < 100000) ∧ (1 ≤ m ∧ m < 200000) ∧
      s = decimal n ++ ' ' :: (decimal m ++ '\n' :: r)
  · obtain ⟨n, m, r, hn, hm, hsr⟩ := hex
    -- the first line is determined
    have hdet : ∀ (n' : Int) (E : List (Int × Int)), (1 ≤ n' ∧ n' < 100000) → (1 ≤ E.length ∧ E.length < 200000) →
        s = graphText n' E → n' = n ∧ (E.length : Int) = m ∧ r = edgeLines E := by
      intro n' E hn' hE hs'
      have e1 : Stream.integerBounded cfg 1 100000 s = .ok (n, ' ' :: (decimal m ++ '\n' :: r)) :=
        ((hN s).1 _ _).2 ⟨hsr, hdel _ hblank _, by omega, by omega, by omega⟩
      have e2 : Stream.integerBounded cfg 1 100000 s = .ok (n', ' ' :: (decimal (E.length : Int) ++ '\n' :: edgeLines E)) :=
        ((hN s).1 _ _).2 ⟨htext n' E hs', hdel _ hblank _, by omega, by omega, by omega⟩
      rw [e1] at e2
      obtain ⟨rfl, e3⟩ := Prod.mk.inj (Except.ok.inj e2)
      have e3 := (List.cons.inj e3).2
      have f1 : Stream.integerBounded cfg 1 200000 (decimal m ++ '\n' :: r) = .ok (m, '\n' :: r) :=
        ((hM _).1 _ _).2 ⟨rfl, hdel _ hline _, by omega, by omega, by omega⟩
      have f2 : Stream.integerBounded cfg 1 200000 (decimal m ++ '\n' :: r) = .ok ((E.length : Int), '\n' :: edgeLines E) :=
        ((hM _).1 _ _).2 ⟨e3, hdel _ hline _, by omega, by omega, by omega⟩
      rw [f1] at f2
      obtain ⟨h1, h2⟩ := Prod.mk.inj (Except.ok.inj f2)
      exact ⟨rfl, h1.symm, (List.cons.inj h2).2⟩
    obtain ⟨g, hg, hmain⟩ := hrun n m r hn hm hsr
    rw [hmain]
    rcases readEdges_ok hs n (by omega) hn.2 m.toNat [] g r (.new hg) (by simp; omega) with
      ⟨E, g', rest, hE, hv, hr, hre, hrd⟩ | ⟨hf, hno⟩
    · rw [hrd, ok_bind]
      simp only []
      rw [List.nil_append] at hre
      rcases rest with _ | ⟨c, rest⟩
      · rw [(eof_strict hs _ _).2 ⟨rfl, rfl⟩, ok_bind]
        rw [List.append_nil] at hr
        have hiff : TreeFile s ↔ Forest E ∧ Connected 1 (n + 1) E := by
          constructor
          · rintro ⟨n', E', h1, h2, h3, h4, h5, h6, h7, h8⟩
            obtain ⟨rfl, h9, h10⟩ := hdet n' E' ⟨h1, h2⟩ ⟨h3, h4⟩ h8
            have hEE : E' = E := (edgeLines_inj hs hn.2 E' E [] (by omega) (by rw [← h10, hr, List.append_nil]) h5 hv).1
            rw [← hEE]; exact ⟨h6, h7⟩
          · rintro ⟨h6, h7⟩
            refine ⟨n, E, hn.1, hn.2, by omega, by omega, hv, h6, h7, ?_⟩
            rw [hsr, hr]
            unfold graphText
            rw [show (E.length : Int) = m by omega]
            simp
        rw [hiff]
        exact judge_eq hre
      · have he : Stream.eof cfg (c :: rest) = .error (.exit 43) := by
          unfold Stream.eof; rw [hs, ← hw]; rfl
        rw [he]
        refine ⟨?_, fun _ => rfl⟩
        rintro ⟨n', E', h1, h2, h3, h4, h5, h6, h7, h8⟩
        exfalso
        obtain ⟨rfl, h9, h10⟩ := hdet n' E' ⟨h1, h2⟩ ⟨h3, h4⟩ h8
        have := (edgeLines_inj hs hn.2 E' E (c :: rest) (by omega) (by rw [← h10, hr]) h5 hv).2
        simp at this
    · rw [hf, hw]
      refine ⟨?_, fun _ => rfl⟩
      rintro ⟨n', E', h1, h2, h3, h4, h5, h6, h7, h8⟩
      obtain ⟨rfl, h9, h10⟩ := hdet n' E' ⟨h1, h2⟩ ⟨h3, h4⟩ h8
      exact absurd ⟨E', [], by omega, h5, by simp [h10]⟩ hno
  · constructor
    · rintro ⟨n, E, h1, h2, h3, h4, -, -, -, h8⟩
      exact absurd ⟨n, E.length, edgeLines E, ⟨h1, h2⟩, by omega, htext n E h8⟩ hex
    · intro _
      rw [← hw]
      unfold GraphIO.main
      rcases integer_ok (cfg := cfg) (l := 1) (u := 100000) (s := s) with ⟨⟨n, s1⟩, e1⟩ | e1
      · rw [e1, ok_bind]
        simp only []
        obtain ⟨h1, h2, h3, h4, h5⟩ := ((hN s).1 _ _).1 e1
        rcases space_okOrFail cfg s1 with ⟨s2, e2⟩ | e2
        · rw [e2, ok_bind]
          rw [space_strict hs] at e2
          rcases integer_ok (cfg := cfg) (l := 1) (u := 200000) (s := s2) with ⟨⟨m, s3⟩, e3⟩ | e3
          · rw [e3, ok_bind]
            simp only []
            obtain ⟨g1, g2, g3, g4, g5⟩ := ((hM s2).1 _ _).1 e3
            rcases newline_okOrFail cfg s3 with ⟨s4, e4⟩ | e4
            · rw [newline_strict hs] at e4
              exact absurd ⟨n, m, s4, by omega, by omega, by rw [h1, e2, g1, e4]⟩ hex
            · rw [e4]; rfl
          · rw [e3]; rfl
        · rw [e2]; rfl
      · rw [e1]; rfl

/-! ## From the generator to the validator -/

/-- A connected graph with one edge less than vertices has no cycle. -/
private theorem reached_count {l r : Int} {E : List (Int × Int)} {g : Graph} (h : Graph.Reached l r E g) :
    r - l ≤ g.components + E.length ∧ (g.forest = false → r - l + 1 ≤ g.components + E.length) := by
  induction h with
  | @new g hg =>
    unfold Graph.new at hg
    simp only [bind_ok] at hg
    obtain ⟨base, -, m, -, hg⟩ := hg
    obtain rfl := Except.ok.inj hg
    simp
  | @add E g g' a b h hadd ih =>
    unfold Graph.addEdge at hadd
    simp only [bind_ok] at hadd
    obtain ⟨base, -, j, -, i, -, ⟨joined, uf⟩, -, ⟨-, buf⟩, -, ⟨-, buf'⟩, -, ⟨c, buf''⟩, -, hadd⟩ := hadd
    obtain rfl := Except.ok.inj hadd
    rw [List.length_append, List.length_singleton]
    push_cast
    cases joined
    · simp; omega
    · simp only [if_true]
      refine ⟨by omega, fun hf => ?_⟩
      have := ih.2 hf
      omega
  | @query E g g' a b c h hq ih =>
    unfold Graph.areConnected at hq
    simp only [bind_ok] at hq
    obtain ⟨i, -, j, -, ⟨c', uf⟩, -, hq⟩ := hq
    obtain ⟨-, rfl⟩ := Prod.mk.inj (Except.ok.inj hq)
    exact ih

section
open ICPC.Gen Spec.EdgeMap Spec.Tree ICPC.Gen.Tree
attribute [local irreducible] SatOk

/-- **C78.** Every tree made by `randomTree`, renumbered to start with 1 and written to a file, is accepted by the example
validator. -/
theorem C78_randomTree (cfg : StreamCfg) (hs : cfg.spaceSensitive = true) (hw : cfg.onFail = 43) (n : Nat) (h2 : 2 ≤ n)
    (hn : n < 100000) :
    SatOk (randomTree (n : Int) : Rand (Gen.Graph Unit)) fun g => ∃ g', g.setMinId 1 = .ok g' ∧
      GraphIO.main cfg (writeGraph none g' ++ ['\n']) = .error (.exit 42) := by
  refine SatOk.mono (randomTree_sat (by unfold I64; omega) (by omega)) ?_
  rintro g ⟨S, hS, hg⟩
  obtain ⟨g', hg', hgood, hlen⟩ := hg.setMinId 1 (by unfold I64; omega) (by unfold I64; omega)
  refine ⟨g', hg', (C78_validator cfg hs hw _).1 ?_⟩
  have hcard := hg.edgeCount_card S (tree_sub hS)
  have hcount := hS.count
  rw [verts_card] at hcount
  have hA := hgood.agrees
  have hElen : (g'.getEdges.map fun e => (e.src, e.dst)).length + 1 = n := by
    have : g.edgeCount = (g.edges.length : Int) := rfl
    simp only [Gen.Graph.getEdges, List.length_map]
    omega
  set E := g'.getEdges.map fun e => (e.src, e.dst) with hE
  have hrange : ∀ e ∈ E, (1 ≤ e.1 ∧ e.1 ≤ (n : Int)) ∧ 1 ≤ e.2 ∧ e.2 ≤ (n : Int) := by
    intro e he
    rw [hE, List.mem_map] at he
    obtain ⟨e', he', rfl⟩ := he
    obtain ⟨h1, h2, -⟩ := hA.sound e' he'
    unfold In at h1 h2
    exact ⟨⟨h1.1, by omega⟩, h2.1, by omega⟩
  have hadj : ∀ u v : Int, Adj S u v → Joined E (u + 1) (v + 1) := by
    intro u v huv
    have hm : shift (ofRel false fun u v => (u, v) ∈ S) (1 - 0) (u + 1) (v + 1) = some () := by
      simp only [shift, ofRel]
      rw [show u + 1 - (1 - 0) = u by omega, show v + 1 - (1 - 0) = v by omega]
      have : (u, v) ∈ S ∨ (True ∧ (v, u) ∈ S) := by
        rcases huv with h | h
        · exact Or.inl h
        · exact Or.inr ⟨trivial, h⟩
      rw [if_pos this]
    obtain ⟨i, ⟨e, he, hsame⟩, -⟩ := hA.once _ _ _ hm
    have hmem : (e.src, e.dst) ∈ E := by
      rw [hE, List.mem_map]; exact ⟨e, List.mem_of_getElem? he, rfl⟩
    rcases hsame with ⟨h1, h2⟩ | ⟨-, h1, h2⟩
    · rw [h1, h2] at hmem; exact joined_edge hmem
    · rw [h1, h2] at hmem; exact joined_symm (joined_edge hmem)
  have hconn : Connected 1 (n + 1) E := by
    intro a b ha1 ha2 hb1 hb2
    have hpath := hS.connected (a - 1) (by simp [verts]; omega) (b - 1) (by simp [verts]; omega)
    have hall : ∀ x y : Int, Relation.ReflTransGen (Adj S) x y → Joined E (x + 1) (y + 1) := by
      intro x y h
      induction h with
      | refl => exact joined_refl _ _
      | tail _ h ih => exact joined_trans ih (hadj _ _ h)
    simpa using hall _ _ hpath
  have hforest : Forest E := by
    -- the validator itself counts
    obtain ⟨⟨v0, hv0⟩, htot⟩ := C42_total 1 (n + 1) (by omega) (by omega)
    have hbuild : ∀ (B A : List (Int × Int)) (v : ICPC.Graph), Graph.Reached 1 (n + 1) A v → (∀ e ∈ B, e ∈ E) →
        A.length + B.length < 2 ^ 62 → ∃ v', Graph.Reached 1 (n + 1) (A ++ B) v' := by
      intro B
      induction B with
      | nil => intro A v h _ _; exact ⟨v, by rwa [List.append_nil]⟩
      | cons e B ih =>
        intro A v h hB hl
        have he := hrange e (hB e (by simp))
        rw [List.length_cons] at hl
        obtain ⟨v', hv'⟩ := htot A v e.1 e.2 h (by omega) (by omega) (by omega)
        obtain ⟨w, hw⟩ := ih (A ++ [e]) v' (.add h hv') (fun x hx => hB x (by simp [hx])) (by simp; omega)
        exact ⟨w, by rwa [List.append_assoc] at hw⟩
    obtain ⟨v, hv⟩ := hbuild E [] v0 (.new hv0) (fun _ h => h) (by simp; omega)
    rw [List.nil_append] at hv
    have hc := (C42_isConnected hv).2 hconn
    rw [ICPC.Graph.isConnected, decide_eq_true_eq] at hc
    rw [← C43_isForest hv, ICPC.Graph.isForest]
    by_contra hf
    have := (reached_count hv).2 (by simpa using hf)
    omega
  refine ⟨n, E, by omega, by omega, by omega, by omega, hrange, hforest, hconn, ?_⟩
  rw [C78_text, hA.nodeCount]

end

/-- A file with a tree, one with a cycle, one with a leading zero, one without the last line break, and one with a
vertex too much. -/
example : GraphIO.main strictCfg "3 2\n1 3\n3 2\n".toList = .error (.exit 42) ∧
    GraphIO.main strictCfg "3 3\n1 3\n3 2\n2 1\n".toList = .error (.exit 43) ∧
    GraphIO.main strictCfg "3 2\n1 3\n03 2\n".toList = .error (.exit 43) ∧
    GraphIO.main strictCfg "3 2\n1 3\n3 2".toList = .error (.exit 43) ∧
    GraphIO.main strictCfg "3 2\n1 4\n3 2\n".toList = .error (.exit 43) := by
  decide +kernel

/-- A graph with weights. -/
example : ((do
    let g ← (Gen.Graph.new false 5 8 : Out (Gen.Graph Int))
    let g ← g.add 5 7 (-4)
    let g ← g.add 6 5 12
    .ok (writeGraph (some .int) g) : Out (List Char)) : Out (List Char)) = .ok "3 2\n5 7 -4\n6 5 12".toList := by
  decide +kernel

end ICPC.Props
