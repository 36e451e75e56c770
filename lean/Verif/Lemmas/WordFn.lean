import Verif.Model.WordFn
import Verif.Spec.WordFn
import Verif.Props.Engine
import Mathlib.Topology.Algebra.InfiniteSum.ENNReal

/-!
# The words after a call are independent of its result
-/

namespace ICPC.Calls

open MeasureTheory Spec Engine Props

variable {α β : Type}

/-- The words after the first `n` ones. -/
def shift (n : ℕ) (ω : ℕ → ℕ) : ℕ → ℕ := fun k => ω (n + k)

/-- The sequences that start with `pre`. -/
def Starts (pre : List ℕ) : Set (ℕ → ℕ) := {ω | (List.range pre.length).map ω = pre}

theorem measurable_shift (n : ℕ) : Measurable (shift n) := measurable_pi_lambda _ fun _ => measurable_pi_apply _

theorem measurable_starts (pre : List ℕ) : MeasurableSet (Starts pre) := by
  have e : Starts pre = {ω | ∃ n, n = pre.length ∧ (List.range n).map ω = pre} := by
    ext ω; simp [Starts]
  rw [e]
  exact measurable_prefix fun n ws => n = pre.length ∧ ws = pre

theorem measurable_yields (f : List ℕ → Option (α × List ℕ)) (Q : α → Prop) : MeasurableSet (Yields f Q) :=
  measurable_prefix fun _ ws => ∃ a rest, f ws = some (a, rest) ∧ Q a

theorem starts_cons (w : ℕ) (pre : List ℕ) (v : ℕ) (ω : ℕ → ℕ) : cons (v, ω) ∈ Starts (w :: pre) ↔ v = w ∧ ω ∈ Starts pre := by
  unfold Starts
  simp only [Set.mem_ofPred_eq, List.length_cons, map_range_cons, List.cons.injEq]

theorem shift_cons (n v : ℕ) (ω : ℕ → ℕ) : shift (n + 1) (cons (v, ω)) = shift n ω := by
  funext k
  show cons (v, ω) (n + 1 + k) = ω (n + k)
  rw [show n + 1 + k = (n + k) + 1 by omega]
  rfl

/-- The words after the first ones are independent of the first ones. -/
theorem words_split {N : ℕ} (hN : 0 < N) {B : Set (ℕ → ℕ)} (hB : MeasurableSet B) : ∀ pre : List ℕ,
    (words N).real (Starts pre ∩ shift pre.length ⁻¹' B) = (words N).real (Starts pre) * (words N).real B := by
  have := uniformBelow_isProb hN
  have : IsProbabilityMeasure (words N) := by unfold words; infer_instance
  intro pre
  induction pre with
  | nil =>
    have e : Starts [] = Set.univ := by ext ω; simp [Starts]
    have e2 : shift ([] : List ℕ).length = id := by
      funext ω k
      show ω (0 + k) = ω k
      rw [Nat.zero_add]
    rw [e, e2, Set.univ_inter, probReal_univ, one_mul, Set.preimage_id]
  | cons w pre ih =>
    rw [words_first hN ((measurable_starts _).inter (measurable_shift _ hB)), words_first hN (measurable_starts (w :: pre)), div_mul_eq_mul_div,
      Finset.sum_mul]
    congr 1
    refine Finset.sum_congr rfl fun v _ => ?_
    by_cases hv : v = w
    · have e1 : {ω | cons (v, ω) ∈ Starts (w :: pre) ∩ shift (w :: pre).length ⁻¹' B} = Starts pre ∩ shift pre.length ⁻¹' B := by
        ext ω
        rw [Set.mem_ofPred_eq, Set.mem_inter_iff, Set.mem_inter_iff, starts_cons, Set.mem_preimage, Set.mem_preimage, List.length_cons, shift_cons]
        simp [hv]
      have e2 : {ω | cons (v, ω) ∈ Starts (w :: pre)} = Starts pre := by
        ext ω
        rw [Set.mem_ofPred_eq, starts_cons]
        simp [hv]
      rw [e1, e2, ih]
    · have e1 : {ω | cons (v, ω) ∈ Starts (w :: pre) ∩ shift (w :: pre).length ⁻¹' B} = ∅ := by
        ext ω
        rw [Set.mem_ofPred_eq, Set.mem_inter_iff, starts_cons]
        simp [hv]
      have e2 : {ω | cons (v, ω) ∈ Starts (w :: pre)} = ∅ := by
        ext ω
        rw [Set.mem_ofPred_eq, starts_cons]
        simp [hv]
      rw [e1, e2, measureReal_empty, zero_mul]

theorem engine_split {B : Set (ℕ → ℕ)} (hB : MeasurableSet B) (pre : List ℕ) :
    engine (Starts pre ∩ shift pre.length ⁻¹' B) = engine (Starts pre) * engine B := by
  have := uniformBelow_isProb (Nat.two_pow_pos 64)
  have : IsProbabilityMeasure engine := by unfold engine; infer_instance
  have h := words_split (Nat.two_pow_pos 64) hB pre
  rw [show words (2 ^ 64) = engine from rfl] at h
  unfold Measure.real at h
  rw [← ENNReal.toReal_mul] at h
  exact (ENNReal.toReal_eq_toReal_iff' (measure_ne_top _ _) (ENNReal.mul_ne_top (measure_ne_top _ _) (measure_ne_top _ _))).1 h

theorem prefix_length (n : ℕ) (ω : ℕ → ℕ) : ((List.range n).map ω).length = n := by simp

theorem map_range_add (n m : ℕ) (ω : ℕ → ℕ) : (List.range (n + m)).map ω = (List.range n).map ω ++ (List.range m).map (shift n ω) := by
  rw [List.range_add, List.map_append, List.map_map]
  rfl

theorem starts_of_prefix {ω : ℕ → ℕ} {n : ℕ} {pre rest : List ℕ} (h : (List.range n).map ω = pre ++ rest) : ω ∈ Starts pre ∧
    rest = (List.range (n - pre.length)).map (shift pre.length ω) := by
  have hl : n = pre.length + (n - pre.length) := by
    have := congrArg List.length h
    rw [prefix_length, List.length_append] at this
    omega
  rw [hl, map_range_add] at h
  have := List.append_inj h (prefix_length _ _)
  exact ⟨this.1, this.2.symm⟩

/-- Sequences on which `f` takes exactly the words `pre` are those that start with `pre`. -/
theorem starts_disjoint {f : List ℕ → Option (α × List ℕ)} (hf : Sequential f) {p q : List ℕ} {a b : α} (hp : f p = some (a, [])) (hq : f q = some (b, []))
    {ω : ℕ → ℕ} (h1 : ω ∈ Starts p) (h2 : ω ∈ Starts q) : p = q := by
  have key : ∀ {p q : List ℕ} {a b : α}, f p = some (a, []) → f q = some (b, []) → ω ∈ Starts p → ω ∈ Starts q → p.length ≤ q.length → p = q := by
    intro p q a b hp hq h1 h2 hl
    obtain ⟨d, hd⟩ := Nat.exists_eq_add_of_le hl
    have e : q = p ++ (List.range d).map (shift p.length ω) := by
      rw [← show (List.range q.length).map ω = q from h2, hd, map_range_add, show (List.range p.length).map ω = p from h1]
    have := hf.more ((List.range d).map (shift p.length ω)) hp
    rw [← e, hq] at this
    simp only [Option.some.injEq, Prod.mk.injEq, List.nil_append] at this
    rw [e, ← this.2, List.append_nil]
  rcases Nat.le_total p.length q.length with h | h
  · exact key hp hq h1 h2 h
  · exact (key hq hp h2 h1 h).symm

open Classical in
/-- The event that `f` and then `g` yield `Q`, by the words that `f` takes. -/
theorem yields_andThen {f : WordFn α} (hf : Sequential f) (g : α → WordFn β) (Q : β → Prop) :
    engine (Yields (f.andThen g) Q) = ∑' a, ∑' pre : List ℕ, if f pre = some (a, []) then engine (Starts pre) * engine (Yields (g a) Q) else 0 := by
  have e : Yields (f.andThen g) Q = ⋃ pre : List ℕ, {ω | ∃ a, f pre = some (a, []) ∧ ω ∈ Starts pre ∩ shift pre.length ⁻¹' Yields (g a) Q} := by
    ext ω
    rw [Set.mem_iUnion]
    constructor
    · rintro ⟨n, b, rest, h, hQ⟩
      unfold WordFn.andThen at h
      cases hx : f ((List.range n).map ω) with
      | none => rw [hx] at h; cases h
      | some p =>
        obtain ⟨a, r⟩ := p
        rw [hx] at h
        obtain ⟨pre, h1, h2⟩ := hf.taken hx
        obtain ⟨h3, h4⟩ := starts_of_prefix h1
        refine ⟨pre, a, h2, h3, n - pre.length, b, rest, ?_, hQ⟩
        rw [← h4]
        exact h
    · rintro ⟨pre, a, h1, h2, m, b, rest, h3, hQ⟩
      refine ⟨pre.length + m, b, rest, ?_, hQ⟩
      unfold WordFn.andThen
      rw [map_range_add, show (List.range pre.length).map ω = pre from h2, hf.more _ h1]
      exact h3
  have hset : ∀ pre : List ℕ, {ω | ∃ a, f pre = some (a, []) ∧ ω ∈ Starts pre ∩ shift pre.length ⁻¹' Yields (g a) Q} =
      match f pre with
      | some (a, []) => Starts pre ∩ shift pre.length ⁻¹' Yields (g a) Q
      | _ => ∅ := by
    intro pre
    ext ω
    rcases h : f pre with _ | ⟨a, _ | ⟨w, r⟩⟩ <;> simp
  rw [e, measure_iUnion]
  · rw [ENNReal.tsum_comm]
    refine tsum_congr fun pre => ?_
    rw [hset]
    rcases h : f pre with _ | ⟨a, _ | ⟨w, r⟩⟩
    · simp
    · rw [tsum_eq_single a]
      · simp only [if_true]
        exact engine_split (measurable_yields _ _) pre
      · intro b hb
        rw [if_neg]
        intro h
        simp only [Option.some.injEq, Prod.mk.injEq, and_true] at h
        exact hb h.symm
    · simp
  · intro p q hpq
    rw [Function.onFun, Set.disjoint_left]
    rintro ω ⟨a, h1, h2⟩ ⟨b, h3, h4⟩
    exact hpq (starts_disjoint hf h1 h3 h2.1 h4.1)
  · intro pre
    rw [hset]
    rcases h : f pre with _ | ⟨a, _ | ⟨w, r⟩⟩
    · exact .empty
    · exact (measurable_starts _).inter (measurable_shift _ (measurable_yields _ _))
    · exact .empty

theorem yields_pure (a : α) (Q : α → Prop) [Decidable (Q a)] : engine (Yields (fun ws => some (a, ws)) Q) = if Q a then 1 else 0 := by
  have := uniformBelow_isProb (Nat.two_pow_pos 64)
  have : IsProbabilityMeasure engine := by unfold engine; infer_instance
  by_cases h : Q a
  · rw [if_pos h, show Yields (fun ws => some (a, ws)) Q = Set.univ from Set.eq_univ_of_forall fun ω => ⟨0, a, _, rfl, h⟩, measure_univ]
  · rw [if_neg h, show Yields (fun ws => some (a, ws)) Q = ∅ from ?_, measure_empty]
    ext ω
    simp only [Set.mem_empty_iff_false, iff_false]
    rintro ⟨n, b, rest, h1, h2⟩
    simp only [Option.some.injEq, Prod.mk.injEq] at h1
    exact h (h1.1 ▸ h2)

open Classical in
theorem yields_eq {f : WordFn α} (hf : Sequential f) (Q : α → Prop) :
    engine (Yields f Q) = ∑' a, ∑' pre : List ℕ, if f pre = some (a, []) then engine (Starts pre) * (if Q a then 1 else 0) else 0 := by
  have := yields_andThen hf (fun a ws => some (a, ws)) Q
  have e : f.andThen (fun a ws => some (a, ws)) = f := by
    funext ws
    unfold WordFn.andThen
    rcases f ws with _ | ⟨a, r⟩ <;> rfl
  rw [e] at this
  rw [this]
  refine tsum_congr fun a => tsum_congr fun pre => ?_
  rw [yields_pure]

open Classical in
theorem yields_value {f : WordFn α} (hf : Sequential f) (a : α) :
    engine (Yields f (· = a)) = ∑' pre : List ℕ, if f pre = some (a, []) then engine (Starts pre) else 0 := by
  rw [yields_eq hf, tsum_eq_single a]
  · refine tsum_congr fun pre => ?_
    simp
  · intro b hb
    rw [ENNReal.tsum_eq_zero]
    intro pre
    rw [if_neg hb, mul_zero, ite_self]

/-- **Strong Markov property**: the probability of a sequence of calls. -/
theorem chance_andThen {f : WordFn α} (hf : Sequential f) (g : α → WordFn β) (Q : β → Prop) :
    engine (Yields (f.andThen g) Q) = ∑' a, engine (Yields f (· = a)) * engine (Yields (g a) Q) := by
  classical
  rw [yields_andThen hf]
  refine tsum_congr fun a => ?_
  rw [yields_value hf, ← ENNReal.tsum_mul_right]
  refine tsum_congr fun pre => ?_
  split <;> simp

theorem chance_sum {f : WordFn α} (hf : Sequential f) (Q : α → Prop) [DecidablePred Q] :
    engine (Yields f Q) = ∑' a, engine (Yields f (· = a)) * if Q a then 1 else 0 := by
  classical
  rw [yields_eq hf]
  refine tsum_congr fun a => ?_
  rw [yields_value hf, ← ENNReal.tsum_mul_right]
  refine tsum_congr fun pre => ?_
  split <;> simp

/-! ### Functions that are sequential -/

theorem seq_pure (a : α) : Sequential fun ws => some (a, ws) where
  more t h := by
    simp only [Option.some.injEq, Prod.mk.injEq] at h ⊢
    exact ⟨h.1, by rw [h.2]⟩
  taken h := by
    simp only [Option.some.injEq, Prod.mk.injEq] at h
    exact ⟨[], by simp [h.2], by simp [h.1]⟩

theorem seq_andThen {f : WordFn α} (hf : Sequential f) {g : α → WordFn β} (hg : ∀ a, Sequential (g a)) : Sequential (f.andThen g) where
  more {ws rest b} t h := by
    unfold WordFn.andThen at h ⊢
    cases hx : f ws with
    | none => rw [hx] at h; cases h
    | some p =>
      rw [hx] at h
      rw [hf.more t hx]
      exact (hg _).more t h
  taken {ws rest b} h := by
    unfold WordFn.andThen at h ⊢
    cases hx : f ws with
    | none => rw [hx] at h; cases h
    | some p =>
      rw [hx] at h
      obtain ⟨p1, h1, h2⟩ := hf.taken hx
      obtain ⟨p2, h3, h4⟩ := (hg _).taken h
      refine ⟨p1 ++ p2, by rw [h1, h3, List.append_assoc], ?_⟩
      rw [hf.more p2 h2]
      exact h4

theorem seq_bindOut {f : WordFn (Out α)} (hf : Sequential f) {g : α → WordFn (Out β)} (hg : ∀ a, Sequential (g a)) : Sequential (f.bindOut g) :=
  seq_andThen hf fun o => match o with
    | .error _ => seq_pure _
    | .ok a => hg a

theorem rejectLoop_taken (s m : ℕ) : ∀ (ws : List ℕ) (x v : ℕ) (rest : List ℕ), rejectLoop s m x ws = some (v, rest) →
    ∃ pre, ws = pre ++ rest ∧ rejectLoop s m x pre = some (v, []) := by
  intro ws
  induction ws with
  | nil =>
    intro x v rest h
    unfold rejectLoop at h
    split at h
    · cases h
    · next hc =>
      simp only [Option.some.injEq, Prod.mk.injEq] at h
      refine ⟨[], by simp [h.2], ?_⟩
      unfold rejectLoop
      rw [if_neg hc, h.1]
  | cons y ws ih =>
    intro x v rest h
    unfold rejectLoop at h
    split at h
    · next hc =>
      obtain ⟨pre, h1, h2⟩ := ih y v rest h
      refine ⟨y :: pre, by rw [h1]; rfl, ?_⟩
      unfold rejectLoop
      rw [if_pos hc]
      exact h2
    · next hc =>
      simp only [Option.some.injEq, Prod.mk.injEq] at h
      refine ⟨[], by simp [h.2], ?_⟩
      unfold rejectLoop
      rw [if_neg hc, h.1]

theorem seq_integer (i128 : Bool) (l u : Int) : Sequential (integerWords i128 l u) where
  more t h := integerWords_append i128 h
  taken {ws rest o} h := by
    unfold integerWords at h ⊢
    split at h
    · next hlu =>
      simp only [if_pos hlu]
      rw [Option.map_eq_some_iff] at h
      obtain ⟨⟨v, r⟩, hp, e⟩ := h
      simp only [Prod.mk.injEq] at e
      obtain ⟨e1, rfl⟩ := e
      cases ws with
      | nil => cases hp
      | cons x ws =>
        rw [acceptWord] at hp
        split at hp
        · next hc =>
          obtain ⟨pre, h1, h2⟩ := rejectLoop_taken _ _ ws x v r hp
          refine ⟨x :: pre, by rw [h1]; rfl, ?_⟩
          rw [acceptWord, if_pos hc, h2, ← e1]
          rfl
        · next hc =>
          simp only [Option.some.injEq, Prod.mk.injEq] at hp
          refine ⟨[x], by rw [hp.2]; rfl, ?_⟩
          rw [acceptWord, if_neg hc, ← e1, hp.1]
          rfl
    · next hlu =>
      simp only [Option.some.injEq, Prod.mk.injEq] at h
      refine ⟨[], by simp [h.2], ?_⟩
      rw [if_neg hlu, h.1]

theorem seq_run (i128 : Bool) (r : Rand α) : Sequential (r.run i128) where
  more t h := engine_run_append i128 h
  taken := by
    induction r with
    | done o =>
      intro ws rest a h
      rw [Rand.run] at h
      simp only [Option.some.injEq, Prod.mk.injEq] at h
      exact ⟨[], by simp [h.2], by rw [Rand.run, h.1]⟩
    | draw l u k ih =>
      intro ws rest a h
      rw [Rand.run] at h
      rcases e : integerWords i128 l u ws with _ | ⟨v | v, ws'⟩
      · rw [e] at h; cases h
      · rw [e] at h
        dsimp only at h
        simp only [Option.some.injEq, Prod.mk.injEq] at h
        obtain ⟨pre, h1, h2⟩ := (seq_integer i128 l u).taken e
        refine ⟨pre, by rw [h1, h.2], ?_⟩
        rw [Rand.run, h2]
        dsimp only
        rw [h.1]
      · rw [e] at h
        dsimp only at h
        obtain ⟨pre, h1, h2⟩ := (seq_integer i128 l u).taken e
        obtain ⟨p2, h3, h4⟩ := ih v h
        refine ⟨pre ++ p2, by rw [h1, h3, List.append_assoc], ?_⟩
        rw [Rand.run, (seq_integer i128 l u).more p2 h2]
        exact h4
    | coin k ih =>
      intro ws rest a h
      cases ws with
      | nil => rw [Rand.run] at h; cases h
      | cons w ws =>
        rw [Rand.run] at h
        obtain ⟨pre, h1, h2⟩ := ih _ h
        exact ⟨w :: pre, by rw [h1]; rfl, by rw [Rand.run]; exact h2⟩

theorem exponentLoop_taken : ∀ (ws : List ℕ) (e : ℕ) (rest : List ℕ), exponentLoop ws = some (e, rest) →
    ∃ pre, ws = pre ++ rest ∧ ∀ t, exponentLoop (pre ++ t) = some (e, t) := by
  intro ws
  induction ws with
  | nil => intro e rest h; cases h
  | cons x ws ih =>
    intro e rest h
    rw [exponentLoop] at h
    split at h
    · next hc =>
      rw [Option.map_eq_some_iff] at h
      obtain ⟨⟨e', r⟩, h1, h2⟩ := h
      simp only [Prod.mk.injEq] at h2
      obtain ⟨pre, h3, h4⟩ := ih e' r h1
      refine ⟨x :: pre, by rw [h3, h2.2]; rfl, fun t => ?_⟩
      rw [List.cons_append, exponentLoop, if_pos hc, h4, ← h2.1]
      rfl
    · next hc =>
      simp only [Option.some.injEq, Prod.mk.injEq] at h
      refine ⟨[x], by rw [h.2]; rfl, fun t => ?_⟩
      rw [List.singleton_append, exponentLoop, if_neg hc, h.1]

theorem realWords_taken (ws : List ℕ) (x : ℚ) (rest : List ℕ) (h : realWords ws = some (x, rest)) :
    ∃ pre, pre ≠ [] ∧ ws = pre ++ rest ∧ ∀ t, realWords (pre ++ t) = some (x, t) := by
  cases ws with
  | nil => cases h
  | cons w ws =>
    rw [realWords, Option.map_eq_some_iff] at h
    obtain ⟨⟨e, r⟩, h1, h2⟩ := h
    simp only [Prod.mk.injEq] at h2
    obtain ⟨pre, h3, h4⟩ := exponentLoop_taken ws e r h1
    refine ⟨w :: pre, List.cons_ne_nil _ _, by rw [h3, h2.2]; rfl, fun t => ?_⟩
    rw [List.cons_append, realWords, h4, ← h2.1]
    rfl

theorem seq_of_taken {f : WordFn α} (h : ∀ ws a rest, f ws = some (a, rest) → ∃ pre, ws = pre ++ rest ∧ ∀ t, f (pre ++ t) = some (a, t)) :
    Sequential f where
  more {ws rest a} t h1 := by
    obtain ⟨pre, h2, h3⟩ := h ws a rest h1
    rw [h2, List.append_assoc, h3]
  taken {ws rest a} h1 := by
    obtain ⟨pre, h2, h3⟩ := h ws a rest h1
    exact ⟨pre, h2, by have := h3 []; rwa [List.append_nil] at this⟩

theorem seq_realWords : Sequential realWords := seq_of_taken fun ws x rest h => by
  obtain ⟨pre, -, h⟩ := realWords_taken ws x rest h
  exact ⟨pre, h⟩

open Fp

/-- What the loop of `real(lower, upper)` takes; every iteration takes a word. -/
theorem realRangeLoop_taken (F : Format) (lower upper : Flt) : ∀ (fuel : ℕ) (ws : List ℕ) (r : Flt) (rest : List ℕ),
    realRangeLoop F lower upper fuel ws = some (.ok r, rest) →
    ∃ pre, ws = pre ++ rest ∧ ∀ fuel' t, pre.length ≤ fuel' → realRangeLoop F lower upper fuel' (pre ++ t) = some (.ok r, t) := by
  intro fuel
  induction fuel with
  | zero => intro ws r rest h; simp [realRangeLoop] at h
  | succ fuel ih =>
    intro ws r rest h
    unfold realRangeLoop at h
    cases hx : realWords ws with
    | none => rw [hx] at h; cases h
    | some p =>
      obtain ⟨x, ws'⟩ := p
      rw [hx] at h
      dsimp only at h
      obtain ⟨pre, hne, h1, h2⟩ := realWords_taken ws x ws' hx
      have hpos := List.length_pos_iff.2 hne
      split at h
      · next hc =>
        simp only [Option.some.injEq, Prod.mk.injEq, Except.ok.injEq] at h
        refine ⟨pre, by rw [h1, h.2], fun fuel' t hf => ?_⟩
        obtain ⟨f, rfl⟩ := Nat.exists_eq_succ_of_ne_zero (by omega : fuel' ≠ 0)
        unfold realRangeLoop
        rw [h2]
        dsimp only
        rw [if_pos hc, h.1]
      · next hc =>
        obtain ⟨p2, h3, h4⟩ := ih ws' r rest h
        refine ⟨pre ++ p2, by rw [h1, h3, List.append_assoc], fun fuel' t hf => ?_⟩
        rw [List.length_append] at hf
        obtain ⟨f, rfl⟩ := Nat.exists_eq_succ_of_ne_zero (by omega : fuel' ≠ 0)
        unfold realRangeLoop
        rw [List.append_assoc, h2]
        dsimp only
        rw [if_neg hc]
        exact h4 f t (by omega)

theorem realRangeLoop_error (F : Format) (lower upper : Flt) : ∀ (fuel : ℕ) (ws : List ℕ) (e : Stop) (rest : List ℕ),
    realRangeLoop F lower upper fuel ws = some (.error e, rest) → fuel ≤ ws.length := by
  intro fuel
  induction fuel with
  | zero => intro ws e rest h; omega
  | succ fuel ih =>
    intro ws e rest h
    unfold realRangeLoop at h
    cases hx : realWords ws with
    | none => rw [hx] at h; cases h
    | some p =>
      obtain ⟨x, ws'⟩ := p
      rw [hx] at h
      dsimp only at h
      obtain ⟨pre, hne, h1, h2⟩ := realWords_taken ws x ws' hx
      have hpos := List.length_pos_iff.2 hne
      split at h
      · simp at h
      · have := ih ws' e rest h
        rw [h1, List.length_append]
        omega

theorem realRangeCall_ok {F : Format} {lower upper : Flt} {ws rest : List ℕ} {r : Flt} :
    realRangeCall F lower upper ws = some (.ok r, rest) ↔ ∃ fuel, realRange F fuel lower upper ws = some (.ok r, rest) := by
  constructor
  · intro h; exact ⟨_, h⟩
  · rintro ⟨fuel, h⟩
    unfold realRangeCall
    unfold realRange at h ⊢
    split at h
    · simp at h
    · split at h
      · simp at h
      · split at h
        · simp at h
        · next h1 h2 h3 =>
          rw [if_neg h1, if_neg h2, if_neg h3]
          obtain ⟨pre, h4, h5⟩ := realRangeLoop_taken F lower upper fuel ws r rest h
          rw [h4]
          exact h5 _ _ (by rw [List.length_append]; omega)

theorem seq_realRange (F : Format) (lower upper : Flt) : Sequential (realRangeCall F lower upper) := seq_of_taken fun ws o rest h => by
  unfold realRangeCall realRange at h ⊢
  split at h
  · next h1 =>
    simp only [Option.some.injEq, Prod.mk.injEq] at h
    exact ⟨[], by simp [h.2], fun t => by rw [if_pos h1, h.1]; rfl⟩
  · split at h
    · next h1 h2 =>
      simp only [Option.some.injEq, Prod.mk.injEq] at h
      exact ⟨[], by simp [h.2], fun t => by rw [if_neg h1, if_pos h2, h.1]; rfl⟩
    · split at h
      · next h1 h2 h3 =>
        simp only [Option.some.injEq, Prod.mk.injEq] at h
        exact ⟨[], by simp [h.2], fun t => by rw [if_neg h1, if_neg h2, if_pos h3, h.1]; rfl⟩
      · next h1 h2 h3 =>
        cases o with
        | error e =>
          have := realRangeLoop_error F lower upper _ ws e rest h
          omega
        | ok r =>
          obtain ⟨pre, h4, h5⟩ := realRangeLoop_taken F lower upper _ ws r rest h
          refine ⟨pre, h4, fun t => ?_⟩
          rw [if_neg h1, if_neg h2, if_neg h3]
          exact h5 _ t (by rw [List.length_append]; omega)

/-- What the loop of `real(upper)` takes; every iteration takes a word. -/
theorem realUpperLoop_taken (F : Format) (upper : Flt) : ∀ (fuel : ℕ) (ws : List ℕ) (r : Flt) (rest : List ℕ),
    realUpperLoop F upper fuel ws = some (.ok r, rest) →
    ∃ pre, ws = pre ++ rest ∧ ∀ fuel' t, pre.length ≤ fuel' → realUpperLoop F upper fuel' (pre ++ t) = some (.ok r, t) := by
  intro fuel
  induction fuel with
  | zero => intro ws r rest h; simp [realUpperLoop] at h
  | succ fuel ih =>
    intro ws r rest h
    unfold realUpperLoop at h
    cases hx : realWords ws with
    | none => rw [hx] at h; cases h
    | some p =>
      obtain ⟨x, ws'⟩ := p
      rw [hx] at h
      dsimp only at h
      obtain ⟨pre, hne, h1, h2⟩ := realWords_taken ws x ws' hx
      have hpos := List.length_pos_iff.2 hne
      split at h
      · next hc =>
        simp only [Option.some.injEq, Prod.mk.injEq, Except.ok.injEq] at h
        refine ⟨pre, by rw [h1, h.2], fun fuel' t hf => ?_⟩
        obtain ⟨f, rfl⟩ := Nat.exists_eq_succ_of_ne_zero (by omega : fuel' ≠ 0)
        unfold realUpperLoop
        rw [h2]
        dsimp only
        rw [if_pos hc, h.1]
      · next hc =>
        obtain ⟨p2, h3, h4⟩ := ih ws' r rest h
        refine ⟨pre ++ p2, by rw [h1, h3, List.append_assoc], fun fuel' t hf => ?_⟩
        rw [List.length_append] at hf
        obtain ⟨f, rfl⟩ := Nat.exists_eq_succ_of_ne_zero (by omega : fuel' ≠ 0)
        unfold realUpperLoop
        rw [List.append_assoc, h2]
        dsimp only
        rw [if_neg hc]
        exact h4 f t (by omega)

theorem realUpperLoop_error (F : Format) (upper : Flt) : ∀ (fuel : ℕ) (ws : List ℕ) (e : Stop) (rest : List ℕ),
    realUpperLoop F upper fuel ws = some (.error e, rest) → fuel ≤ ws.length := by
  intro fuel
  induction fuel with
  | zero => intro ws e rest h; omega
  | succ fuel ih =>
    intro ws e rest h
    unfold realUpperLoop at h
    cases hx : realWords ws with
    | none => rw [hx] at h; cases h
    | some p =>
      obtain ⟨x, ws'⟩ := p
      rw [hx] at h
      dsimp only at h
      obtain ⟨pre, hne, h1, h2⟩ := realWords_taken ws x ws' hx
      have hpos := List.length_pos_iff.2 hne
      split at h
      · simp at h
      · have := ih ws' e rest h
        rw [h1, List.length_append]
        omega

theorem realUpperCall_ok {F : Format} {upper : Flt} {ws rest : List ℕ} {r : Flt} :
    realUpperCall F upper ws = some (.ok r, rest) ↔ ∃ fuel, realUpper F fuel upper ws = some (.ok r, rest) := by
  constructor
  · intro h; exact ⟨_, h⟩
  · rintro ⟨fuel, h⟩
    unfold realUpperCall
    unfold realUpper at h ⊢
    split at h
    · simp at h
    · split at h
      · simp at h
      · next h1 h2 =>
        rw [if_neg h1, if_neg h2]
        obtain ⟨pre, h4, h5⟩ := realUpperLoop_taken F upper fuel ws r rest h
        rw [h4]
        exact h5 _ _ (by rw [List.length_append]; omega)

theorem seq_realUpper (F : Format) (upper : Flt) : Sequential (realUpperCall F upper) := seq_of_taken fun ws o rest h => by
  unfold realUpperCall realUpper at h ⊢
  split at h
  · next h1 =>
    simp only [Option.some.injEq, Prod.mk.injEq] at h
    exact ⟨[], by simp [h.2], fun t => by rw [if_pos h1, h.1]; rfl⟩
  · split at h
    · next h1 h2 =>
      simp only [Option.some.injEq, Prod.mk.injEq] at h
      exact ⟨[], by simp [h.2], fun t => by rw [if_neg h1, if_pos h2, h.1]; rfl⟩
    · next h1 h2 =>
      cases o with
      | error e =>
        have := realUpperLoop_error F upper _ ws e rest h
        omega
      | ok r =>
        obtain ⟨pre, h4, h5⟩ := realUpperLoop_taken F upper _ ws r rest h
        refine ⟨pre, h4, fun t => ?_⟩
        rw [if_neg h1, if_neg h2]
        exact h5 _ t (by rw [List.length_append]; omega)

theorem seq_degree (F : Format) (p : Flt) (i : Int) : Sequential (degreeCall F p i) :=
  seq_bindOut (seq_realRange _ _ _) fun _ => seq_pure _

theorem seq_growLoop {E : Type} [Inhabited E] (i128 : Bool) (F : Format) (p : Flt) (n : Int) : ∀ (fuel : ℕ) (i : Int) (res : Gen.Graph E),
    Sequential (Gen.growCallLoop i128 F p n fuel i res)
  | 0, _, _ => seq_pure _
  | fuel + 1, i, res => by
    unfold Gen.growCallLoop
    split
    · exact seq_bindOut (seq_degree F p i) fun _ => seq_bindOut (seq_run i128 _) fun _ => seq_growLoop i128 F p n fuel (i + 1) _
    · exact seq_pure _

/-- A random program after another one, on words. -/
theorem run_bind (i128 : Bool) (r : Rand α) (k : α → Rand β) : (r >>= k).run i128 = WordFn.bindOut (r.run i128) fun a => (k a).run i128 := by
  induction r with
  | done o => cases o <;> rfl
  | draw l u f ih =>
    funext ws
    show (Rand.draw l u fun v => (f v) >>= k).run i128 ws = _
    unfold WordFn.bindOut WordFn.andThen
    rw [Rand.run, Rand.run]
    rcases e : integerWords i128 l u ws with _ | ⟨v | v, ws'⟩
    · rfl
    · rfl
    · dsimp only
      rw [ih v]
      rfl
  | coin f ih =>
    funext ws
    show (Rand.coin fun v => (f v) >>= k).run i128 ws = _
    unfold WordFn.bindOut WordFn.andThen
    cases ws with
    | nil => rfl
    | cons w ws =>
      rw [Rand.run, Rand.run, ih]
      rfl

end ICPC.Calls
