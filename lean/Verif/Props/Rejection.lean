import Verif.Spec.Rejection
import Verif.Props.WordFn
import Verif.Props.FloatDist

/-!
# C115: rejection loops sample the conditional distribution
-/

namespace ICPC.Props

open MeasureTheory Spec ICPC.Engine ICPC.Fp ICPC.Spec.Fp ICPC.Calls

variable {α : Type}

open Classical in
/-- At most `k` calls. -/
private noncomputable def tries (f : WordFn α) (A : α → Prop) : ℕ → WordFn α
  | 0 => fun _ => none
  | k + 1 => f.andThen fun a => if A a then fun ws => some (a, ws) else tries f A k

private theorem tries_sound (f : WordFn α) (A : α → Prop) : ∀ (k : ℕ) {ws rest : List ℕ} {a : α}, tries f A k ws = some (a, rest) →
    FirstAccepted f A ws a rest := by
  intro k
  induction k with
  | zero => intro ws rest a h; cases h
  | succ k ih =>
    intro ws rest a h
    unfold tries WordFn.andThen at h
    cases hf : f ws with
    | none => rw [hf] at h; cases h
    | some p =>
      rw [hf] at h
      dsimp only at h
      by_cases hA : A p.1
      · rw [if_pos hA] at h
        simp only [Option.some.injEq, Prod.mk.injEq] at h
        obtain ⟨rfl, rfl⟩ := h
        exact .now hf hA
      · rw [if_neg hA] at h
        exact .later hf hA (ih h)

private theorem tries_complete (f : WordFn α) (A : α → Prop) {ws rest : List ℕ} {a : α} (h : FirstAccepted f A ws a rest) :
    ∃ k, ∀ j, k ≤ j → tries f A j ws = some (a, rest) := by
  induction h with
  | now hf hA =>
    refine ⟨1, fun j hj => ?_⟩
    obtain ⟨j, rfl⟩ : ∃ i, j = i + 1 := ⟨j - 1, by omega⟩
    simp only [tries, WordFn.andThen, hf, if_pos hA]
  | later hf hA _ ih =>
    obtain ⟨k, hk⟩ := ih
    refine ⟨k + 1, fun j hj => ?_⟩
    obtain ⟨j, rfl⟩ : ∃ i, j = i + 1 := ⟨j - 1, by omega⟩
    simp only [tries, WordFn.andThen, hf, if_neg hA]
    exact hk j (by omega)

private theorem tries_mono (f : WordFn α) (A : α → Prop) : ∀ (k : ℕ) {ws rest : List ℕ} {a : α}, tries f A k ws = some (a, rest) →
    tries f A (k + 1) ws = some (a, rest) := by
  intro k
  induction k with
  | zero => intro ws rest a h; cases h
  | succ k ih =>
    intro ws rest a h
    rw [tries, WordFn.andThen] at h ⊢
    cases hf : f ws with
    | none => rw [hf] at h; cases h
    | some p =>
      rw [hf] at h
      dsimp only at h ⊢
      by_cases hA : A p.1
      · rw [if_pos hA] at h ⊢; exact h
      · rw [if_neg hA] at h ⊢; exact ih h

open Classical in
private theorem chance_step {f : WordFn α} (hf : Sequential f) (A Q : α → Prop) (k : ℕ) :
    engine (Yields (tries f A (k + 1)) Q) = engine (Yields f fun a => A a ∧ Q a) + engine (Yields f fun a => ¬ A a) * engine (Yields (tries f A k) Q) := by
  rw [tries, chance_andThen hf, chance_sum hf fun a => A a ∧ Q a, chance_sum hf fun a => ¬ A a, ← ENNReal.tsum_mul_right, ← ENNReal.tsum_add]
  refine tsum_congr fun a => ?_
  by_cases hA : A a
  · rw [if_pos hA, yields_pure]
    simp [hA]
  · rw [if_neg hA]
    simp [hA]

/-- **C115**: a loop that calls `f` until the value satisfies `A` returns a value with `Q` with the conditional probability of `Q`, given
`A`. -/
theorem C115_conditional {f : List ℕ → Option (α × List ℕ)} (hf : Sequential f) (A Q : α → Prop)
    (hend : engine (Yields f fun _ => True) = 1) (hA : 0 < engine.real (Yields f A)) :
    engine.real {ω | ∃ n a rest, FirstAccepted f A ((List.range n).map ω) a rest ∧ Q a} =
      engine.real (Yields f fun a => A a ∧ Q a) / engine.real (Yields f A) := by
  classical
  have hset : {ω : ℕ → ℕ | ∃ n a rest, FirstAccepted f A ((List.range n).map ω) a rest ∧ Q a} = ⋃ k, Yields (tries f A k) Q := by
    ext ω
    simp only [Set.mem_ofPred_eq, Set.mem_iUnion, Yields]
    constructor
    · rintro ⟨n, a, rest, h, hQ⟩
      obtain ⟨k, hk⟩ := tries_complete f A h
      exact ⟨k, n, a, rest, hk k le_rfl, hQ⟩
    · rintro ⟨k, n, a, rest, h, hQ⟩
      exact ⟨n, a, rest, tries_sound f A k h, hQ⟩
  have hmono : Monotone fun k => Yields (tries f A k) Q := by
    refine monotone_nat_of_le_succ fun k => ?_
    rintro ω ⟨n, a, rest, h, hQ⟩
    exact ⟨n, a, rest, tries_mono f A k h, hQ⟩
  have hlim := tendsto_measure_iUnion_atTop (μ := engine) hmono
  rw [← hset] at hlim
  set E := {ω : ℕ → ℕ | ∃ n a rest, FirstAccepted f A ((List.range n).map ω) a rest ∧ Q a} with hE
  have hlimR : Filter.Tendsto (fun k => engine.real (Yields (tries f A k) Q)) Filter.atTop (nhds (engine.real E)) :=
    (ENNReal.tendsto_toReal (measure_ne_top _ _)).comp hlim
  have hstep : ∀ k, engine.real (Yields (tries f A (k + 1)) Q) =
      engine.real (Yields f fun a => A a ∧ Q a) + engine.real (Yields f fun a => ¬ A a) * engine.real (Yields (tries f A k) Q) := by
    intro k
    unfold Measure.real
    rw [chance_step hf A Q k, ENNReal.toReal_add (measure_ne_top _ _) (ENNReal.mul_ne_top (measure_ne_top _ _) (measure_ne_top _ _)),
      ENNReal.toReal_mul]
  have hsum : engine.real (Yields f A) + engine.real (Yields f fun a => ¬ A a) = 1 := by
    have h : engine (Yields f A) + engine (Yields f fun a => ¬ A a) = 1 := by
      rw [← hend, chance_sum hf A, chance_sum hf fun a => ¬ A a, chance_sum hf fun _ => True, ← ENNReal.tsum_add]
      refine tsum_congr fun a => ?_
      by_cases hA : A a <;> simp [hA]
    unfold Measure.real
    rw [← ENNReal.toReal_add (measure_ne_top _ _) (measure_ne_top _ _), h, ENNReal.toReal_one]
  have hlim2 := (hlimR.const_mul (engine.real (Yields f fun a => ¬ A a))).const_add (engine.real (Yields f fun a => A a ∧ Q a))
  have hlim3 := hlimR.comp (Filter.tendsto_add_atTop_nat 1)
  have heq := tendsto_nhds_unique hlim3 (hlim2.congr fun k => (hstep k).symm)
  rw [eq_div_iff hA.ne']
  have : engine.real (Yields f A) = 1 - engine.real (Yields f fun a => ¬ A a) := by linarith
  rw [this, mul_sub, mul_one]
  linarith

private theorem accept_pos {f : List ℕ → Option (α × List ℕ)} (hf : Sequential f) (A Q : α → Prop)
    (hp : 0 < engine.real {ω | ∃ n a rest, FirstAccepted f A ((List.range n).map ω) a rest ∧ Q a}) : 0 < engine.real (Yields f A) := by
  by_contra hA
  have hA : engine (Yields f A) = 0 := by
    have := le_antisymm (not_lt.1 hA) measureReal_nonneg
    unfold Measure.real at this
    rw [ENNReal.toReal_eq_zero_iff] at this
    exact this.resolve_right (measure_ne_top _ _)
  have hzero : ∀ k, engine (Yields (tries f A k) Q) = 0 := by
    intro k
    induction k with
    | zero =>
      rw [show Yields (tries f A 0) Q = ∅ from ?_, measure_empty]
      ext ω
      simp only [Set.mem_empty_iff_false, iff_false]
      rintro ⟨n, a, rest, h, -⟩
      cases h
    | succ k ih =>
      rw [chance_step hf, ih, mul_zero, add_zero]
      refine measure_mono_null ?_ hA
      rintro ω ⟨n, a, rest, h, h2⟩
      exact ⟨n, a, rest, h, h2.1⟩
  have hset : {ω : ℕ → ℕ | ∃ n a rest, FirstAccepted f A ((List.range n).map ω) a rest ∧ Q a} ⊆ ⋃ k, Yields (tries f A k) Q := by
    rintro ω ⟨n, a, rest, h, hQ⟩
    obtain ⟨k, hk⟩ := tries_complete f A h
    exact Set.mem_iUnion.2 ⟨k, n, a, rest, hk k le_rfl, hQ⟩
  have := measure_mono_null hset (measure_iUnion_null hzero)
  unfold Measure.real at hp
  rw [this] at hp
  simp at hp

/-- **C115**: such a loop ends with probability one, however small the probability of `A` is. -/
theorem C115_ends {f : List ℕ → Option (α × List ℕ)} (hf : Sequential f) (A : α → Prop)
    (hend : engine (Yields f fun _ => True) = 1) (hA : 0 < engine.real (Yields f A)) :
    engine.real {ω | ∃ n a rest, FirstAccepted f A ((List.range n).map ω) a rest} = 1 := by
  have h := C115_conditional hf A (fun _ => True) hend hA
  simp only [and_true] at h
  rw [h, div_self hA.ne']

/-! ### The loops of the random functions -/

/-- A value that is computed from one call of `real()`. -/
private def candidate {β : Type} (h : ℚ → β) : WordFn β := fun ws => (realWords ws).map fun p => (h p.1, p.2)

private theorem candidate_eq {β : Type} {h : ℚ → β} {ws rest : List ℕ} {b : β} :
    candidate h ws = some (b, rest) ↔ ∃ x, realWords ws = some (x, rest) ∧ h x = b := by
  unfold candidate
  rw [Option.map_eq_some_iff]
  constructor
  · rintro ⟨⟨x, r⟩, h1, h2⟩
    simp only [Prod.mk.injEq] at h2
    obtain ⟨h2, rfl⟩ := h2
    exact ⟨x, h1, h2⟩
  · rintro ⟨x, h1, rfl⟩
    exact ⟨(x, rest), h1, rfl⟩

private theorem seq_candidate {β : Type} (h : ℚ → β) : Sequential (candidate h) := by
  refine seq_of_taken fun ws b rest hc => ?_
  obtain ⟨x, hx, rfl⟩ := candidate_eq.1 hc
  obtain ⟨pre, -, h1, h2⟩ := realWords_taken ws x rest hx
  exact ⟨pre, h1, fun t => candidate_eq.2 ⟨x, h2 t, rfl⟩⟩

private theorem candidate_ends {β : Type} (h : ℚ → β) : engine (Yields (candidate h) fun _ => True) = 1 := by
  have e : Yields (candidate h) (fun _ => True) = {ω | ∃ v, First ω v} := by
    ext ω
    constructor
    · rintro ⟨n, b, rest, hb, -⟩
      obtain ⟨x, hx, -⟩ := candidate_eq.1 hb
      exact ⟨x, n, rest, hx⟩
    · rintro ⟨x, n, rest, hx⟩
      exact ⟨n, _, rest, candidate_eq.2 ⟨x, hx, rfl⟩, trivial⟩
  have := first_ends
  rw [← e] at this
  unfold Measure.real at this
  rw [← ENNReal.toReal_one] at this
  exact (ENNReal.toReal_eq_toReal_iff' (measure_ne_top _ _) (by simp)).1 this

theorem starts_pos : ∀ pre : List ℕ, (∀ w ∈ pre, w < 2 ^ 64) → 0 < engine.real (Starts pre) := by
  intro pre
  induction pre with
  | nil =>
    intro _
    have e : Starts [] = Set.univ := by ext ω; simp [Starts]
    rw [e, probReal_univ]; exact one_pos
  | cons w pre ih =>
    intro hw
    have hN : 0 < 2 ^ 64 := Nat.two_pow_pos 64
    have h := words_first hN (measurable_starts (w :: pre))
    rw [show words (2 ^ 64) = engine from rfl] at h
    rw [h]
    refine div_pos ?_ (by exact_mod_cast hN)
    have e2 : {ω | cons (w, ω) ∈ Starts (w :: pre)} = Starts pre := by
      ext ω
      rw [Set.mem_ofPred_eq, starts_cons]
      simp
    refine lt_of_lt_of_le (ih fun v hv => hw v (List.mem_cons_of_mem _ hv)) ?_
    rw [← e2]
    exact Finset.single_le_sum (f := fun v => engine.real {ω | cons (v, ω) ∈ Starts (w :: pre)}) (fun v _ => measureReal_nonneg)
      (Finset.mem_range.2 (hw w List.mem_cons_self))

/-- `real()` returns 1, since it rounds, with positive probability. -/
private theorem candidate_one {β : Type} {h : ℚ → β} {A : β → Prop} (hA : A (h 1)) : 0 < engine.real (Yields (candidate h) A) := by
  refine lt_of_lt_of_le (starts_pos [2 ^ 64 - 1, 1] (by simp)) (measureReal_mono ?_)
  intro ω hω
  have hx : realWords [2 ^ 64 - 1, 1] = some (1, []) := by decide +kernel
  refine ⟨2, h 1, [], candidate_eq.2 ⟨1, ?_, rfl⟩, hA⟩
  have e : (List.range 2).map ω = [2 ^ 64 - 1, 1] := hω
  rw [e]; exact hx

/-- Calls of `real()` until the value computed from it satisfies `c`. -/
private def untilLoop {β : Type} (h : ℚ → β) (c : β → Bool) : ℕ → List ℕ → Option (Out β × List ℕ)
  | 0, ws => some (.error .fuel, ws)
  | fuel + 1, ws =>
    match realWords ws with
    | none => none
    | some (x, ws) => if c (h x) then some (.ok (h x), ws) else untilLoop h c fuel ws

private theorem until_iff {β : Type} (h : ℚ → β) (c : β → Bool) (ws : List ℕ) (a : β) (rest : List ℕ) :
    (∃ fuel, untilLoop h c fuel ws = some (.ok a, rest)) ↔ FirstAccepted (candidate h) (fun a => c a = true) ws a rest := by
  constructor
  · rintro ⟨fuel, hf⟩
    induction fuel generalizing ws with
    | zero => simp [untilLoop] at hf
    | succ fuel ih =>
      unfold untilLoop at hf
      split at hf
      · cases hf
      · next x ws' hx =>
        split at hf
        · next hlt =>
          simp only [Option.some.injEq, Prod.mk.injEq, Except.ok.injEq] at hf
          obtain ⟨rfl, rfl⟩ := hf
          exact .now (candidate_eq.2 ⟨x, hx, rfl⟩) hlt
        · next hlt => exact .later (candidate_eq.2 ⟨x, hx, rfl⟩) hlt (ih ws' hf)
  · intro hf
    induction hf with
    | now h1 h2 =>
      obtain ⟨x, hx, rfl⟩ := candidate_eq.1 h1
      refine ⟨1, ?_⟩
      rw [untilLoop, hx]
      dsimp only
      rw [if_pos h2]
    | later h1 h2 _ ih =>
      obtain ⟨x, hx, rfl⟩ := candidate_eq.1 h1
      obtain ⟨fuel, hf⟩ := ih
      refine ⟨fuel + 1, ?_⟩
      rw [untilLoop, hx]
      dsimp only
      rw [if_neg h2]
      exact hf

private theorem until_set {β : Type} (h : ℚ → β) (c : β → Bool) (P : β → Prop) :
    {ω : ℕ → ℕ | ∃ fuel n a rest, untilLoop h c fuel ((List.range n).map ω) = some (.ok a, rest) ∧ P a} =
      {ω | ∃ n a rest, FirstAccepted (candidate h) (fun a => c a = true) ((List.range n).map ω) a rest ∧ P a} := by
  ext ω
  constructor
  · rintro ⟨fuel, n, a, rest, h1, h2⟩
    exact ⟨n, a, rest, (until_iff h c _ _ _).1 ⟨fuel, h1⟩, h2⟩
  · rintro ⟨n, a, rest, h1, h2⟩
    obtain ⟨fuel, h1⟩ := (until_iff h c _ _ _).2 h1
    exact ⟨fuel, n, a, rest, h1, h2⟩

private theorem yields_set {β : Type} (h : ℚ → β) (P : β → Prop) :
    {ω : ℕ → ℕ | ∃ n x rest, realWords ((List.range n).map ω) = some (x, rest) ∧ P (h x)} = Yields (candidate h) P := by
  ext ω
  constructor
  · rintro ⟨n, x, rest, h1, h2⟩
    exact ⟨n, h x, rest, candidate_eq.2 ⟨x, h1, rfl⟩, h2⟩
  · rintro ⟨n, b, rest, h1, h2⟩
    obtain ⟨x, hx, rfl⟩ := candidate_eq.1 h1
    exact ⟨n, x, rest, hx, h2⟩

private theorem until_law {β : Type} (h : ℚ → β) (c : β → Bool) (Q : β → Prop) (hpos : 0 < engine.real (Yields (candidate h) fun a => c a = true)) :
    engine.real {ω | ∃ fuel n a rest, untilLoop h c fuel ((List.range n).map ω) = some (.ok a, rest) ∧ Q a} =
      engine.real {ω | ∃ n x rest, realWords ((List.range n).map ω) = some (x, rest) ∧ c (h x) = true ∧ Q (h x)} /
      engine.real {ω | ∃ n x rest, realWords ((List.range n).map ω) = some (x, rest) ∧ c (h x) = true} := by
  rw [until_set, yields_set h fun a => c a = true ∧ Q a, yields_set h fun a => c a = true]
  exact C115_conditional (seq_candidate h) _ Q (candidate_ends h) hpos

/-- A loop that ends with positive probability accepts with positive probability. -/
private theorem until_pos {β : Type} (h : ℚ → β) (c : β → Bool) (Q : β → Prop)
    (hp : 0 < engine.real {ω | ∃ fuel n a rest, untilLoop h c fuel ((List.range n).map ω) = some (.ok a, rest) ∧ Q a}) :
    0 < engine.real (Yields (candidate h) fun a => c a = true) := by
  rw [until_set] at hp
  exact accept_pos (seq_candidate h) _ Q hp

/-- **C115**: `real(lower, upper)` has the distribution of `lower * (1 - x) + upper * x`, computed in floating point from the value `x` of
`real()`, under the condition that this is in `[lower, upper)`. -/
theorem C115_range (F : Format) (l u : ℚ) (h1 : Rep F 1) (h34 : Rep F (3 / 4)) (hl : Rep F l) (hu : Rep F u) (hlu : l < u) (Q : Flt → Prop) :
    let value : ℚ → Flt := fun x => Fp.add F (Fp.mul F (.fin l) (Fp.sub F (.fin 1) (.fin x))) (Fp.mul F (.fin u) (.fin x))
    engine.real {ω | ∃ fuel n a rest, realRange F fuel (.fin l) (.fin u) ((List.range n).map ω) = some (.ok a, rest) ∧ Q a} =
      engine.real {ω | ∃ n x rest, realWords ((List.range n).map ω) = some (x, rest) ∧
        (Fp.le (.fin l) (value x) && Fp.lt (value x) (.fin u)) = true ∧ Q (value x)} /
      engine.real {ω | ∃ n x rest, realWords ((List.range n).map ω) = some (x, rest) ∧
        (Fp.le (.fin l) (value x) && Fp.lt (value x) (.fin u)) = true} := by
  intro value
  have hloop : ∀ fuel ws, realRange F fuel (.fin l) (.fin u) ws = untilLoop value (fun a => Fp.le (.fin l) a && Fp.lt a (.fin u)) fuel ws := by
    intro fuel ws
    unfold realRange
    rw [lt_fin, decide_eq_true hlu]
    show realRangeLoop F (.fin l) (.fin u) fuel ws = _
    induction fuel generalizing ws with
    | zero => rfl
    | succ fuel ih =>
      unfold realRangeLoop untilLoop
      rcases realWords ws with _ | ⟨x, ws'⟩
      · rfl
      · dsimp only
        rw [ih]
  have hends := C84_range_almost_surely F l u h1 h34 hl hu hlu
  simp only [hloop] at hends ⊢
  refine until_law value _ Q (until_pos value _ (fun _ => True) ?_)
  refine lt_of_lt_of_le (by rw [hends]; exact one_pos) (measureReal_mono (μ := engine) ?_)
  rintro ω ⟨fuel, n, q, rest, h⟩
  exact ⟨fuel, n, .fin q, rest, h, trivial⟩

/-- **C115**: `real(upper)` has the distribution of `real() * upper` under the condition that this is in `[0, upper)`. -/
theorem C115_upper (F : Format) (u : ℚ) (hu : Rep F u) (h0 : 0 < u) (Q : Flt → Prop) :
    let value : ℚ → Flt := fun x => Fp.mul F (.fin x) (.fin u)
    engine.real {ω | ∃ fuel n a rest, realUpper F fuel (.fin u) ((List.range n).map ω) = some (.ok a, rest) ∧ Q a} =
      engine.real {ω | ∃ n x rest, realWords ((List.range n).map ω) = some (x, rest) ∧
        (Fp.le (.fin 0) (value x) && Fp.lt (value x) (.fin u)) = true ∧ Q (value x)} /
      engine.real {ω | ∃ n x rest, realWords ((List.range n).map ω) = some (x, rest) ∧
        (Fp.le (.fin 0) (value x) && Fp.lt (value x) (.fin u)) = true} := by
  intro value
  have hloop : ∀ fuel ws, realUpper F fuel (.fin u) ws = untilLoop value (fun a => Fp.le (.fin 0) a && Fp.lt a (.fin u)) fuel ws := by
    intro fuel ws
    unfold realUpper
    rw [lt_fin, decide_eq_true h0]
    show realUpperLoop F (.fin u) fuel ws = _
    induction fuel generalizing ws with
    | zero => rfl
    | succ fuel ih =>
      unfold realUpperLoop untilLoop
      rcases realWords ws with _ | ⟨x, ws'⟩
      · rfl
      · dsimp only
        rw [ih]
  have hends := C84_upper_almost_surely F u hu h0
  simp only [hloop] at hends ⊢
  refine until_law value _ Q (until_pos value _ (fun _ => True) ?_)
  refine lt_of_lt_of_le (by rw [hends]; exact one_pos) (measureReal_mono (μ := engine) ?_)
  rintro ω ⟨fuel, n, q, rest, h⟩
  exact ⟨fuel, n, .fin q, rest, h, trivial⟩

/-- **C115**: `exponential(lower, upper, lambda)` has the distribution of `lower - log(real()) / lambda` under the condition that this is
less than `upper`, and it ends with probability one. -/
theorem C115_exponential (F : Format) (log : Flt → Flt) (ε l lam : ℚ) (upper : Flt) (hlog : LogWithin ε log) (hl : Rep F l)
    (hlam : 0 < lam) (hu : Fp.lt (.fin l) upper = true) (Q : Flt → Prop) :
    engine.real {ω | ∃ fuel n a rest, exponentialIn F log fuel (.fin l) upper (.fin lam) ((List.range n).map ω) = some (.ok a, rest) ∧ Q a} =
      engine.real {ω | ∃ n x rest, realWords ((List.range n).map ω) = some (x, rest) ∧
        Fp.lt (Fp.sub F (.fin l) (Fp.div F (log (.fin x)) (.fin lam))) upper = true ∧ Q (Fp.sub F (.fin l) (Fp.div F (log (.fin x)) (.fin lam)))} /
      engine.real {ω | ∃ n x rest, realWords ((List.range n).map ω) = some (x, rest) ∧
        Fp.lt (Fp.sub F (.fin l) (Fp.div F (log (.fin x)) (.fin lam))) upper = true} ∧
    engine.real {ω | ∃ fuel n a rest, exponentialIn F log fuel (.fin l) upper (.fin lam) ((List.range n).map ω) = some (.ok a, rest)} = 1 := by
  set h : ℚ → Flt := fun x => Fp.sub F (.fin l) (Fp.div F (log (.fin x)) (.fin lam)) with hh
  have hone : Fp.lt (h 1) upper = true := by
    obtain ⟨y, hy, he⟩ := hlog 1 one_pos le_rfl
    have hy0 : y = 0 := by simpa using he
    have e : h 1 = .fin l := by
      rw [hh]
      simp only [hy, hy0, Fp.div, if_neg hlam.ne', zero_div]
      have h0 : Fp.round F 0 = .fin 0 := by
        obtain ⟨q, hq, h0, h1⟩ := round_le (F := F) (rep_zero F) le_rfl le_rfl
        rw [hq, le_antisymm h1 h0]
      rw [h0]
      simp only [Fp.sub, sub_zero]
      obtain ⟨q, hq⟩ := round_fin (F := F) hl (le_refl |l|)
      have h1 := nearest_ge (round_nearest hq) hl le_rfl
      have h2 := nearest_le (round_nearest hq) hl le_rfl
      rw [hq, le_antisymm h2 h1]
    rw [e]; exact hu
  have hstart : ∀ fuel ws, exponentialIn F log fuel (.fin l) upper (.fin lam) ws = exponentialLoop F log (.fin l) upper (.fin lam) fuel ws := by
    intro fuel ws
    unfold exponentialIn
    rw [hu, lt_fin, decide_eq_true hlam]
    have hn : isnan upper = false := by
      cases upper with
      | nan s => simp [Fp.lt, Fp.le] at hu
      | inf s => rfl
      | fin q => rfl
    rw [hn]
    rfl
  have hloop : ∀ fuel ws, exponentialIn F log fuel (.fin l) upper (.fin lam) ws = untilLoop h (fun a => Fp.lt a upper) fuel ws := by
    intro fuel ws
    rw [hstart]
    induction fuel generalizing ws with
    | zero => rfl
    | succ fuel ih =>
      unfold exponentialLoop untilLoop
      rcases realWords ws with _ | ⟨x, ws'⟩
      · rfl
      · dsimp only
        rw [ih]
  have hpos := candidate_one (h := h) (A := fun a => Fp.lt a upper = true) hone
  simp only [hloop]
  constructor
  · exact until_law h (fun a => Fp.lt a upper) Q hpos
  · have h1 := until_set h (fun a => Fp.lt a upper) fun _ => True
    simp only [and_true] at h1
    rw [h1]
    exact C115_ends (seq_candidate h) _ (candidate_ends h) hpos

/-- **C115**: `geometric(lower, upper, p)` has the distribution of `lower` plus the number of failures, under the condition that this is
less than `upper` (or the conversion to an integer is not defined), and it ends with probability one. -/
theorem C115_geometric (F : Format) (log log1p : Flt → Flt) (ε p : ℚ) (lower upper : Int) (hlog : LogWithin ε log)
    (hlog1 : Log1pWithin ε log1p) (hε : ε < 1) (hp0 : 0 < p) (hp1 : p < 1) (hu : lower < upper) (Q : Out Int → Prop) :
    let value : ℚ → Out Int := fun x => llround (floor (Fp.div F (log (.fin x)) (log1p (.fin (-p))))) >>= fun g => chk (lower + g)
    engine.real {ω | ∃ fuel n o rest, geometricIn F log log1p fuel lower upper (.fin p) ((List.range n).map ω) = some (o, rest) ∧
        o ≠ .error .fuel ∧ Q o} =
      engine.real {ω | ∃ n x rest, realWords ((List.range n).map ω) = some (x, rest) ∧ (∀ m, value x = .ok m → m < upper) ∧ Q (value x)} /
      engine.real {ω | ∃ n x rest, realWords ((List.range n).map ω) = some (x, rest) ∧ ∀ m, value x = .ok m → m < upper} ∧
    engine.real {ω | ∃ fuel n o rest, geometricIn F log log1p fuel lower upper (.fin p) ((List.range n).map ω) = some (o, rest) ∧
        o ≠ .error .fuel} = 1 := by
  intro value
  have hv : ∀ x, value x = (gap F log x (log1p (neg (.fin p))) >>= fun g => chk (lower + g)) := fun x => rfl
  have hone : ∀ m, value 1 = .ok m → m < upper := by
    intro m hm
    rw [hv] at hm
    obtain ⟨y, hy, he⟩ := hlog 1 one_pos le_rfl
    have hy0 : y = 0 := by simpa using he
    obtain ⟨L, hL, hL0, -⟩ := log1p_within hlog1 hε hp0 hp1
    have hg : gap F log 1 (log1p (neg (.fin p))) = .ok 0 := by
      rw [hL]
      rcases gap_value (F := F) hL0 hy (by rw [hy0]) with ⟨q, h1, h2, h3⟩ | ⟨h1, h2⟩
      · rw [hy0, zero_div] at h1
        obtain ⟨q', h4, h5, h6⟩ := round_le (F := F) (rep_zero F) le_rfl le_rfl
        rw [h4] at h1
        obtain rfl := Flt.fin.inj h1
        rw [h3, le_antisymm h6 h5]
        decide
      · rw [hy0, zero_div] at h1
        obtain ⟨q', h4, h5, h6⟩ := round_le (F := F) (rep_zero F) le_rfl le_rfl
        rw [h4] at h1; cases h1
    rw [hg] at hm
    have hm : chk (lower + 0) = .ok m := hm
    rw [chk_val hm]; omega
  have hnf : ∀ x, value x ≠ .error .fuel := by
    intro x h
    rw [hv] at h
    have hchk : ∀ a, chk a ≠ .error .fuel := by
      intro a
      unfold chk
      split <;> simp
    cases hg : gap F log x (log1p (neg (.fin p))) with
    | ok g => rw [hg] at h; exact hchk _ h
    | error e =>
      rw [hg] at h
      have he : e = .fuel := by injection h
      unfold gap llround at hg
      split at hg
      · rw [he] at hg; exact hchk _ hg
      · rw [he] at hg; cases hg
  have hstart : ∀ fuel ws, geometricIn F log log1p fuel lower upper (.fin p) ws = geometricLoop F log log1p lower upper (.fin p) fuel ws := by
    intro fuel ws
    unfold geometricIn
    rw [lt_fin, decide_eq_true hp1, decide_eq_true hu, show Fp.le (.fin 0) (.fin p) = true from decide_eq_true hp0.le]
    rfl
  have hloop : ∀ ws o rest, (∃ fuel, geometricIn F log log1p fuel lower upper (.fin p) ws = some (o, rest) ∧ o ≠ .error .fuel) ↔
      FirstAccepted (candidate value) (fun o => ∀ m, o = .ok m → m < upper) ws o rest := by
    intro ws o rest
    constructor
    · rintro ⟨fuel, hf, hne⟩
      rw [hstart] at hf
      induction fuel generalizing ws with
      | zero =>
        simp only [geometricLoop, Option.some.injEq, Prod.mk.injEq] at hf
        exact absurd hf.1.symm hne
      | succ fuel ih =>
        unfold geometricLoop at hf
        split at hf
        · cases hf
        · next x ws' hx =>
          split at hf
          · next e he =>
            simp only [Option.some.injEq, Prod.mk.injEq] at hf
            obtain ⟨rfl, rfl⟩ := hf
            exact .now (candidate_eq.2 ⟨x, hx, he⟩) (fun m hm => by cases hm)
          · next res he =>
            split at hf
            · next hlt =>
              simp only [Option.some.injEq, Prod.mk.injEq] at hf
              obtain ⟨rfl, rfl⟩ := hf
              exact .now (candidate_eq.2 ⟨x, hx, he⟩) (fun m hm => by obtain rfl := Except.ok.inj hm; exact hlt)
            · next hlt => exact .later (candidate_eq.2 ⟨x, hx, he⟩) (fun h => hlt (h res rfl)) (ih ws' hf)
    · intro hf
      induction hf with
      | now h1 h2 =>
        obtain ⟨x, hx, rfl⟩ := candidate_eq.1 h1
        refine ⟨1, ?_, hnf x⟩
        rw [hstart, geometricLoop, hx]
        dsimp only
        rw [← hv]
        cases hval : value x with
        | error e => rfl
        | ok m =>
          dsimp only
          rw [if_pos (h2 m hval)]
      | later h1 h2 _ ih =>
        obtain ⟨x, hx, rfl⟩ := candidate_eq.1 h1
        obtain ⟨fuel, hf, hne⟩ := ih
        rw [hstart] at hf
        refine ⟨fuel + 1, ?_, hne⟩
        rw [hstart, geometricLoop, hx]
        dsimp only
        rw [← hv]
        cases hval : value x with
        | error e => exact absurd (fun m hm => by rw [hval] at hm; cases hm) h2
        | ok m =>
          dsimp only
          rw [if_neg fun hlt => h2 fun m' hm' => by rw [hval] at hm'; obtain rfl := Except.ok.inj hm'; exact hlt]
          exact hf
  have hset : ∀ P : Out Int → Prop, {ω : ℕ → ℕ | ∃ fuel n o rest, geometricIn F log log1p fuel lower upper (.fin p) ((List.range n).map ω) = some (o, rest) ∧
      o ≠ .error .fuel ∧ P o} = {ω | ∃ n o rest, FirstAccepted (candidate value) (fun o => ∀ m, o = .ok m → m < upper) ((List.range n).map ω) o rest ∧ P o} := by
    intro P
    ext ω
    constructor
    · rintro ⟨fuel, n, a, rest, h1, h2, h3⟩
      exact ⟨n, a, rest, (hloop _ _ _).1 ⟨fuel, h1, h2⟩, h3⟩
    · rintro ⟨n, a, rest, h1, h2⟩
      obtain ⟨fuel, h1, h3⟩ := (hloop _ _ _).2 h1
      exact ⟨fuel, n, a, rest, h1, h3, h2⟩
  have hpos := candidate_one (h := value) (A := fun o => ∀ m, o = .ok m → m < upper) hone
  constructor
  · rw [hset Q, yields_set value fun o => (∀ m, o = .ok m → m < upper) ∧ Q o, yields_set value fun o => ∀ m, o = .ok m → m < upper]
    exact C115_conditional (seq_candidate value) _ Q (candidate_ends value) hpos
  · have h1 := hset fun _ => True
    simp only [and_true] at h1
    rw [h1]
    exact C115_ends (seq_candidate value) _ (candidate_ends value) hpos

private def double : Format := ⟨53, -1074, 971, by norm_num, by norm_num⟩

/-- `exponential(1, 3, 1/2)` in double precision ends with probability one. -/
example (log : Flt → Flt) (h : LogWithin (1 / 2 ^ 52) log) :
    engine.real {ω | ∃ fuel n a rest, exponentialIn double log fuel (.fin 1) (.fin 3) (.fin (1 / 2)) ((List.range n).map ω) = some (.ok a, rest)} = 1 :=
  (C115_exponential double log _ 1 (1 / 2) (.fin 3) h ⟨1, 0, by norm_num [double], by norm_num [double], by norm_num [double], by norm_num⟩
    (by norm_num) (by decide +kernel) fun _ => True).2

/-- A fair die from three random bits: values above 5 are drawn again. -/
example : FirstAccepted (fun ws => match ws with | [] => none | w :: ws => some (w % 8, ws)) (· < 6) [15, 6, 13, 2] 5 [2] :=
  .later (b := 7) rfl (by decide) (.later (b := 6) rfl (by decide) (.now rfl (by decide)))

end ICPC.Props
