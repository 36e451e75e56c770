import Verif.Lemmas.WordFn

/-!
# C113: successive draws are independent
-/

namespace ICPC.Props

open MeasureTheory Spec Engine Calls Fp

variable {α β : Type}

/-- **C113.** If the engine returns independent uniform words, the results of two calls, one after the other, are independent. -/
theorem C113_independent {f : List ℕ → Option (α × List ℕ)} {g : List ℕ → Option (β × List ℕ)} (hf : Sequential f) (A : α → Prop) (B : β → Prop) :
    engine {ω | ∃ n a rest b rest', f ((List.range n).map ω) = some (a, rest) ∧ A a ∧ g rest = some (b, rest') ∧ B b} =
      engine (Yields f A) * engine (Yields g B) := by
  classical
  have h := chance_andThen hf (fun a => (fun ws => (g ws).map fun p => ((a, p.1), p.2) : WordFn (α × β))) fun p => A p.1 ∧ B p.2
  have e : Yields (WordFn.andThen f fun a => (fun ws => (g ws).map fun p => ((a, p.1), p.2) : WordFn (α × β))) (fun p => A p.1 ∧ B p.2) =
      {ω | ∃ n a rest b rest', f ((List.range n).map ω) = some (a, rest) ∧ A a ∧ g rest = some (b, rest') ∧ B b} := by
    ext ω
    constructor
    · rintro ⟨n, ⟨a, b⟩, rest', h, hA, hB⟩
      unfold WordFn.andThen at h
      cases hx : f ((List.range n).map ω) with
      | none => rw [hx] at h; cases h
      | some p =>
        obtain ⟨a', rest⟩ := p
        rw [hx] at h
        dsimp only at h
        rw [Option.map_eq_some_iff] at h
        obtain ⟨⟨b', r⟩, h1, h2⟩ := h
        simp only [Prod.mk.injEq] at h2
        obtain ⟨⟨rfl, rfl⟩, rfl⟩ := h2
        exact ⟨n, a', rest, b', r, hx, hA, h1, hB⟩
    · rintro ⟨n, a, rest, b, rest', h1, hA, h2, hB⟩
      refine ⟨n, (a, b), rest', ?_, hA, hB⟩
      unfold WordFn.andThen
      rw [h1]
      dsimp only
      rw [h2]
      rfl
  rw [← e, h, chance_sum hf, ← ENNReal.tsum_mul_right]
  refine tsum_congr fun a => ?_
  rw [mul_assoc]
  congr 1
  have e2 : Yields (fun ws => (g ws).map fun p => ((a, p.1), p.2)) (fun p : α × β => A p.1 ∧ B p.2) = {ω | A a ∧ ω ∈ Yields g B} := by
    ext ω
    constructor
    · rintro ⟨n, ⟨a', b⟩, rest, h, hA, hB⟩
      rw [Option.map_eq_some_iff] at h
      obtain ⟨⟨b', r⟩, h1, h2⟩ := h
      simp only [Prod.mk.injEq] at h2
      obtain ⟨⟨rfl, rfl⟩, rfl⟩ := h2
      exact ⟨hA, n, b', r, h1, hB⟩
    · rintro ⟨hA, n, b, r, h1, hB⟩
      exact ⟨n, (a, b), r, by dsimp only; rw [h1]; rfl, hA, hB⟩
  rw [e2]
  by_cases hA : A a
  · simp [hA]
  · simp [hA]

/-- **C113, dependent calls.** If the second call depends on the result of the first one (for example on a number of elements), the
probability of its result is the average over the results of the first one. -/
theorem C113_sequence {f : List ℕ → Option (α × List ℕ)} (hf : Sequential f) (g : α → List ℕ → Option (β × List ℕ)) (Q : β → Prop) :
    engine {ω | ∃ n a rest b rest', f ((List.range n).map ω) = some (a, rest) ∧ g a rest = some (b, rest') ∧ Q b} =
      ∑' a, engine (Yields f (· = a)) * engine (Yields (g a) Q) := by
  rw [← chance_andThen hf]
  congr 1
  ext ω
  constructor
  · rintro ⟨n, a, rest, b, rest', h1, h2, hQ⟩
    refine ⟨n, b, rest', ?_, hQ⟩
    unfold WordFn.andThen
    rw [h1]
    exact h2
  · rintro ⟨n, b, rest', h, hQ⟩
    unfold WordFn.andThen at h
    cases hx : f ((List.range n).map ω) with
    | none => rw [hx] at h; cases h
    | some p =>
      rw [hx] at h
      exact ⟨n, p.1, p.2, b, rest', hx, h, hQ⟩

/-- **C113, any number of calls.** -/
theorem C113_all (cs : List Want) (h : ∀ c ∈ cs, Sequential c.call) :
    engine {ω | ∃ n, AllGood cs ((List.range n).map ω)} = (cs.map fun c => engine (Yields c.call c.good)).prod := by
  have := uniformBelow_isProb (Nat.two_pow_pos 64)
  have : IsProbabilityMeasure engine := by unfold engine; infer_instance
  induction cs with
  | nil =>
    have e : {ω : ℕ → ℕ | ∃ n, AllGood [] ((List.range n).map ω)} = Set.univ := Set.eq_univ_of_forall fun ω => ⟨0, trivial⟩
    rw [e, measure_univ]
    rfl
  | cons c cs ih =>
    classical
    let g : List ℕ → Option (Unit × List ℕ) := fun ws => if AllGood cs ws then some ((), []) else none
    have hg : Yields g (fun _ => True) = {ω | ∃ n, AllGood cs ((List.range n).map ω)} := by
      ext ω
      constructor
      · rintro ⟨n, a, rest, h, -⟩
        by_cases hc : AllGood cs ((List.range n).map ω)
        · exact ⟨n, hc⟩
        · simp [g, hc] at h
      · rintro ⟨n, hc⟩
        exact ⟨n, (), [], by simp [g, hc], trivial⟩
    rw [List.map_cons, List.prod_cons, ← ih fun c hc => h c (List.mem_cons_of_mem _ hc), ← hg,
      ← C113_independent (h c List.mem_cons_self)]
    congr 1
    ext ω
    constructor
    · rintro ⟨n, a, rest, h1, h2, h3⟩
      exact ⟨n, a, rest, (), [], h1, h2, by simp [g, h3], trivial⟩
    · rintro ⟨n, a, rest, u, r, h1, h2, h3, -⟩
      by_cases hc : AllGood cs rest
      · exact ⟨n, a, rest, h1, h2, hc⟩
      · simp [g, hc] at h3

/-- **C113**: all programs that draw integers and bits take words one after the other. -/
theorem C113_rand (i128 : Bool) (r : Rand α) : Sequential (r.run i128) := seq_run i128 r

/-- **C113**: so does `real()`. -/
theorem C113_real : Sequential realWords := seq_realWords

/-- **C113**: so does `real(lower, upper)`, in every format. -/
theorem C113_range (F : Format) (lower upper : Flt) : Sequential (realRangeCall F lower upper) ∧
    ∀ ws rest r, realRangeCall F lower upper ws = some (.ok r, rest) ↔ ∃ fuel, realRange F fuel lower upper ws = some (.ok r, rest) :=
  ⟨seq_realRange F lower upper, fun _ _ _ => realRangeCall_ok⟩

/-- **C113**: so does `real(upper)`. -/
theorem C113_upper (F : Format) (upper : Flt) : Sequential (realUpperCall F upper) ∧
    ∀ ws rest r, realUpperCall F upper ws = some (.ok r, rest) ↔ ∃ fuel, realUpper F fuel upper ws = some (.ok r, rest) :=
  ⟨seq_realUpper F upper, fun _ _ _ => realUpperCall_ok⟩

theorem yields_chance (i128 : Bool) (r : Rand α) (Q : Out α → Prop) : engine.real (Yields (r.run i128) Q) = chance i128 r Q := by
  unfold chance Yields Returns
  congr 1
  ext ω
  constructor
  · rintro ⟨n, o, rest, h, hQ⟩; exact ⟨o, ⟨n, rest, h⟩, hQ⟩
  · rintro ⟨o, ⟨n, rest, h⟩, hQ⟩; exact ⟨n, o, rest, h, hQ⟩

/-- Two dice. -/
example : engine.real {ω | ∃ n a rest b rest', (integer 1 7).run true ((List.range n).map ω) = some (a, rest) ∧ a = .ok 6 ∧
    (integer 1 7).run true rest = some (b, rest') ∧ b = .ok 6} = 1 / 36 := by
  unfold Measure.real
  rw [C113_independent (C113_rand true (integer 1 7)), ENNReal.toReal_mul]
  have h := yields_chance true (integer 1 7) (· = .ok 6)
  rw [C98_integer true 1 7 6 (by decide) (by decide) (by decide) (by decide)] at h
  unfold Measure.real at h
  rw [h]
  norm_num

/-- A die after a real: the value of the real does not matter. -/
example (t : ℚ) : engine.real {ω | ∃ n x rest b rest', realWords ((List.range n).map ω) = some (x, rest) ∧ x < t ∧
    (integer 1 7).run true rest = some (b, rest') ∧ b = .ok 6} = engine.real (Yields realWords (· < t)) * (1 / 6) := by
  unfold Measure.real
  rw [C113_independent C113_real, ENNReal.toReal_mul]
  have h := yields_chance true (integer 1 7) (· = .ok 6)
  rw [C98_integer true 1 7 6 (by decide) (by decide) (by decide) (by decide)] at h
  unfold Measure.real at h
  rw [h]
  norm_num

/-- A function that looks at the next word without taking it is not sequential. -/
example : ¬ Sequential fun ws : List ℕ => ws.head?.map fun w => (w, ws) := by
  intro h
  obtain ⟨pre, h1, h2⟩ := h.taken (ws := [5]) (rest := [5]) (a := 5) rfl
  have : pre = [] := by simpa using congrArg List.length h1
  rw [this] at h2
  cases h2

end ICPC.Props
