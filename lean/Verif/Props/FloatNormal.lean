import Verif.Lemmas.TwoNormals
import Verif.Lemmas.FloatNormal
import Verif.Lemmas.Ideal3
import Verif.Props.Rejection

/-!
# C116: `normal` in floating point
-/

namespace ICPC.Props

open MeasureTheory Spec ICPC.Engine ICPC.Fp ICPC.Spec.Fp ICPC.Calls ICPC.TwoReals ProbabilityTheory

private theorem pair_eq {ws rest : List ℕ} {x y : ℚ} :
    pairWords ws = some ((x, y), rest) ↔ ∃ mid, realWords ws = some (x, mid) ∧ realWords mid = some (y, rest) := by
  unfold pairWords WordFn.andThen
  constructor
  · intro h
    split at h
    · cases h
    · next a r hr =>
      dsimp only at h
      split at h
      · cases h
      · next b r2 hr2 =>
        simp only [Option.some.injEq, Prod.mk.injEq] at h
        obtain ⟨⟨rfl, rfl⟩, rfl⟩ := h
        exact ⟨r, hr, hr2⟩
  · rintro ⟨mid, h1, h2⟩
    rw [h1]
    dsimp only
    rw [h2]

private theorem normal_eq {F : Format} {log sqrt cos : Flt → Flt} {mean stddev : Flt} (hs : Fp.le (.fin 0) stddev = true) {ws rest : List ℕ} {o : Out Flt} :
    Fp.normal F log sqrt cos mean stddev ws = some (o, rest) ↔
      ∃ x y, pairWords ws = some ((x, y), rest) ∧ o = .ok (Fp.scaled F sqrt mean stddev (Fp.boxMuller F log sqrt cos x y)) := by
  unfold Fp.normal
  rw [hs]
  simp only [Bool.not_true, Bool.false_eq_true, if_false]
  constructor
  · intro h
    split at h
    · cases h
    · next x r hr =>
      split at h
      · cases h
      · next y r2 hr2 =>
        simp only [Option.some.injEq, Prod.mk.injEq] at h
        obtain ⟨rfl, rfl⟩ := h
        exact ⟨x, y, pair_eq.2 ⟨r, hr, hr2⟩, rfl⟩
  · rintro ⟨x, y, h, rfl⟩
    obtain ⟨mid, h1, h2⟩ := pair_eq.1 h
    simp only [h1, h2]

private theorem seq_pair : Sequential pairWords := seq_andThen seq_realWords fun _ => seq_andThen seq_realWords fun _ => seq_pure _

private theorem pair_range {ω : ℕ → ℕ} (hw : Words ω) {n : ℕ} {x y : ℚ} {r : List ℕ} (h : pairWords ((List.range n).map ω) = some ((x, y), r)) :
    First ω x ∧ 0 < x ∧ x ≤ 1 ∧ 0 < y ∧ y ≤ 1 := by
  obtain ⟨mid, h1, h2⟩ := pair_eq.1 h
  have hall : ∀ w ∈ (List.range n).map ω, w < 2 ^ 64 := by
    intro w hm
    obtain ⟨i, -, rfl⟩ := List.mem_map.1 hm
    exact hw i
  obtain ⟨a, b⟩ := realWords_range hall h1
  obtain ⟨pre, hp⟩ := realWords_suffix h1
  obtain ⟨c, d⟩ := realWords_range (fun w hm => hall w (by rw [hp]; exact List.mem_append_right _ hm)) h2
  exact ⟨⟨n, mid, h1⟩, a, b, c, d⟩

/-- The values of `u1` for which the errors are not bounded. -/
private def Bad : Set (ℕ → ℕ) := {ω | ¬ Words ω} ∪ ({ω | ∃ v : ℚ, First ω v ∧ (v : ℝ) < Real.exp (-(81 / 2))} ∪
  {ω | Words ω ∧ ∃ v : ℚ, First ω v ∧ 1 - 1 / 2 ^ 52 ≤ (v : ℝ)})

private theorem exp_small : Real.exp (-(81 / 2)) ≤ 1 / 2 ^ 52 := by
  have h1 : (2.7 : ℝ) ≤ Real.exp 1 := by have := Real.exp_one_gt_d9; norm_num at this ⊢; linarith
  have h2 : (2 : ℝ) ^ 52 ≤ 2.7 ^ 40 := by norm_num
  have h3 : (2.7 : ℝ) ^ 40 ≤ Real.exp 1 ^ 40 := pow_le_pow_left₀ (by norm_num) h1 40
  have h4 : Real.exp 1 ^ 40 = Real.exp 40 := by rw [← Real.exp_nat_mul]; norm_num
  rw [Real.exp_neg, inv_eq_one_div]
  refine one_div_le_one_div_of_le (by positivity) ?_
  have : Real.exp 40 ≤ Real.exp (81 / 2) := Real.exp_le_exp.2 (by norm_num)
  linarith

private theorem bad_le : engine.real Bad ≤ 4 / 2 ^ 52 := by
  have h1 := below_le (Real.exp (-(81 / 2))) (Real.exp_pos _).le
  have h2 := above_le {ω | Words ω ∧ ∃ v : ℚ, First ω v ∧ 1 - 1 / 2 ^ 52 ≤ (v : ℝ)} (1 - 1 / 2 ^ 52) (by
    have : (0 : ℝ) < 1 / 2 ^ 52 := by positivity
    linarith) (fun ω _ h => h.2)
  have h3 := exp_small
  have h4 := not_words_real
  have h5 := (measureReal_union_le (μ := engine) {ω | ¬ Words ω} ({ω | ∃ v : ℚ, First ω v ∧ (v : ℝ) < Real.exp (-(81 / 2))} ∪
    {ω | Words ω ∧ ∃ v : ℚ, First ω v ∧ 1 - 1 / 2 ^ 52 ≤ (v : ℝ)}))
  have h6 := (measureReal_union_le (μ := engine) {ω | ∃ v : ℚ, First ω v ∧ (v : ℝ) < Real.exp (-(81 / 2))}
    {ω | Words ω ∧ ∃ v : ℚ, First ω v ∧ 1 - 1 / 2 ^ 52 ≤ (v : ℝ)})
  have e : (4 : ℝ) / 2 ^ 52 = 4 * (1 / 2 ^ 52) := by ring
  rw [e]
  unfold Bad
  generalize (1 : ℝ) / 2 ^ 52 = κ at *
  linarith

private theorem not_bad {ω : ℕ → ℕ} (h : ω ∉ Bad) {x : ℚ} (hx : First ω x) : Words ω ∧ Real.exp (-(81 / 2)) ≤ x ∧ (x : ℝ) ≤ 1 - 1 / 2 ^ 52 := by
  have hw : Words ω := by
    by_contra hw
    exact h (.inl hw)
  refine ⟨hw, ?_, ?_⟩
  · by_contra hc
    exact h (.inr (.inl ⟨x, hx, not_le.1 hc⟩))
  · by_contra hc
    exact h (.inr (.inr ⟨hw, x, hx, (not_le.1 hc).le⟩))

private theorem gaussian_scale (mu : ℝ) {v : ℝ} (hv : 0 < v) (t : ℝ) :
    (gaussianReal mu v.toNNReal).real (Set.Iio t) = (gaussianReal 0 1).real (Set.Iio ((t - mu) / √v)) := by
  have hc : ((v.toNNReal : NNReal) : ℝ) = v := Real.coe_toNNReal v hv.le
  have hs : 0 < √v := Real.sqrt_pos.2 hv
  unfold Measure.real
  rw [← Ideal.map_scaled mu v.toNNReal, Measure.map_apply (Ideal.measurable_scaled _ _) measurableSet_Iio]
  congr 2
  ext x
  simp only [Set.mem_preimage, Set.mem_Iio, Ideal.scaled, hc]
  rw [lt_div_iff₀ hs]
  constructor <;> intro h <;> linarith

/-- **C116**: if the engine returns independent, uniformly distributed words and the functions of the standard library are accurate up to
`ε`, then `normal(mean, stddev)` is below `t` with the probability of the normal distribution with mean `mean` and *variance* `stddev`, up
to `378 ε + (ε |mean| + 2^(emin+1)) / sqrt(stddev) + 2^-49`. -/
theorem C116_normal_law (F : Format) (log sqrt cos : Flt → Flt) (ε W v mu t : ℚ) (A : Accurate F log sqrt cos ε W) (hv : 0 < v)
    (hW : 27 * (v + 1) + |mu| + 100 ≤ W) :
    |engine.real {ω | ∃ n a rest, Fp.normal F log sqrt cos (.fin mu) (.fin v) ((List.range n).map ω) = some (.ok a, rest) ∧
        Fp.lt a (.fin t) = true} - (gaussianReal mu (v : ℝ).toNNReal).real (Set.Iio (t : ℝ))| ≤
      378 * ε + (ε * |(mu : ℝ)| + 2 ^ (F.emin + 1)) / √(v : ℝ) + 1 / 2 ^ 49 := by
  have hvR : (0 : ℝ) < v := by exact_mod_cast hv
  have hS : 0 < √(v : ℝ) := Real.sqrt_pos.2 hvR
  rw [gaussian_scale _ hvR]
  have hε0 : (0 : ℝ) ≤ ε := by
    have h := A.digits
    have : (0 : ℚ) ≤ ε := le_trans (by positivity) h
    exact_mod_cast this
  set E : ℝ := 378 * ε * √(v : ℝ) + ε * |(mu : ℝ)| + 2 ^ (F.emin + 1) with hE
  have hE0 : 0 ≤ E := by positivity
  have hEd : 378 * (ε : ℝ) + (ε * |(mu : ℝ)| + 2 ^ (F.emin + 1)) / √(v : ℝ) = E / √(v : ℝ) := by
    rw [hE]; field_simp
    ring
  rw [hEd]
  set c : ℝ := ((t : ℝ) - mu) / √(v : ℝ) with hc
  set δ := E / √(v : ℝ) with hδ
  have hδ0 : 0 ≤ δ := div_nonneg hE0 hS.le
  have hle : Fp.le (.fin 0) (.fin v) = true := decide_eq_true hv.le
  have hval : ∀ {ω : ℕ → ℕ} {n : ℕ} {x y : ℚ} {r : List ℕ}, ω ∉ Bad → pairWords ((List.range n).map ω) = some ((x, y), r) →
      ∃ m : ℚ, Fp.scaled F sqrt (.fin mu) (.fin v) (Fp.boxMuller F log sqrt cos x y) = .fin m ∧
        |(m : ℝ) - (√(v : ℝ) * (√(-2 * Real.log x) * Real.cos (2 * Real.pi * y)) + mu)| ≤ E := by
    intro ω n x y r hb hp
    have hw : Words ω := by
      by_contra hw
      exact hb (.inl hw)
    obtain ⟨hf, x0, x1, y0, y1⟩ := pair_range hw hp
    obtain ⟨-, k1, k2⟩ := not_bad hb hf
    exact normal_value A hW x0 x1 k2 k1 y0 y1 hv.le
  have hbad := bad_le
  have hup : engine.real {ω | ∃ n a rest, Fp.normal F log sqrt cos (.fin mu) (.fin v) ((List.range n).map ω) = some (.ok a, rest) ∧
      Fp.lt a (.fin t) = true} ≤
      engine.real (Yields pairWords fun p => √(-2 * Real.log p.1) * Real.cos (2 * Real.pi * p.2) < c + δ) + engine.real Bad := by
    refine (measureReal_mono ?_).trans (measureReal_union_le _ _)
    rintro ω ⟨n, a, rest, h, ha⟩
    by_cases hb : ω ∈ Bad
    · exact .inr hb
    · obtain ⟨x, y, hp, ho⟩ := (normal_eq hle).1 h
      obtain ⟨m, hm, he⟩ := hval hb hp
      refine .inl ⟨n, (x, y), rest, hp, ?_⟩
      injection ho with ho
      rw [ho, hm, lt_fin, decide_eq_true_iff] at ha
      have haR : (m : ℝ) < t := by exact_mod_cast ha
      have := (abs_le.1 he).1
      show √(-2 * Real.log x) * Real.cos (2 * Real.pi * y) < c + δ
      rw [hc, hδ, ← add_div, lt_div_iff₀ hS]
      linarith
  have hlow : engine.real (Yields pairWords fun p => √(-2 * Real.log p.1) * Real.cos (2 * Real.pi * p.2) < c - δ) ≤
      engine.real {ω | ∃ n a rest, Fp.normal F log sqrt cos (.fin mu) (.fin v) ((List.range n).map ω) = some (.ok a, rest) ∧
        Fp.lt a (.fin t) = true} + engine.real Bad := by
    refine (measureReal_mono ?_).trans (measureReal_union_le _ _)
    rintro ω ⟨n, ⟨x, y⟩, rest, hp, hlt⟩
    by_cases hb : ω ∈ Bad
    · exact .inr hb
    · obtain ⟨m, hm, he⟩ := hval hb hp
      refine .inl ⟨n, _, rest, (normal_eq hle).2 ⟨x, y, hp, rfl⟩, ?_⟩
      rw [hm, lt_fin, decide_eq_true_iff]
      have hlt : √(-2 * Real.log x) * Real.cos (2 * Real.pi * y) < c - δ := hlt
      rw [hc, hδ, ← sub_div, lt_div_iff₀ hS] at hlt
      have := (abs_le.1 he).2
      have : (m : ℝ) < t := by linarith
      exact_mod_cast this
  have n1 := (abs_le.1 (normal_near (c + δ))).2
  have n2 := (abs_le.1 (normal_near (c - δ))).1
  have l1 := gaussian_lipschitz c δ hδ0
  have l2 := gaussian_lipschitz (c - δ) δ hδ0
  rw [sub_add_cancel] at l2
  have e : (1 : ℝ) / 2 ^ 49 = 4 / 2 ^ 52 + 4 / 2 ^ 52 := by norm_num
  rw [e, abs_le]
  generalize (4 : ℝ) / 2 ^ 52 = κ at *
  constructor <;> linarith

/-- **C116**: a negative or not-a-number standard deviation throws before a random number is drawn, as do bounds that are not in order. -/
theorem C116_throws (F : Format) (log sqrt cos sin : Flt → Flt) (fuel : ℕ) (lower upper mean stddev : Flt) (ws : List ℕ) :
    (Fp.le (.fin 0) stddev = false → Fp.normal F log sqrt cos mean stddev ws = some (.error .throw, ws)) ∧
    (Fp.lt lower upper = false ∨ Fp.le (.fin 0) stddev = false →
      Fp.normalIn F log sqrt cos sin fuel lower upper mean stddev ws = some (.error .throw, ws)) := by
  refine ⟨fun h => by unfold Fp.normal; rw [h]; rfl, fun h => ?_⟩
  unfold Fp.normalIn
  split
  · rfl
  split
  · rfl
  split
  · rfl
  split
  · rfl
  next h1 h2 =>
  rcases h with h | h
  · rw [h] at h1; simp at h1
  · rw [h] at h2; simp at h2

/-- One iteration of the loop of `normal(lower, upper, mean, stddev)`. -/
private def both (F : Format) (log sqrt cos sin : Flt → Flt) (mean stddev : Flt) (p : ℚ × ℚ) : Flt × Flt :=
  (Fp.scaled F sqrt mean stddev (Fp.boxMuller F log sqrt cos p.1 p.2), Fp.scaled F sqrt mean stddev (Fp.boxMuller F log sqrt sin p.1 p.2))

private theorem loop_first {F : Format} {log sqrt cos sin : Flt → Flt} {lower upper mean stddev : Flt} :
    ∀ (fuel : ℕ) (ws rest : List ℕ) (a : Flt), Fp.normalLoop F log sqrt cos sin lower upper mean stddev fuel ws = some (.ok a, rest) →
      ∃ p, FirstAccepted pairWords (fun p => (Fp.le lower (both F log sqrt cos sin mean stddev p).1 && Fp.lt (both F log sqrt cos sin mean stddev p).1 upper ||
        (Fp.le lower (both F log sqrt cos sin mean stddev p).2 && Fp.lt (both F log sqrt cos sin mean stddev p).2 upper)) = true) ws p rest ∧
        a = if Fp.le lower (both F log sqrt cos sin mean stddev p).1 && Fp.lt (both F log sqrt cos sin mean stddev p).1 upper then
          (both F log sqrt cos sin mean stddev p).1 else (both F log sqrt cos sin mean stddev p).2 := by
  intro fuel
  induction fuel with
  | zero => intro ws rest a h; cases h
  | succ fuel ih =>
    intro ws rest a h
    unfold Fp.normalLoop at h
    split at h
    · cases h
    · next x r hr =>
      split at h
      · cases h
      · next y r2 hr2 =>
        have hp : pairWords ws = some ((x, y), r2) := pair_eq.2 ⟨r, hr, hr2⟩
        dsimp only at h
        split at h
        · next hc =>
          simp only [Option.some.injEq, Prod.mk.injEq, Except.ok.injEq] at h
          obtain ⟨rfl, rfl⟩ := h
          exact ⟨(x, y), .now hp (by show (_ || _) = true; unfold both; rw [hc]; rfl), by unfold both; rw [if_pos hc]⟩
        · next hc =>
          split at h
          · next hs =>
            simp only [Option.some.injEq, Prod.mk.injEq, Except.ok.injEq] at h
            obtain ⟨rfl, rfl⟩ := h
            exact ⟨(x, y), .now hp (by show (_ || _) = true; unfold both; rw [hs, Bool.or_true]), by unfold both; rw [if_neg hc]⟩
          · next hs =>
            obtain ⟨p, h1, h2⟩ := ih r2 rest a h
            refine ⟨p, .later hp ?_ h1, h2⟩
            unfold both
            rw [Bool.or_eq_true]
            rintro (h | h)
            · exact hc h
            · exact hs h

private theorem first_loop {F : Format} {log sqrt cos sin : Flt → Flt} {lower upper mean stddev : Flt} {ws rest : List ℕ} {p : ℚ × ℚ}
    (h : FirstAccepted pairWords (fun p => (Fp.le lower (both F log sqrt cos sin mean stddev p).1 && Fp.lt (both F log sqrt cos sin mean stddev p).1 upper ||
        (Fp.le lower (both F log sqrt cos sin mean stddev p).2 && Fp.lt (both F log sqrt cos sin mean stddev p).2 upper)) = true) ws p rest) :
    ∃ fuel, Fp.normalLoop F log sqrt cos sin lower upper mean stddev fuel ws = some (.ok (
      if Fp.le lower (both F log sqrt cos sin mean stddev p).1 && Fp.lt (both F log sqrt cos sin mean stddev p).1 upper then
          (both F log sqrt cos sin mean stddev p).1 else (both F log sqrt cos sin mean stddev p).2), rest) := by
  induction h with
  | @now ws rest p hp hA =>
    obtain ⟨x, y⟩ := p
    obtain ⟨mid, h1, h2⟩ := pair_eq.1 hp
    refine ⟨1, ?_⟩
    unfold Fp.normalLoop
    simp only [h1, h2]
    unfold both at hA ⊢
    dsimp only at hA ⊢
    split
    · rfl
    · next hc =>
      rw [Bool.or_eq_true] at hA
      rw [if_pos (hA.resolve_left hc)]
  | @later ws mid' rest p q hp hA _ ih =>
    obtain ⟨fuel, ih⟩ := ih
    obtain ⟨x, y⟩ := p
    obtain ⟨mid, h1, h2⟩ := pair_eq.1 hp
    refine ⟨fuel + 1, ?_⟩
    unfold Fp.normalLoop
    simp only [h1, h2]
    rw [Bool.or_eq_true, not_or] at hA
    unfold both at hA
    rw [if_neg hA.1, if_neg hA.2]
    exact ih

/-- **C116**: `normal(lower, upper, mean, stddev)` returns a value in `[lower, upper)`, also after rounding. -/
theorem C116_range (F : Format) (log sqrt cos sin : Flt → Flt) (fuel : ℕ) (lower upper mean stddev a : Flt) (ws rest : List ℕ)
    (h : Fp.normalIn F log sqrt cos sin fuel lower upper mean stddev ws = some (.ok a, rest)) : Fp.le lower a = true ∧ Fp.lt a upper = true := by
  unfold Fp.normalIn at h
  split at h
  · cases h
  split at h
  · cases h
  split at h
  · cases h
  split at h
  · cases h
  obtain ⟨p, h1, rfl⟩ := loop_first _ _ _ _ h
  have hA : ∀ {ws : List ℕ} {p : ℚ × ℚ} {rest : List ℕ} {A : ℚ × ℚ → Prop}, FirstAccepted pairWords A ws p rest → A p := by
    intro ws p rest A h
    induction h with
    | now _ hA => exact hA
    | later _ _ _ ih => exact ih
  have := hA h1
  split
  · next hc => exact Bool.and_eq_true_iff.1 hc
  · next hc =>
    rw [Bool.or_eq_true] at this
    exact Bool.and_eq_true_iff.1 (this.resolve_left hc)

private theorem pair_ends : engine (Yields pairWords fun _ => True) = 1 := by
  have h := pair_apply (S := Set.univ) MeasurableSet.univ
  simp only [Set.mem_univ, measure_univ] at h
  exact h

/-- **C116**: `normal(lower, upper, mean, stddev)` has the law of one iteration (the value with the cosine, or else the one with the sine),
under the condition that one of the two is in `[lower, upper)`; if this has positive probability, the call ends with probability one. -/
theorem C116_conditional (F : Format) (log sqrt cos sin : Flt → Flt) (lower upper mean stddev : Flt) (hlu : Fp.lt lower upper = true)
    (hs : Fp.le (.fin 0) stddev = true) (Q : Flt → Prop) :
    let inside : Flt → Bool := fun a => Fp.le lower a && Fp.lt a upper
    let first : ℚ × ℚ → Flt := fun p => Fp.scaled F sqrt mean stddev (Fp.boxMuller F log sqrt cos p.1 p.2)
    let second : ℚ × ℚ → Flt := fun p => Fp.scaled F sqrt mean stddev (Fp.boxMuller F log sqrt sin p.1 p.2)
    let draw : List ℕ → Option ((ℚ × ℚ) × List ℕ) := fun ws =>
      (realWords ws).bind fun x => (realWords x.2).map fun y => ((x.1, y.1), y.2)
    0 < engine.real (Yields draw fun p => inside (first p) = true ∨ inside (second p) = true) →
    engine.real {ω | ∃ fuel n a rest, Fp.normalIn F log sqrt cos sin fuel lower upper mean stddev ((List.range n).map ω) = some (.ok a, rest) ∧ Q a} =
      engine.real (Yields draw fun p => (inside (first p) = true ∧ Q (first p)) ∨
        (inside (first p) = false ∧ inside (second p) = true ∧ Q (second p))) /
      engine.real (Yields draw fun p => inside (first p) = true ∨ inside (second p) = true) ∧
    engine.real {ω | ∃ fuel n a rest, Fp.normalIn F log sqrt cos sin fuel lower upper mean stddev ((List.range n).map ω) = some (.ok a, rest)} = 1 := by
  intro inside first second draw hpos
  have hdraw : draw = pairWords := by
    funext ws
    show (realWords ws).bind _ = _
    unfold pairWords WordFn.andThen
    cases realWords ws with
    | none => rfl
    | some p =>
      obtain ⟨x, r⟩ := p
      show (realWords r).map _ = _
      cases h2 : realWords r with
      | none => simp only [h2]; rfl
      | some q => simp only [h2]; rfl
  rw [hdraw] at hpos ⊢
  have hin : ∀ fuel ws, Fp.normalIn F log sqrt cos sin fuel lower upper mean stddev ws = Fp.normalLoop F log sqrt cos sin lower upper mean stddev fuel ws := by
    intro fuel ws
    unfold Fp.normalIn
    have n1 : isnan lower = false := by cases lower <;> first | rfl | simp [Fp.lt, Fp.le] at hlu
    have n2 : isnan upper = false := by
      cases upper <;> first | rfl | (cases lower <;> simp [Fp.lt, Fp.le] at hlu)
    rw [n1, n2, hlu, hs]
    rfl
  set A : ℚ × ℚ → Prop := fun p => (Fp.le lower (both F log sqrt cos sin mean stddev p).1 && Fp.lt (both F log sqrt cos sin mean stddev p).1 upper ||
        (Fp.le lower (both F log sqrt cos sin mean stddev p).2 && Fp.lt (both F log sqrt cos sin mean stddev p).2 upper)) = true with hA
  have hAe : ∀ p, A p ↔ (inside (first p) = true ∨ inside (second p) = true) := by
    intro p
    show (_ || _) = true ↔ _
    rw [Bool.or_eq_true]
    rfl
  have hset : ∀ P : Flt → Prop, {ω : ℕ → ℕ | ∃ fuel n a rest, Fp.normalIn F log sqrt cos sin fuel lower upper mean stddev ((List.range n).map ω) = some (.ok a, rest) ∧ P a} =
      {ω | ∃ n p rest, FirstAccepted pairWords A ((List.range n).map ω) p rest ∧ P (if inside (first p) then first p else second p)} := by
    intro P
    ext ω
    constructor
    · rintro ⟨fuel, n, a, rest, h, hP⟩
      rw [hin] at h
      obtain ⟨p, h1, h2⟩ := loop_first _ _ _ _ h
      refine ⟨n, p, rest, h1, ?_⟩
      rw [h2] at hP
      exact hP
    · rintro ⟨n, p, rest, h, hP⟩
      obtain ⟨fuel, h1⟩ := first_loop h
      exact ⟨fuel, n, _, rest, (hin _ _).trans h1, hP⟩
  have hA' : Yields pairWords A = Yields pairWords fun p => inside (first p) = true ∨ inside (second p) = true := by
    congr 1
    funext p
    exact propext (hAe p)
  have hpos' : 0 < engine.real (Yields pairWords A) := by rw [hA']; exact hpos
  constructor
  · rw [hset Q, C115_conditional seq_pair A (fun p => Q (if inside (first p) then first p else second p)) pair_ends hpos', hA']
    congr 3
    funext p
    refine propext ?_
    rw [hAe]
    cases h1 : inside (first p) <;> cases h2 : inside (second p) <;> simp
  · have h1 := hset fun _ => True
    simp only [and_true] at h1
    rw [h1]
    exact C115_ends seq_pair A pair_ends hpos'

private theorem draw_eq : (fun ws : List ℕ => (realWords ws).bind fun x => (realWords x.2).map fun y => ((x.1, y.1), y.2)) = pairWords := by
  funext ws
  unfold pairWords WordFn.andThen
  cases realWords ws with
  | none => rfl
  | some p =>
    obtain ⟨x, r⟩ := p
    show (realWords r).map _ = _
    cases h2 : realWords r with
    | none => simp only [h2]; rfl
    | some q => simp only [h2]; rfl

private theorem ratio_close {a b A B α β : ℝ} (ha : 0 ≤ a) (hab : a ≤ b) (hB : 0 < B) (h1 : |a - A| ≤ α) (h2 : |b - B| ≤ β)
    (hb : 0 < b) : |a / b - A / B| ≤ (α + β) / B := by
  have e : a / b - A / B = ((a - A) + a / b * (B - b)) / B := by field_simp; ring
  rw [e, abs_div, abs_of_pos hB]
  refine div_le_div_of_nonneg_right ((abs_add_le _ _).trans (add_le_add h1 ?_)) hB.le
  rw [abs_mul, abs_of_nonneg (div_nonneg ha hb.le)]
  have h3 : a / b ≤ 1 := (div_le_one hb).2 hab
  rw [abs_sub_comm] at h2
  calc a / b * |B - b| ≤ 1 * |B - b| := mul_le_mul_of_nonneg_right h3 (abs_nonneg _)
    _ ≤ β := by rw [one_mul]; exact h2

private theorem side {m X S E mu c : ℝ} (hS : 0 < S) (h : |m - (S * X + mu)| ≤ E) (hc : ¬ |X - (c - mu) / S| ≤ E / S) : c ≤ m ↔ (c - mu) / S ≤ X := by
  have h := abs_le.1 h
  have hc := not_le.1 hc
  rw [div_le_iff₀ hS]
  rcases lt_abs.1 hc with k | k
  · rw [lt_sub_iff_add_lt, ← add_div, div_lt_iff₀ hS] at k
    have hE : 0 ≤ E := by linarith [h.1, h.2]
    constructor <;> intro _ <;> linarith [h.1, h.2]
  · have k : E / S + X < (c - mu) / S := by linarith
    have k2 : E + X * S < c - mu := by
      have := mul_lt_mul_of_pos_right k hS
      rwa [add_mul, div_mul_cancel₀ _ hS.ne', div_mul_cancel₀ _ hS.ne'] at this
    have hE : 0 ≤ E := by linarith [h.1, h.2]
    constructor <;> intro _ <;> linarith [h.1, h.2]

/-- The pairs for which the rounding may change the result of a comparison. -/
private def Close (l u t δ : ℝ) : Set (ℝ × ℝ) :=
  (({p | |p.1 - l| ≤ δ} ∪ {p | |p.1 - u| ≤ δ}) ∪ {p | |p.1 - t| ≤ δ}) ∪ ({p | |p.2 - l| ≤ δ} ∪ {p | |p.2 - t| ≤ δ})

private theorem measurable_close (l u t δ : ℝ) : MeasurableSet (Close l u t δ) := by
  have m1 : ∀ c : ℝ, MeasurableSet {p : ℝ × ℝ | |p.1 - c| ≤ δ} := fun c => measurableSet_le (by fun_prop) measurable_const
  have m2 : ∀ c : ℝ, MeasurableSet {p : ℝ × ℝ | |p.2 - c| ≤ δ} := fun c => measurableSet_le (by fun_prop) measurable_const
  exact (((m1 l).union (m1 u)).union (m1 t)).union ((m2 l).union (m2 t))

private theorem close_le (l u t δ : ℝ) (hδ : 0 < δ) : bothLaw.real (Close l u t δ) ≤ 15 * δ + 80 / 2 ^ 52 := by
  have a1 := first_strip l δ hδ
  have a2 := first_strip u δ hδ
  have a3 := first_strip t δ hδ
  have a4 := second_strip l δ hδ
  have a5 := second_strip t δ hδ
  unfold Close
  have b1 := measureReal_union_le (μ := bothLaw) (({p | |p.1 - l| ≤ δ} ∪ {p | |p.1 - u| ≤ δ}) ∪ {p : ℝ × ℝ | |p.1 - t| ≤ δ})
    ({p | |p.2 - l| ≤ δ} ∪ {p | |p.2 - t| ≤ δ})
  have b2 := measureReal_union_le (μ := bothLaw) ({p | |p.1 - l| ≤ δ} ∪ {p | |p.1 - u| ≤ δ}) {p : ℝ × ℝ | |p.1 - t| ≤ δ}
  have b3 := measureReal_union_le (μ := bothLaw) {p : ℝ × ℝ | |p.1 - l| ≤ δ} {p | |p.1 - u| ≤ δ}
  have b4 := measureReal_union_le (μ := bothLaw) {p : ℝ × ℝ | |p.2 - l| ≤ δ} {p | |p.2 - t| ≤ δ}
  have e : (80 : ℝ) / 2 ^ 52 = 5 * (16 / 2 ^ 52) := by ring
  rw [e]
  generalize (16 : ℝ) / 2 ^ 52 = κ at *
  linarith

private theorem le_fin (a b : ℚ) : Fp.le (.fin a) (.fin b) = decide (a ≤ b) := rfl

private theorem logic {l u t m1 m2 : ℚ} {a b c x y : ℝ} (g1 : l ≤ m1 ↔ a ≤ x) (g2 : u ≤ m1 ↔ b ≤ x) (g3 : t ≤ m1 ↔ c ≤ x) (g4 : l ≤ m2 ↔ a ≤ y)
    (g5 : t ≤ m2 ↔ c ≤ y) (htu : t ≤ u) :
    ((l ≤ m1 ∧ m1 < u) ∧ m1 < t ∨ (¬ l ≤ m1 ∨ ¬ m1 < u) ∧ (l ≤ m2 ∧ m2 < u) ∧ m2 < t) ↔ (x, y) ∈ chosen a b c := by
  show _ ↔ (a ≤ x ∧ x < c) ∨ (¬ (a ≤ x ∧ x < b) ∧ a ≤ y ∧ y < c)
  have i1 : ¬ t ≤ m1 → ¬ u ≤ m1 := fun h h' => h (htu.trans h')
  have i2 : ¬ t ≤ m2 → ¬ u ≤ m2 := fun h h' => h (htu.trans h')
  simp only [← not_le]
  rw [← g1, ← g2, ← g3, ← g4, ← g5, ← not_and_or]
  constructor
  · rintro (⟨⟨h1, -⟩, h2⟩ | ⟨h1, ⟨h2, -⟩, h3⟩)
    · exact .inl ⟨h1, h2⟩
    · exact .inr ⟨h1, h2, h3⟩
  · rintro (⟨h1, h2⟩ | ⟨h1, h2, h3⟩)
    · exact .inl ⟨⟨h1, i1 h2⟩, h2⟩
    · exact .inr ⟨h1, ⟨h2, i2 h3⟩, h3⟩

/-- One iteration returns a number below `t` with almost the ideal probability. -/
private theorem iteration_near {F : Format} {log sqrt cos sin : Flt → Flt} {ε W v mu l u t : ℚ} (A : Accurate F log sqrt cos ε W) (hsin : SinWithin ε sin)
    (hv : 0 < v) (hW : 27 * (v + 1) + |mu| + 100 ≤ W) (hlt : l ≤ t) (htu : t ≤ u) (P : ℚ × ℚ → Prop)
    (hP : ∀ p, P p ↔
      ((Fp.le (.fin l) (both F log sqrt cos sin (.fin mu) (.fin v) p).1 && Fp.lt (both F log sqrt cos sin (.fin mu) (.fin v) p).1 (.fin u)) = true ∧
        Fp.lt (both F log sqrt cos sin (.fin mu) (.fin v) p).1 (.fin t) = true) ∨
      ((Fp.le (.fin l) (both F log sqrt cos sin (.fin mu) (.fin v) p).1 && Fp.lt (both F log sqrt cos sin (.fin mu) (.fin v) p).1 (.fin u)) = false ∧
        (Fp.le (.fin l) (both F log sqrt cos sin (.fin mu) (.fin v) p).2 && Fp.lt (both F log sqrt cos sin (.fin mu) (.fin v) p).2 (.fin u)) = true ∧
        Fp.lt (both F log sqrt cos sin (.fin mu) (.fin v) p).2 (.fin t) = true)) :
    |engine.real (Yields pairWords P) - (gaussianReal 0 1).real (Set.Ico (((l : ℝ) - mu) / √(v : ℝ)) (((t : ℝ) - mu) / √(v : ℝ))) *
        (2 - (gaussianReal 0 1).real (Set.Ico (((l : ℝ) - mu) / √(v : ℝ)) (((u : ℝ) - mu) / √(v : ℝ))))| ≤
      15 * (378 * ε + (ε * |(mu : ℝ)| + 2 ^ (F.emin + 1)) / √(v : ℝ)) + 1 / 2 ^ 44 := by
  have hvR : (0 : ℝ) < v := by exact_mod_cast hv
  have hS : 0 < √(v : ℝ) := Real.sqrt_pos.2 hvR
  have hε0 : (0 : ℝ) ≤ ε := by
    have h := A.digits
    have : (0 : ℚ) ≤ ε := le_trans (by positivity) h
    exact_mod_cast this
  set E : ℝ := 378 * ε * √(v : ℝ) + ε * |(mu : ℝ)| + 2 ^ (F.emin + 1) with hE
  have hE0 : 0 < E := by
    have : (0 : ℝ) < 2 ^ (F.emin + 1) := by positivity
    have h2 : 0 ≤ 378 * ε * √(v : ℝ) + ε * |(mu : ℝ)| := by positivity
    rw [hE]; linarith
  have hEd : 378 * (ε : ℝ) + (ε * |(mu : ℝ)| + 2 ^ (F.emin + 1)) / √(v : ℝ) = E / √(v : ℝ) := by
    rw [hE]; field_simp
    ring
  rw [hEd]
  have hδ0 : 0 < E / √(v : ℝ) := div_pos hE0 hS
  have hltR : ((l : ℝ) - mu) / √(v : ℝ) ≤ ((t : ℝ) - mu) / √(v : ℝ) := by
    have : (l : ℝ) ≤ t := by exact_mod_cast hlt
    exact div_le_div_of_nonneg_right (by linarith) hS.le
  have htuR : ((t : ℝ) - mu) / √(v : ℝ) ≤ ((u : ℝ) - mu) / √(v : ℝ) := by
    have : (t : ℝ) ≤ u := by exact_mod_cast htu
    exact div_le_div_of_nonneg_right (by linarith) hS.le
  set T := chosen (((l : ℝ) - mu) / √(v : ℝ)) (((u : ℝ) - mu) / √(v : ℝ)) (((t : ℝ) - mu) / √(v : ℝ)) with hT
  set C := Close (((l : ℝ) - mu) / √(v : ℝ)) (((u : ℝ) - mu) / √(v : ℝ)) (((t : ℝ) - mu) / √(v : ℝ)) (E / √(v : ℝ)) with hC
  have key : ∀ {ω : ℕ → ℕ} {n : ℕ} {p : ℚ × ℚ} {r : List ℕ}, ω ∉ Bad → pairWords ((List.range n).map ω) = some (p, r) →
      Ideal.boxMuller ((p.1 : ℝ), (p.2 : ℝ)) ∉ C → (P p ↔ Ideal.boxMuller ((p.1 : ℝ), (p.2 : ℝ)) ∈ T) := by
    rintro ω n ⟨x, y⟩ r hb hp hnc
    have hw : Words ω := by
      by_contra hw
      exact hb (.inl hw)
    obtain ⟨hf, x0, x1, y0, y1⟩ := pair_range hw hp
    obtain ⟨-, k1, k2⟩ := not_bad hb hf
    obtain ⟨m1, hm1, he1⟩ := normal_value A hW x0 x1 k2 k1 y0 y1 hv.le
    obtain ⟨m2, hm2, he2⟩ := normal_value_sin A hsin hW x0 x1 k2 k1 y0 y1 hv.le
    have hc1 : ∀ c : ℝ, ¬ |(Ideal.boxMuller ((x : ℝ), (y : ℝ))).1 - (c - mu) / √(v : ℝ)| ≤ E / √(v : ℝ) →
      (c ≤ m1 ↔ (c - mu) / √(v : ℝ) ≤ (Ideal.boxMuller ((x : ℝ), (y : ℝ))).1) := fun c h => side hS he1 h
    have hc2 : ∀ c : ℝ, ¬ |(Ideal.boxMuller ((x : ℝ), (y : ℝ))).2 - (c - mu) / √(v : ℝ)| ≤ E / √(v : ℝ) →
      (c ≤ m2 ↔ (c - mu) / √(v : ℝ) ≤ (Ideal.boxMuller ((x : ℝ), (y : ℝ))).2) := fun c h => side hS he2 h
    have f1 := hc1 l fun h => hnc (.inl (.inl (.inl h)))
    have f2 := hc1 u fun h => hnc (.inl (.inl (.inr h)))
    have f3 := hc1 t fun h => hnc (.inl (.inr h))
    have f4 := hc2 l fun h => hnc (.inr (.inl h))
    have f5 := hc2 t fun h => hnc (.inr (.inr h))
    rw [hP]
    have hb1 : (both F log sqrt cos sin (.fin mu) (.fin v) (x, y)).1 = .fin m1 := hm1
    have hb2 : (both F log sqrt cos sin (.fin mu) (.fin v) (x, y)).2 = .fin m2 := hm2
    rw [hb1, hb2]
    simp only [lt_fin, le_fin, Bool.and_eq_true, Bool.and_eq_false_iff, decide_eq_true_iff, decide_eq_false_iff_not]
    have g1 : (l ≤ m1) ↔ _ := Rat.cast_le.symm.trans f1
    have g2 : (u ≤ m1) ↔ _ := Rat.cast_le.symm.trans f2
    have g3 : (t ≤ m1) ↔ _ := Rat.cast_le.symm.trans f3
    have g4 : (l ≤ m2) ↔ _ := Rat.cast_le.symm.trans f4
    have g5 : (t ≤ m2) ↔ _ := Rat.cast_le.symm.trans f5
    exact logic g1 g2 g3 g4 g5 htu
  have hbad := bad_le
  have q1 := bothLaw_real (measurable_chosen (((l : ℝ) - mu) / √(v : ℝ)) (((u : ℝ) - mu) / √(v : ℝ)) (((t : ℝ) - mu) / √(v : ℝ)))
  have q2 := bothLaw_real (measurable_close (((l : ℝ) - mu) / √(v : ℝ)) (((u : ℝ) - mu) / √(v : ℝ)) (((t : ℝ) - mu) / √(v : ℝ)) (E / √(v : ℝ)))
  have q3 := close_le (((l : ℝ) - mu) / √(v : ℝ)) (((u : ℝ) - mu) / √(v : ℝ)) (((t : ℝ) - mu) / √(v : ℝ)) (E / √(v : ℝ)) hδ0
  have q4 := abs_le.1 (chosen_close hltR htuR)
  rw [chosen_ideal hltR htuR] at q4
  rw [← hT] at q1 q4
  rw [← hC] at q2 q3
  have up : engine.real (Yields pairWords P) ≤ engine.real (Yields pairWords fun p => Ideal.boxMuller ((p.1 : ℝ), (p.2 : ℝ)) ∈ T) +
      (engine.real (Yields pairWords fun p => Ideal.boxMuller ((p.1 : ℝ), (p.2 : ℝ)) ∈ C) + engine.real Bad) := by
    refine (measureReal_mono ?_).trans ((measureReal_union_le _ _).trans (add_le_add_right (measureReal_union_le _ _) _))
    rintro ω ⟨n, p, rest, h, hp⟩
    by_cases hb : ω ∈ Bad
    · exact .inr (.inr hb)
    by_cases hc : Ideal.boxMuller ((p.1 : ℝ), (p.2 : ℝ)) ∈ C
    · exact .inr (.inl ⟨n, p, rest, h, hc⟩)
    · exact .inl ⟨n, p, rest, h, (key hb h hc).1 hp⟩
  have low : engine.real (Yields pairWords fun p => Ideal.boxMuller ((p.1 : ℝ), (p.2 : ℝ)) ∈ T) ≤ engine.real (Yields pairWords P) +
      (engine.real (Yields pairWords fun p => Ideal.boxMuller ((p.1 : ℝ), (p.2 : ℝ)) ∈ C) + engine.real Bad) := by
    refine (measureReal_mono ?_).trans ((measureReal_union_le _ _).trans (add_le_add_right (measureReal_union_le _ _) _))
    rintro ω ⟨n, p, rest, h, hp⟩
    by_cases hb : ω ∈ Bad
    · exact .inr (.inr hb)
    by_cases hc : Ideal.boxMuller ((p.1 : ℝ), (p.2 : ℝ)) ∈ C
    · exact .inr (.inl ⟨n, p, rest, h, hc⟩)
    · exact .inl ⟨n, p, rest, h, (key hb h hc).2 hp⟩
  rw [q1, q2] at up low
  have e44 : (4 : ℝ) / 2 ^ 52 + 80 / 2 ^ 52 + 64 / 2 ^ 52 ≤ 1 / 2 ^ 44 := by norm_num
  rw [abs_le]
  generalize (4 : ℝ) / 2 ^ 52 = κ₁ at *
  generalize (80 : ℝ) / 2 ^ 52 = κ₂ at *
  generalize (64 : ℝ) / 2 ^ 52 = κ₃ at *
  generalize (1 : ℝ) / 2 ^ 44 = κ₄ at *
  generalize (gaussianReal 0 1).real _ * (2 - _) = G at *
  constructor <;> linarith

private theorem gaussian_Ico (mu : ℝ) {v : ℝ} (hv : 0 < v) {a b : ℝ} (h : a ≤ b) :
    (gaussianReal mu v.toNNReal).real (Set.Ico a b) = (gaussianReal 0 1).real (Set.Ico ((a - mu) / √v) ((b - mu) / √v)) := by
  have e : ∀ (ν : Measure ℝ) [IsProbabilityMeasure ν] (x y : ℝ), x ≤ y → ν.real (Set.Ico x y) = ν.real (Set.Iio y) - ν.real (Set.Iio x) := by
    intro ν _ x y hxy
    rw [← measureReal_sdiff (Set.Iio_subset_Iio hxy) measurableSet_Iio]
    congr 1
    ext z
    simp only [Set.mem_Ico, Set.mem_sdiff, Set.mem_Iio, not_lt]
    exact and_comm
  rw [e _ _ _ h, e _ _ _ (div_le_div_of_nonneg_right (by linarith) (Real.sqrt_nonneg _)), gaussian_scale mu hv, gaussian_scale mu hv]

/-- **C116**: if moreover `std::sin` is accurate up to `ε`, then `normal(lower, upper, mean, stddev)` is below `t` with the probability of the
normal distribution with mean `mean` and variance `stddev` under the condition that it is in `[lower, upper)`, up to twice the error of one
iteration divided by the probability of `[lower, upper)`. -/
theorem C116_bounded_law (F : Format) (log sqrt cos sin : Flt → Flt) (ε W v mu l u t : ℚ) (A : Accurate F log sqrt cos ε W) (hsin : SinWithin ε sin)
    (hv : 0 < v) (hW : 27 * (v + 1) + |mu| + 100 ≤ W) (hlu : l < u) (hlt : l ≤ t) (htu : t ≤ u) :
    |engine.real {ω | ∃ fuel n a rest, Fp.normalIn F log sqrt cos sin fuel (.fin l) (.fin u) (.fin mu) (.fin v) ((List.range n).map ω) =
        some (.ok a, rest) ∧ Fp.lt a (.fin t) = true} -
      (gaussianReal mu (v : ℝ).toNNReal).real (Set.Ico (l : ℝ) t) / (gaussianReal mu (v : ℝ).toNNReal).real (Set.Ico (l : ℝ) u)| ≤
      2 * (15 * (378 * ε + (ε * |(mu : ℝ)| + 2 ^ (F.emin + 1)) / √(v : ℝ)) + 1 / 2 ^ 44) /
        (gaussianReal mu (v : ℝ).toNNReal).real (Set.Ico (l : ℝ) u) := by
  have hvR : (0 : ℝ) < v := by exact_mod_cast hv
  have hluR : (l : ℝ) < u := by exact_mod_cast hlu
  have hltR : (l : ℝ) ≤ t := by exact_mod_cast hlt
  have htuR : (t : ℝ) ≤ u := by exact_mod_cast htu
  have hpos : 0 < (gaussianReal mu (v : ℝ).toNNReal).real (Set.Ico (l : ℝ) u) := by
    unfold Measure.real
    refine ENNReal.toReal_pos (fun h0 => ?_) (measure_ne_top _ _)
    have h1 := gaussianReal_absolutelyContinuous' (mu : ℝ) (v := (v : ℝ).toNNReal) (by simpa using hvR) h0
    rw [Real.volume_Ico, ENNReal.ofReal_eq_zero] at h1
    linarith
  have hle1 : (gaussianReal mu (v : ℝ).toNNReal).real (Set.Ico (l : ℝ) u) ≤ 1 := measureReal_le_one
  have hmono : (gaussianReal mu (v : ℝ).toNNReal).real (Set.Ico (l : ℝ) t) ≤ (gaussianReal mu (v : ℝ).toNNReal).real (Set.Ico (l : ℝ) u) :=
    measureReal_mono (Set.Ico_subset_Ico_right htuR)
  have hnn : 0 ≤ (gaussianReal mu (v : ℝ).toNNReal).real (Set.Ico (l : ℝ) t) := measureReal_nonneg
  set inside : Flt → Bool := fun a => Fp.le (.fin l) a && Fp.lt a (.fin u) with hin
  set B := both F log sqrt cos sin (.fin mu) (.fin v) with hB
  have n1 := iteration_near A hsin hv hW hlt htu (fun p => (inside (B p).1 = true ∧ Fp.lt (B p).1 (.fin t) = true) ∨
    (inside (B p).1 = false ∧ inside (B p).2 = true ∧ Fp.lt (B p).2 (.fin t) = true)) fun p => Iff.rfl
  have n2 := iteration_near A hsin hv hW hlu.le le_rfl (fun p => inside (B p).1 = true ∨ inside (B p).2 = true) fun p => by
    show inside (B p).1 = true ∨ inside (B p).2 = true ↔ (inside (B p).1 = true ∧ _) ∨ (inside (B p).1 = false ∧ inside (B p).2 = true ∧ _)
    have i : ∀ a, inside a = true → Fp.lt a (.fin u) = true := fun a h => (Bool.and_eq_true_iff.1 h).2
    have j1 := i (B p).1
    have j2 := i (B p).2
    cases h1 : inside (B p).1 <;> cases h2 : inside (B p).2 <;> simp_all
  rw [← gaussian_Ico _ hvR hltR, ← gaussian_Ico _ hvR hluR.le] at n1
  rw [← gaussian_Ico _ hvR hluR.le] at n2
  have hcond := C116_conditional F log sqrt cos sin (.fin l) (.fin u) (.fin mu) (.fin v) (by rw [lt_fin]; exact decide_eq_true hlu)
    (decide_eq_true hv.le) fun a => Fp.lt a (.fin t) = true
  have hdraw : (fun ws : List ℕ => (realWords ws).bind fun x => (realWords x.2).map fun y => ((x.1, y.1), y.2)) = pairWords := draw_eq
  dsimp only at hcond
  rw [hdraw] at hcond
  replace hcond : 0 < engine.real (Yields pairWords fun p => inside (B p).1 = true ∨ inside (B p).2 = true) → _ := hcond
  set err : ℝ := 15 * (378 * ε + (ε * |(mu : ℝ)| + 2 ^ (F.emin + 1)) / √(v : ℝ)) + 1 / 2 ^ 44 with herr
  set γ := gaussianReal mu (v : ℝ).toNNReal with hγ
  rcases lt_or_ge err (γ.real (Set.Ico (l : ℝ) u)) with hsmall | hbig
  · have hden : 0 < engine.real (Yields pairWords fun p => inside (B p).1 = true ∨ inside (B p).2 = true) := by
      have := (abs_le.1 n2).1
      nlinarith
    rw [(hcond hden).1]
    have hBpos : 0 < γ.real (Set.Ico (l : ℝ) u) * (2 - γ.real (Set.Ico (l : ℝ) u)) := mul_pos hpos (by linarith)
    have hsub : engine.real (Yields pairWords fun p => (inside (B p).1 = true ∧ Fp.lt (B p).1 (.fin t) = true) ∨
        (inside (B p).1 = false ∧ inside (B p).2 = true ∧ Fp.lt (B p).2 (.fin t) = true)) ≤
        engine.real (Yields pairWords fun p => inside (B p).1 = true ∨ inside (B p).2 = true) := by
      refine measureReal_mono ?_
      rintro ω ⟨n, p, rest, h, hp⟩
      refine ⟨n, p, rest, h, ?_⟩
      rcases hp with hp | hp
      · exact .inl hp.1
      · exact .inr hp.2.1
    have hr := ratio_close measureReal_nonneg hsub hBpos n1 n2 hden
    have e1 : γ.real (Set.Ico (l : ℝ) t) * (2 - γ.real (Set.Ico (l : ℝ) u)) / (γ.real (Set.Ico (l : ℝ) u) * (2 - γ.real (Set.Ico (l : ℝ) u))) =
        γ.real (Set.Ico (l : ℝ) t) / γ.real (Set.Ico (l : ℝ) u) := mul_div_mul_right _ _ (by linarith)
    rw [e1] at hr
    refine hr.trans ?_
    have herr0 : 0 ≤ err := (abs_nonneg _).trans n2
    rw [← two_mul]
    exact div_le_div_of_nonneg_left (by linarith) hpos (by nlinarith)
  · have hone : 1 ≤ 2 * err / γ.real (Set.Ico (l : ℝ) u) := by
      rw [le_div_iff₀ hpos]; linarith
    refine le_trans ?_ hone
    have a1 : engine.real {ω | ∃ fuel n a rest, Fp.normalIn F log sqrt cos sin fuel (.fin l) (.fin u) (.fin mu) (.fin v) ((List.range n).map ω) =
        some (.ok a, rest) ∧ Fp.lt a (.fin t) = true} ≤ 1 := measureReal_le_one
    have a2 : 0 ≤ engine.real {ω | ∃ fuel n a rest, Fp.normalIn F log sqrt cos sin fuel (.fin l) (.fin u) (.fin mu) (.fin v) ((List.range n).map ω) =
        some (.ok a, rest) ∧ Fp.lt a (.fin t) = true} := measureReal_nonneg
    have a3 : γ.real (Set.Ico (l : ℝ) t) / γ.real (Set.Ico (l : ℝ) u) ≤ 1 := (div_le_one hpos).2 hmono
    have a4 : 0 ≤ γ.real (Set.Ico (l : ℝ) t) / γ.real (Set.Ico (l : ℝ) u) := div_nonneg hnn hpos.le
    rw [abs_le]
    constructor <;> linarith

private def double : Format := ⟨53, -1074, 971, by norm_num, by norm_num⟩

/-- There are such functions for double precision, for `ε = 2^-52`. -/
example : ∃ log sqrt cos, Accurate double log sqrt cos (1 / 2 ^ 52) 1024 := by
  classical
  have approx : ∀ x d : ℝ, 0 ≤ d → (d = 0 → ∃ q : ℚ, (q : ℝ) = x) → ∃ q : ℚ, |(q : ℝ) - x| ≤ d := by
    intro x d hd h0
    rcases eq_or_lt_of_le hd with h | h
    · obtain ⟨q, hq⟩ := h0 h.symm
      exact ⟨q, by rw [hq, sub_self, abs_zero]; exact hd⟩
    · obtain ⟨q, h1, h2⟩ := exists_rat_btwn (show x - d < x by linarith)
      exact ⟨q, by rw [abs_le]; constructor <;> linarith⟩
  have hlog : ∀ x : ℚ, ∃ q : ℚ, |(q : ℝ) - Real.log x| ≤ ((1 / 2 ^ 52 : ℚ) : ℝ) * |Real.log x| := fun x => approx _ _ (by positivity) fun h => ⟨0, by
    have : |Real.log x| = 0 := by
      rcases mul_eq_zero.1 h with h | h
      · norm_num at h
      · exact h
    rw [abs_eq_zero.1 this]; simp⟩
  have hsqrt : ∀ x : ℚ, ∃ q : ℚ, |(q : ℝ) - √(x : ℝ)| ≤ ((1 / 2 ^ 52 : ℚ) : ℝ) * √(x : ℝ) := fun x => approx _ _ (by positivity) fun h => ⟨0, by
    rcases mul_eq_zero.1 h with h | h
    · norm_num at h
    · rw [h]; simp⟩
  have hcos : ∀ x : ℚ, ∃ q : ℚ, |(q : ℝ) - Real.cos x| ≤ ((1 / 2 ^ 52 : ℚ) : ℝ) := fun x => approx _ _ (by positivity) fun h => by norm_num at h
  choose lg hlg using hlog
  choose sq hsq using hsqrt
  choose co hco using hcos
  refine ⟨fun a => match a with | .fin x => .fin (lg x) | a => a, fun a => match a with | .fin x => .fin (sq x) | a => a,
    fun a => match a with | .fin x => .fin (co x) | a => a, ⟨fun x _ _ => ⟨_, rfl, hlg x⟩, fun x _ => ⟨_, rfl, hsq x⟩, fun x _ _ => ⟨_, rfl, hco x⟩,
    by unfold unit double; norm_num, by norm_num, by norm_num, ?_, ⟨1, 10, by norm_num [double], by norm_num [double], by norm_num [double], by norm_num⟩⟩⟩
  rw [show double.emin - 1 = -1075 from rfl, show (1 / 2 ^ 52 / 2 ^ 56 : ℚ) = 2 ^ (-108 : ℤ) by norm_num]
  exact zpow_le_zpow_right₀ (by norm_num) (by norm_num)

/-- Likewise for `std::sin`. -/
example : ∃ sin, SinWithin (1 / 2 ^ 52) sin := by
  have h : ∀ x : ℚ, ∃ q : ℚ, |(q : ℝ) - Real.sin x| ≤ ((1 / 2 ^ 52 : ℚ) : ℝ) := fun x => by
    obtain ⟨q, h1, h2⟩ := exists_rat_btwn (show Real.sin x - ((1 / 2 ^ 52 : ℚ) : ℝ) < Real.sin x by norm_num)
    have h3 : (0 : ℝ) ≤ ((1 / 2 ^ 52 : ℚ) : ℝ) := by positivity
    exact ⟨q, by rw [abs_le]; constructor <;> linarith⟩
  choose si hsi using h
  exact ⟨fun a => match a with | .fin x => .fin (si x) | a => a, fun x _ _ => ⟨_, rfl, hsi x⟩⟩

/-- `normal(0, 4)` in double precision is below `2` with the probability of the normal distribution of variance 4, up to `10^-13`. -/
example (log sqrt cos : Flt → Flt) (A : Accurate double log sqrt cos (1 / 2 ^ 52) 1024) :
    |engine.real {ω | ∃ n a rest, Fp.normal double log sqrt cos (.fin 0) (.fin 4) ((List.range n).map ω) = some (.ok a, rest) ∧
        Fp.lt a (.fin 2) = true} - (gaussianReal 0 4).real (Set.Iio 2)| ≤ 1 / 10 ^ 12 := by
  have h := C116_normal_law double log sqrt cos (1 / 2 ^ 52) 1024 4 0 2 A (by norm_num) (by norm_num)
  have e : (((4 : ℚ) : ℝ)).toNNReal = 4 := by
    rw [show ((4 : ℚ) : ℝ) = ((4 : ℕ) : ℝ) by norm_num, Real.toNNReal_natCast]
    rfl
  have hz : (2 : ℝ) ^ (double.emin + 1) ≤ 1 / 2 ^ 60 := by
    rw [show double.emin + 1 = -1073 from rfl, show (1 / 2 ^ 60 : ℝ) = 2 ^ (-60 : ℤ) by norm_num]
    exact zpow_le_zpow_right₀ (by norm_num) (by norm_num)
  have hs : √((4 : ℚ) : ℝ) = 2 := by
    rw [show ((4 : ℚ) : ℝ) = 2 ^ 2 by norm_num]
    exact Real.sqrt_sq (by norm_num)
  rw [e, hs] at h
  push_cast at h
  simp only [abs_zero, mul_zero, zero_add] at h
  refine h.trans ?_
  have : (2 : ℝ) ^ (double.emin + 1) / 2 ≤ 1 / 2 ^ 61 := by
    refine (div_le_div_of_nonneg_right hz (by norm_num)).trans ?_
    norm_num
  norm_num at this ⊢
  linarith

/-- `normal(-1, 1, 0, 1)` in double precision is negative with probability one half, up to `10^-11` divided by the probability of `[-1, 1)`. -/
example (log sqrt cos sin : Flt → Flt) (A : Accurate double log sqrt cos (1 / 2 ^ 52) 1024) (hsin : SinWithin (1 / 2 ^ 52) sin) :
    |engine.real {ω | ∃ fuel n a rest, Fp.normalIn double log sqrt cos sin fuel (.fin (-1)) (.fin 1) (.fin 0) (.fin 1) ((List.range n).map ω) =
        some (.ok a, rest) ∧ Fp.lt a (.fin 0) = true} -
      (gaussianReal 0 1).real (Set.Ico (-1) 0) / (gaussianReal 0 1).real (Set.Ico (-1) 1)| ≤ 1 / 10 ^ 11 / (gaussianReal 0 1).real (Set.Ico (-1) 1) := by
  have h := C116_bounded_law double log sqrt cos sin (1 / 2 ^ 52) 1024 1 0 (-1) 1 0 A hsin (by norm_num) (by norm_num) (by norm_num) (by norm_num) (by norm_num)
  have hz : (2 : ℝ) ^ (double.emin + 1) ≤ 1 / 2 ^ 60 := by
    rw [show double.emin + 1 = -1073 from rfl, show (1 / 2 ^ 60 : ℝ) = 2 ^ (-60 : ℤ) by norm_num]
    exact zpow_le_zpow_right₀ (by norm_num) (by norm_num)
  push_cast at h
  simp only [abs_zero, mul_zero, zero_add, Real.toNNReal_one, Real.sqrt_one, div_one] at h
  refine h.trans (div_le_div_of_nonneg_right ?_ measureReal_nonneg)
  norm_num at hz ⊢
  linarith

end ICPC.Props
