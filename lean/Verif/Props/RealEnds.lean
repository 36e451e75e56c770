import Verif.Props.Engine
import Verif.Props.RealRange

/-!
# C84: random reals with bounds end with probability one
-/

namespace ICPC.Props

open MeasureTheory Spec ICPC.Engine ICPC.Fp ICPC.Spec.Fp

/-- Some value of `real()` on these words is at most `δ`. -/
private def Good (δ : ℚ) (ws : List ℕ) : Prop :=
  (∀ w ∈ ws, w < 2 ^ 64) ∧ ∃ k xs rest, Draws k ws xs rest ∧ ∃ x ∈ xs, x ≤ δ

/-- After the words `p`, some value of `real()` is at most `δ`. -/
private def After (δ : ℚ) (p : List ℕ) : Set (ℕ → ℕ) := {ω | ∃ n, Good δ (p ++ (List.range n).map ω)}

private theorem after_measurable (δ : ℚ) (p : List ℕ) : MeasurableSet (After δ p) :=
  measurable_prefix fun _ ws => Good δ (p ++ ws)

private theorem after_first (δ : ℚ) (p : List ℕ) {N : ℕ} (hN : 0 < N) :
    (∑ w ∈ Finset.range N, (words N).real (After δ (p ++ [w]))) / N ≤ (words N).real (After δ p) := by
  have := uniformBelow_isProb hN
  have : IsProbabilityMeasure (words N) := by unfold words; infer_instance
  rw [words_first hN (after_measurable δ p)]
  refine div_le_div_of_nonneg_right (Finset.sum_le_sum fun w _ => measureReal_mono ?_) (Nat.cast_nonneg N)
  rintro ω ⟨n, h⟩
  refine ⟨n + 1, ?_⟩
  rw [map_range_cons]
  simpa using h

private theorem exponent_zeros (j y : ℕ) (hy : y ≠ 0) (ws : List ℕ) :
    exponentLoop (List.replicate j 0 ++ y :: ws) = some (64 * j + trailingZeros y, ws) := by
  have h64 : trailingZeros 0 = 64 := by decide +kernel
  induction j with
  | zero => simp [exponentLoop, hy]
  | succ j ih =>
    rw [List.replicate_succ, List.cons_append, exponentLoop, if_pos rfl, ih]
    simp only [Option.map_some, h64, Option.some.injEq, Prod.mk.injEq, and_true]
    omega

private theorem real_zeros (w j y : ℕ) (hw : w < 2 ^ 64) (hy : y ≠ 0) : ∃ x : ℚ, x ≤ 1 / 2 ^ (64 * j) ∧
    ∀ ws, realWords (w :: (List.replicate j 0 ++ y :: ws)) = some (x, ws) := by
  refine ⟨(toDouble (w ||| 2 ^ 63) : ℚ) / 2 ^ (64 + (64 * j + trailingZeros y)), ?_, fun ws => ?_⟩
  · have h1 : w ||| 2 ^ 63 < 2 ^ 64 := Nat.or_lt_two_pow hw (by norm_num)
    have h2 : 2 ^ 63 ≤ w ||| 2 ^ 63 := Nat.right_le_or
    have h3 : ((toDouble (w ||| 2 ^ 63) : ℕ) : ℚ) ≤ 2 ^ 64 := by exact_mod_cast (toDouble_bounds h2 h1).2
    rw [div_le_div_iff₀ (by positivity) (by positivity), one_mul, pow_add]
    refine mul_le_mul h3 ?_ (by positivity) (by positivity)
    exact pow_le_pow_right₀ (by norm_num) (by omega)
  · rw [realWords, exponent_zeros j y hy]
    rfl

/-- Values of `real()` below any positive bound appear with probability one. -/
private theorem small_appears (δ : ℚ) (m : ℕ) (hm : 1 / 2 ^ (64 * m) ≤ δ) {N : ℕ} (hN : 1 < N) (hN2 : N ≤ 2 ^ 64) :
    (words N).real (After δ []) = 1 := by
  have := uniformBelow_isProb (show 0 < N by omega)
  have : IsProbabilityMeasure (words N) := by unfold words; infer_instance
  have hNr : (1 : ℝ) < N := by exact_mod_cast hN
  have hle : ∀ p, (words N).real (After δ p) ≤ 1 := fun p => measureReal_le_one
  set s := (words N).real (After δ []) with hs
  -- one step: all words but 0 complete the value
  have step : ∀ p c, (∀ y, y < N → y ≠ 0 → c ≤ (words N).real (After δ (p ++ [y]))) →
      ((N - 1) * c + (words N).real (After δ (p ++ [0]))) / N ≤ (words N).real (After δ p) := by
    intro p c h
    refine le_trans (div_le_div_of_nonneg_right ?_ (Nat.cast_nonneg N)) (after_first δ p (show 0 < N by omega))
    obtain ⟨M, rfl⟩ : ∃ M, N = M + 1 := ⟨N - 1, by omega⟩
    rw [Finset.sum_range_succ', add_comm, add_comm _ ((words (M + 1)).real (After δ (p ++ [0])))]
    refine add_le_add le_rfl ?_
    calc (((M + 1 : ℕ) : ℝ) - 1) * c = ∑ _y ∈ Finset.range M, c := by
          rw [Finset.sum_const, Finset.card_range, nsmul_eq_mul]; push_cast; ring
      _ ≤ _ := Finset.sum_le_sum fun y hy => h (y + 1) (by have := Finset.mem_range.1 hy; omega) (by omega)
  have bound : ∀ (w j y : ℕ), w < N → y < N → ∀ ws : List ℕ, (∀ v ∈ ws, v < 2 ^ 64) →
      ∀ v ∈ w :: (List.replicate j 0 ++ y :: ws), v < 2 ^ 64 := by
    intro w j y hw hy ws hws v hv
    rcases List.mem_cons.1 hv with rfl | hv
    · omega
    rcases List.mem_append.1 hv with hv | hv
    · rw [List.eq_of_mem_replicate hv]; exact Nat.two_pow_pos 64
    rcases List.mem_cons.1 hv with rfl | hv
    · omega
    · exact hws v hv
  have again : ∀ w j y, w < N → y < N → y ≠ 0 → s ≤ (words N).real (After δ ((w :: List.replicate j 0) ++ [y])) := by
    intro w j y hw hy hy0
    refine measureReal_mono ?_
    rintro ω ⟨n, h1, k, xs, rest, h2, x, hx, hx2⟩
    obtain ⟨v, _, hv⟩ := real_zeros w j y (by omega) hy0
    rw [List.nil_append] at h1 h2
    refine ⟨n, ?_, k + 1, v :: xs, rest, ?_, x, List.mem_cons_of_mem _ hx, hx2⟩
    · have := bound w j y hw hy _ h1
      simpa using this
    · refine Draws.cons ?_ h2
      have := hv ((List.range n).map ω)
      simpa using this
  have now : ∀ w j y, m ≤ j → w < N → y < N → y ≠ 0 → (1 : ℝ) ≤ (words N).real (After δ ((w :: List.replicate j 0) ++ [y])) := by
    intro w j y hj hw hy hy0
    have : After δ ((w :: List.replicate j 0) ++ [y]) = Set.univ := by
      refine Set.eq_univ_of_forall fun ω => ⟨0, ?_, 1, ?_⟩
      · have := bound w j y hw hy [] (by simp)
        simpa using this
      · obtain ⟨v, hv1, hv⟩ := real_zeros w j y (by omega) hy0
        refine ⟨[v], [], .cons (ws' := []) ?_ (.nil _), v, List.mem_singleton.2 rfl, hv1.trans (le_trans ?_ hm)⟩
        · have := hv []
          simpa using this
        · exact one_div_le_one_div_of_le (by positivity) (pow_le_pow_right₀ (by norm_num) (by omega))
    rw [this, probReal_univ]
  have snoc : ∀ w j, (w :: List.replicate j 0) ++ [0] = w :: List.replicate (j + 1) 0 := by
    intro w j; rw [List.cons_append, List.replicate_succ']
  -- after enough zeros the value is small
  have late : ∀ w, w < N → ∀ t j, m ≤ j → 1 - (1 / (N : ℝ)) ^ t ≤ (words N).real (After δ (w :: List.replicate j 0)) := by
    intro w hw t
    induction t with
    | zero => intro j _; rw [pow_zero, sub_self]; exact measureReal_nonneg
    | succ t ih =>
      intro j hj
      refine le_trans ?_ (step _ 1 fun y h1 h2 => now w j y hj hw h1 h2)
      rw [snoc, le_div_iff₀ (by linarith)]
      have := ih (j + 1) (by omega)
      have e : (1 - (1 / (N : ℝ)) ^ (t + 1)) * N = N - (1 / (N : ℝ)) ^ t := by
        rw [pow_succ, sub_mul, mul_assoc, one_div_mul_cancel (by linarith)]; ring
      rw [e]; linarith
  have late1 : ∀ w, w < N → (words N).real (After δ (w :: List.replicate m 0)) = 1 := by
    intro w hw
    refine le_antisymm (hle _) ?_
    have h : Filter.Tendsto (fun t : ℕ => 1 - (1 / (N : ℝ)) ^ t) Filter.atTop (nhds (1 - 0)) :=
      (tendsto_pow_atTop_nhds_zero_of_lt_one (by positivity) (by rw [div_lt_one (by linarith)]; exact hNr)).const_sub 1
    rw [sub_zero] at h
    exact le_of_tendsto' h fun t => late w hw t m le_rfl
  have early : ∀ w, w < N → ∀ t, t ≤ m → 1 - (1 - (1 / (N : ℝ)) ^ t) * (1 - s) ≤ (words N).real (After δ (w :: List.replicate (m - t) 0)) := by
    intro w hw t
    induction t with
    | zero => intro _; rw [Nat.sub_zero, late1 w hw, pow_zero]; linarith
    | succ t ih =>
      intro ht
      refine le_trans ?_ (step _ s fun y h1 h2 => again w _ y hw h1 h2)
      rw [snoc, show m - (t + 1) + 1 = m - t by omega, le_div_iff₀ (by linarith)]
      have := ih (by omega)
      have e : (1 - (1 - (1 / (N : ℝ)) ^ (t + 1)) * (1 - s)) * N = N - (N - (1 / (N : ℝ)) ^ t) * (1 - s) := by
        rw [pow_succ, sub_mul, mul_right_comm, sub_mul, mul_assoc, one_div_mul_cancel (by linarith)]; ring
      rw [e]; nlinarith
  have first : 1 - (1 - (1 / (N : ℝ)) ^ m) * (1 - s) ≤ s := by
    refine le_trans ?_ (after_first δ [] (show 0 < N by omega))
    rw [le_div_iff₀ (by linarith)]
    calc _ = ∑ _w ∈ Finset.range N, (1 - (1 - (1 / (N : ℝ)) ^ m) * (1 - s)) := by
          rw [Finset.sum_const, Finset.card_range, nsmul_eq_mul, mul_comm]
      _ ≤ _ := Finset.sum_le_sum fun w hw => by
        have := early w (Finset.mem_range.1 hw) m le_rfl
        simpa using this
  have hp : 0 < (1 / (N : ℝ)) ^ m := by positivity
  have : (1 / (N : ℝ)) ^ m * (1 - s) ≤ 0 := by linarith
  have : 1 - s ≤ 0 := by
    by_contra hc
    exact absurd this (not_le.2 (mul_pos hp (not_le.1 hc)))
  exact le_antisymm (hle _) (by linarith)

/-- **C84, with probability one**: if the engine returns independent, uniformly distributed words, `real(upper)` ends with a number, for
every positive bound of the format. -/
theorem C84_upper_almost_surely (F : Format) (u : ℚ) (hu : Rep F u) (h0 : 0 < u) :
    engine.real {ω | ∃ fuel n q rest, realUpper F fuel (.fin u) ((List.range n).map ω) = some (.ok (.fin q), rest)} = 1 := by
  have hN : 1 < 2 ^ 64 := Nat.one_lt_two_pow (by norm_num)
  have := uniformBelow_isProb (show 0 < 2 ^ 64 by omega)
  have : IsProbabilityMeasure engine := by unfold engine; infer_instance
  refine le_antisymm measureReal_le_one ?_
  refine le_trans (small_appears (1 / 2) 1 (by norm_num) hN le_rfl).ge (measureReal_mono (μ := engine) ?_)
  rintro ω ⟨n, h1, k, xs, rest, h2, h3⟩
  rw [List.nil_append] at h1 h2
  obtain ⟨q, rest', h⟩ := C84_upper_ends F u hu h0 k _ rest xs h1 h2 h3
  exact ⟨k, n, q, rest', h⟩

/-- **C84, with probability one**: `real(lower, upper)` ends with a number, for all bounds of the format in the right order. -/
theorem C84_range_almost_surely (F : Format) (l u : ℚ) (h1 : Rep F 1) (h34 : Rep F (3 / 4)) (hl : Rep F l) (hu : Rep F u) (hlu : l < u) :
    engine.real {ω | ∃ fuel n q rest, realRange F fuel (.fin l) (.fin u) ((List.range n).map ω) = some (.ok (.fin q), rest)} = 1 := by
  have hN : 1 < 2 ^ 64 := Nat.one_lt_two_pow (by norm_num)
  have := uniformBelow_isProb (show 0 < 2 ^ 64 by omega)
  have : IsProbabilityMeasure engine := by unfold engine; infer_instance
  refine le_antisymm measureReal_le_one ?_
  have hm : 1 / 2 ^ (64 * (F.p + 1)) ≤ unit F / 8 := by
    unfold unit
    rw [zpow_neg, zpow_natCast, div_le_div_iff₀ (by positivity) (by norm_num), one_mul, inv_mul_eq_div, le_div_iff₀ (by positivity)]
    calc (8 : ℚ) * 2 ^ F.p = 2 ^ (3 + F.p) := by rw [pow_add]; norm_num
      _ ≤ 2 ^ (64 * (F.p + 1)) := pow_le_pow_right₀ (by norm_num) (by omega)
  refine le_trans (small_appears (unit F / 8) (F.p + 1) hm hN le_rfl).ge (measureReal_mono (μ := engine) ?_)
  rintro ω ⟨n, h3, k, xs, rest, h4, x, h5, h6⟩
  rw [List.nil_append] at h3 h4
  obtain ⟨q, rest', h⟩ := C84_range_ends F l u h1 h34 hl hu hlu k _ rest xs h3 h4 ⟨x, h5, .inl h6⟩
  exact ⟨k, n, q, rest', h⟩

private def double : Format := ⟨53, -1074, 971, by norm_num, by norm_num⟩

/-- Two neighbouring numbers of `double`, where only one result is possible. -/
example : engine.real {ω | ∃ fuel n q rest, realRange double fuel (.fin 1) (.fin (1 + 1 / 2 ^ 52)) ((List.range n).map ω) =
    some (.ok (.fin q), rest)} = 1 :=
  C84_range_almost_surely double 1 _ ⟨1, 0, by decide, by decide, by decide, by norm_num⟩ ⟨3, -2, by decide, by decide, by decide, by norm_num⟩
    ⟨1, 0, by decide, by decide, by decide, by norm_num⟩ ⟨2 ^ 52 + 1, -52, by decide, by decide, by decide, by norm_num⟩ (by norm_num)

end ICPC.Props
