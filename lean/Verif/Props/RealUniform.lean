import Verif.Props.RealEnds

/-!
# C112: bounded random reals are uniform up to rounding
-/

namespace ICPC.Props

open MeasureTheory Spec ICPC.Engine ICPC.Fp ICPC.Spec.Fp

/-- The first value of `real()` on the words `ω`. -/
def First (ω : ℕ → ℕ) (v : ℚ) : Prop := ∃ n rest, realWords ((List.range n).map ω) = some (v, rest)

private theorem exponent_append : ∀ {ws rest : List ℕ} {e : ℕ} (zs : List ℕ), exponentLoop ws = some (e, rest) →
    exponentLoop (ws ++ zs) = some (e, rest ++ zs) := by
  intro ws
  induction ws with
  | nil => intro rest e zs h; simp [exponentLoop] at h
  | cons x ws ih =>
    intro rest e zs h
    rw [List.cons_append]
    unfold exponentLoop at h ⊢
    split at h
    · next hx =>
      rw [if_pos hx]
      rw [Option.map_eq_some_iff] at h
      obtain ⟨⟨e', r'⟩, h1, h2⟩ := h
      rw [ih zs h1]
      simp only [Prod.mk.injEq] at h2
      obtain ⟨rfl, rfl⟩ := h2
      rfl
    · next hx =>
      rw [if_neg hx]
      simp only [Option.some.injEq, Prod.mk.injEq] at h
      obtain ⟨rfl, rfl⟩ := h
      rfl

theorem realWords_append {ws rest : List ℕ} {v : ℚ} (zs : List ℕ) (h : realWords ws = some (v, rest)) :
    realWords (ws ++ zs) = some (v, rest ++ zs) := by
  cases ws with
  | nil => simp [realWords] at h
  | cons w ws =>
    rw [List.cons_append]
    unfold realWords at h ⊢
    rw [Option.map_eq_some_iff] at h
    obtain ⟨⟨e', r'⟩, h1, h2⟩ := h
    dsimp only
    rw [exponent_append zs h1]
    simp only [Prod.mk.injEq] at h2
    obtain ⟨rfl, rfl⟩ := h2
    rfl

theorem prefix_append (ω : ℕ → ℕ) {n m : ℕ} (h : n ≤ m) : ∃ zs, (List.range m).map ω = (List.range n).map ω ++ zs := by
  obtain ⟨k, rfl⟩ := Nat.exists_eq_add_of_le h
  exact ⟨_, by rw [List.range_add, List.map_append]⟩

theorem First.unique {ω : ℕ → ℕ} {v v' : ℚ} (h : First ω v) (h' : First ω v') : v = v' := by
  obtain ⟨n, r, h⟩ := h
  obtain ⟨m, r', h'⟩ := h'
  rcases le_total n m with hnm | hnm
  · obtain ⟨zs, e⟩ := prefix_append ω hnm
    rw [e, realWords_append zs h] at h'
    exact (congrArg Prod.fst (Option.some.inj h'))
  · obtain ⟨zs, e⟩ := prefix_append ω hnm
    rw [e, realWords_append zs h'] at h
    exact (congrArg Prod.fst (Option.some.inj h)).symm

/-- Words are below `2^64`. -/
def Words (ω : ℕ → ℕ) : Prop := ∀ i, ω i < 2 ^ 64

theorem not_words_null {N : ℕ} (hN : 0 < N) : words N {ω | ∃ i, N ≤ ω i} = 0 := by
  have := uniformBelow_isProb hN
  have e : {ω : ℕ → ℕ | ∃ i, N ≤ ω i} = ⋃ i, (fun ω : ℕ → ℕ => ω i) ⁻¹' {w | N ≤ w} := by
    ext ω; simp
  rw [e, measure_iUnion_null_iff]
  intro i
  have hs : MeasurableSet {w : ℕ | N ≤ w} := (Set.to_countable _).measurableSet
  have h0 : uniformBelow N {w | N ≤ w} = 0 := by
    unfold uniformBelow
    rw [Measure.smul_apply, Measure.finsetSum_apply, Finset.sum_eq_zero, smul_zero]
    intro w hw
    rw [Measure.dirac_apply' _ hs, Set.indicator_of_notMem]
    have := Finset.mem_range.1 hw
    simpa using this
  unfold words
  rw [(measurePreserving_eval_infinitePi (fun _ : ℕ => uniformBelow N) i).measure_preimage hs.nullMeasurableSet, h0]

theorem first_range {ω : ℕ → ℕ} (hw : Words ω) {v : ℚ} (h : First ω v) : 0 < v ∧ v ≤ 1 := by
  obtain ⟨n, rest, h⟩ := h
  refine realWords_range ?_ h
  intro w hm
  obtain ⟨i, _, rfl⟩ := List.mem_map.1 hm
  exact hw i

/-- The law of `real()` (C98), without a lower bound on `s`. -/
theorem first_law (s : ℚ) (h0 : 0 ≤ s) (h1 : s ≤ 1) : |engine.real {ω | ∃ v, First ω v ∧ v < s} - (s : ℝ)| ≤ 1 / 2 ^ 52 := by
  have := uniformBelow_isProb (show 0 < 2 ^ 64 from Nat.two_pow_pos 64)
  have : IsProbabilityMeasure engine := by unfold engine; infer_instance
  have key : ∀ s : ℚ, 1 / 2 ^ 64 < s → s ≤ 1 → |engine.real {ω | ∃ v, First ω v ∧ v < s} - (s : ℝ)| ≤ (s : ℝ) / 2 ^ 52 := by
    intro s h2 h1
    have h := C98_real s h2 h1
    have e : {ω : ℕ → ℕ | ∃ v, First ω v ∧ v < s} = {ω | ∃ n v rest, realWords ((List.range n).map ω) = some (v, rest) ∧ v < s} := by
      ext ω
      constructor
      · rintro ⟨v, ⟨n, rest, h⟩, hv⟩; exact ⟨n, v, rest, h, hv⟩
      · rintro ⟨n, v, rest, h, hv⟩; exact ⟨v, ⟨n, rest, h⟩, hv⟩
    rw [e]; exact h
  have hs1 : (s : ℝ) ≤ 1 := by exact_mod_cast h1
  have hs0 : (0 : ℝ) ≤ s := by exact_mod_cast h0
  by_cases h2 : 1 / 2 ^ 64 < s
  · refine le_trans (key s h2 h1) (div_le_div_of_nonneg_right hs1 (by positivity))
  · have hs2 : s ≤ 1 / 2 ^ 64 := not_lt.1 h2
    have hs3 : (s : ℝ) ≤ 1 / 2 ^ 64 := by
      have : ((s : ℚ) : ℝ) ≤ ((1 / 2 ^ 64 : ℚ) : ℝ) := Rat.cast_le.2 hs2
      refine le_trans this (le_of_eq ?_)
      push_cast; rfl
    have hk := key (1 / 2 ^ 63) (by norm_num) (by norm_num)
    have hmono : engine.real {ω | ∃ v, First ω v ∧ v < s} ≤ engine.real {ω | ∃ v, First ω v ∧ v < 1 / 2 ^ 63} := by
      refine measureReal_mono ?_
      rintro ω ⟨v, h, hv⟩
      refine ⟨v, h, lt_of_lt_of_le hv (hs2.trans ?_)⟩
      norm_num
    have hc : (((1 / 2 ^ 63 : ℚ)) : ℝ) = 1 / 2 ^ 63 := by push_cast; rfl
    rw [hc] at hk
    have hk := (abs_le.1 hk).2
    have hn : 0 ≤ engine.real {ω | ∃ v, First ω v ∧ v < s} := measureReal_nonneg
    have n1 : (1 : ℝ) / 2 ^ 63 + 1 / 2 ^ 63 / 2 ^ 52 ≤ 1 / 2 ^ 52 := by norm_num
    have n2 : (1 : ℝ) / 2 ^ 64 ≤ 1 / 2 ^ 52 := by norm_num
    rw [abs_le]
    constructor <;> linarith

/-- A loop that scales the first value that it does not reject has the law of the first value, up to what it rejects. -/
private theorem law_of_loop (T : Set (ℕ → ℕ)) (τ η : ℚ) (hτ0 : 0 ≤ τ) (hτ1 : τ ≤ 1) (hη : 0 ≤ η)
    (hup : ∀ ω, Words ω → ω ∈ T → ∃ x, First ω x ∧ (x < τ + η ∨ 1 - η ≤ x))
    (hlo : ∀ ω, Words ω → ∀ x, First ω x → η ≤ x → x < τ - η → ω ∈ T) :
    |engine.real T - (τ : ℝ)| ≤ 2 * ((η : ℝ) + 1 / 2 ^ 52) := by
  have := uniformBelow_isProb (show 0 < 2 ^ 64 from Nat.two_pow_pos 64)
  have : IsProbabilityMeasure engine := by unfold engine; infer_instance
  have hT1 : engine.real T ≤ 1 := measureReal_le_one
  have hT0 : 0 ≤ engine.real T := measureReal_nonneg
  have hτ0' : (0 : ℝ) ≤ τ := by exact_mod_cast hτ0
  have hτ1' : (τ : ℝ) ≤ 1 := by exact_mod_cast hτ1
  have hη' : (0 : ℝ) ≤ η := by exact_mod_cast hη
  have hκ : (0 : ℝ) < 1 / 2 ^ 52 := by positivity
  by_cases hη1 : 1 ≤ η
  · have : (1 : ℝ) ≤ η := by exact_mod_cast hη1
    rw [abs_le]; constructor <;> linarith
  have hη1 := not_le.1 hη1
  have hlaw := first_law
  generalize (1 : ℝ) / 2 ^ 52 = κ at hlaw hκ ⊢
  have hnull : engine.real {ω | ¬ Words ω} = 0 := by
    have : {ω : ℕ → ℕ | ¬ Words ω} = {ω | ∃ i, 2 ^ 64 ≤ ω i} := by
      ext ω; simp [Words]
    rw [this, Measure.real, show engine = words (2 ^ 64) from rfl, not_words_null (Nat.two_pow_pos 64)]
    rfl
  rw [abs_le]
  constructor
  · -- from below
    by_cases h : τ - η ≤ 0
    · have : (τ : ℝ) - η ≤ 0 := by exact_mod_cast h
      linarith
    have h := not_le.1 h
    have hsub : {ω | ∃ v, First ω v ∧ v < τ - η} ⊆ T ∪ ({ω | ∃ v, First ω v ∧ v < η} ∪ {ω | ¬ Words ω}) := by
      rintro ω ⟨v, hv, hv2⟩
      by_cases hw : Words ω
      · by_cases hvη : v < η
        · exact .inr (.inl ⟨v, hv, hvη⟩)
        · exact .inl (hlo ω hw v hv (not_lt.1 hvη) hv2)
      · exact .inr (.inr hw)
    have h1 := (measureReal_mono (μ := engine) hsub).trans (measureReal_union_le _ _)
    have h2 := measureReal_union_le (μ := engine) {ω | ∃ v, First ω v ∧ v < η} {ω | ¬ Words ω}
    have h3 := (abs_le.1 (hlaw (τ - η) h.le (by linarith))).1
    have h4 := (abs_le.1 (hlaw η hη hη1.le)).2
    push_cast at h3
    rw [hnull] at h2
    linarith
  · -- from above
    have hsub : T ⊆ {ω | ∃ v, First ω v ∧ v < τ + η} ∪ ({ω | ∃ v, First ω v ∧ v < 1 - η}ᶜ ∪ {ω | ¬ Words ω}) := by
      intro ω hω
      by_cases hw : Words ω
      · obtain ⟨x, hx, hx2 | hx2⟩ := hup ω hw hω
        · exact .inl ⟨x, hx, hx2⟩
        · refine .inr (.inl ?_)
          rintro ⟨v, hv, hv2⟩
          rw [hv.unique hx] at hv2
          linarith
      · exact .inr (.inr hw)
    have hm : MeasurableSet {ω : ℕ → ℕ | ∃ v, First ω v ∧ v < 1 - η} := by
      have e : {ω : ℕ → ℕ | ∃ v, First ω v ∧ v < 1 - η} = {ω | ∃ n, ∃ v rest, realWords ((List.range n).map ω) = some (v, rest) ∧ v < 1 - η} := by
        ext ω
        constructor
        · rintro ⟨v, ⟨n, rest, h⟩, hv⟩; exact ⟨n, v, rest, h, hv⟩
        · rintro ⟨n, v, rest, h, hv⟩; exact ⟨v, ⟨n, rest, h⟩, hv⟩
      rw [e]
      exact measurable_prefix fun _ ws => ∃ v rest, realWords ws = some (v, rest) ∧ v < 1 - η
    have h1 := (measureReal_mono (μ := engine) hsub).trans (measureReal_union_le _ _)
    have h2 := measureReal_union_le (μ := engine) {ω | ∃ v, First ω v ∧ v < 1 - η}ᶜ {ω | ¬ Words ω}
    have h3 := (abs_le.1 (hlaw (1 - η) (by linarith) (by linarith))).1
    have h4 : engine.real {ω | ∃ v, First ω v ∧ v < 1 - η}ᶜ = 1 - engine.real {ω | ∃ v, First ω v ∧ v < 1 - η} :=
      probReal_compl_eq_one_sub hm
    have h5 : engine.real {ω | ∃ v, First ω v ∧ v < τ + η} ≤ τ + η + κ := by
      by_cases h : τ + η ≤ 1
      · have h6 := (abs_le.1 (hlaw (τ + η) (by linarith) h)).2
        push_cast at h6
        linarith
      · have h6 : engine.real {ω | ∃ v, First ω v ∧ v < τ + η} ≤ 1 := measureReal_le_one
        have : (1 : ℝ) ≤ τ + η := by exact_mod_cast (not_le.1 h).le
        linarith
    push_cast at h3
    rw [hnull] at h2
    linarith

private theorem cond_cases {a : Flt} {l u : ℚ} : (Fp.le (.fin l) a && Fp.lt a (.fin u)) = true ↔ ∃ q, a = .fin q ∧ l ≤ q ∧ q < u := by
  have hlt : ∀ a b : ℚ, Fp.lt (.fin a) (.fin b) = decide (a < b) := by
    intro a b
    unfold Fp.lt
    rw [show Fp.le (.fin a) (.fin b) = decide (a ≤ b) from rfl, show Fp.le (.fin b) (.fin a) = decide (b ≤ a) from rfl]
    by_cases h : a < b
    · simp [h, h.le]
    · simp [h, not_lt.1 h]
  constructor
  · intro h
    cases a with
    | nan s => simp [Fp.le] at h
    | inf s => cases s <;> simp [Fp.le, Fp.lt] at h
    | fin q =>
      rw [hlt, show Fp.le (.fin l) (.fin q) = decide (l ≤ q) from rfl] at h
      simp at h; exact ⟨q, rfl, h⟩
  · rintro ⟨q, rfl, h1, h2⟩
    rw [hlt, show Fp.le (.fin l) (.fin q) = decide (l ≤ q) from rfl]
    simp [h1, h2]

/-- The error of rounding in one iteration of `real(lower, upper)`. -/
private theorem range_iteration {F : Format} {l u x : ℚ} (h1 : Rep F 1) (hF : F.emin ≤ 1 - F.p) (hl : Rep F l) (hu : Rep F u)
    (hx : 0 < x) (hx1 : x ≤ 1) (ε : ℚ) (hε : ε = 8 * unit F * max |l| |u| + 2 ^ (F.emin + 1))
    (ha : ε ≤ (u - l) * x) (hb : ε < (u - l) * (1 - x)) :
    ∃ q, add F (mul F (.fin l) (sub F (.fin 1) (.fin x))) (mul F (.fin u) (.fin x)) = .fin q ∧ l ≤ q ∧ q < u := by
  obtain ⟨c, b, d, hc, hbr, hd, hc0, hc1, hbl, hdu, he⟩ := range_steps h1 hl hu hx hx1
  have hη := two_zpow_pos (F.emin - 1)
  have hun := unit_pos F
  have hηu : (2 : ℚ) ^ (F.emin - 1) ≤ unit F := by unfold unit; exact two_zpow_le (by omega)
  have h4 : (2 : ℚ) ^ (F.emin + 1) = 4 * 2 ^ (F.emin - 1) := by
    rw [show F.emin + 1 = 2 + (F.emin - 1) by ring, two_zpow_add]; norm_num
  have e1 := round_err hc
  have e2 := round_err hbr
  have e3 := round_err hd
  have hpre : |(b + d) - (l * (1 - x) + u * x)| ≤ ε := by
    rw [hε]
    set M := max |l| |u| with hM
    have hlM : |l| ≤ M := le_max_left _ _
    have huM : |u| ≤ M := le_max_right _ _
    have hM0 : 0 ≤ M := le_trans (abs_nonneg l) hlM
    rw [abs_of_nonneg (by linarith : (0 : ℚ) ≤ 1 - x)] at e1
    have e1' : |c - (1 - x)| ≤ 2 * unit F := by nlinarith
    have hlc : |l * c| ≤ M := by
      rw [abs_mul, abs_of_nonneg hc0]
      nlinarith [abs_nonneg l]
    have hux : |u * x| ≤ M := by
      rw [abs_mul, abs_of_pos hx]
      nlinarith [abs_nonneg u]
    have e2' : |b - l * c| ≤ unit F * M + 2 ^ (F.emin - 1) := le_trans e2 (by nlinarith)
    have e3' : |d - u * x| ≤ unit F * M + 2 ^ (F.emin - 1) := le_trans e3 (by nlinarith)
    have e5 : |l * c - l * (1 - x)| ≤ 2 * unit F * M := by
      rw [← mul_sub, abs_mul]
      nlinarith [abs_nonneg l, abs_nonneg (c - (1 - x))]
    rw [h4, show (b + d) - (l * (1 - x) + u * x) = (b - l * c) + (d - u * x) + (l * c - l * (1 - x)) by ring]
    refine le_trans (abs_add_le _ _) ?_
    have s1 := abs_add_le (b - l * c) (d - u * x)
    nlinarith [mul_nonneg hun.le hM0]
  have hp := abs_le.1 hpre
  have hlo : l ≤ b + d := by nlinarith [hp.1]
  have hhi : b + d ≤ u := by nlinarith [hp.2]
  have hfin : ∃ q, round F (b + d) = .fin q := by
    rcases le_total |l| |u| with h | h
    · exact round_fin hu (abs_le.2 ⟨by have := neg_abs_le l; linarith, hhi.trans (le_abs_self u)⟩)
    · exact round_fin hl (abs_le.2 ⟨by have := neg_abs_le l; linarith, by have := le_abs_self u; linarith⟩)
  obtain ⟨q, hq⟩ := hfin
  have herr := range_err hF hx hx1 hc hbr hd hc0 hc1 hbl hdu hq
  rw [← hε] at herr
  have := (abs_le.1 herr).2
  refine ⟨q, by rw [he, hq], nearest_ge (round_nearest hq) hl hlo, by nlinarith⟩

/-- **C112**: if the engine returns independent, uniformly distributed words, `real(lower, upper)` is less than `t` with probability
`(t - lower) / (upper - lower)`, up to twice the rounding error of one iteration relative to the length of the interval and the error
of `real()`. -/
theorem C112_range (F : Format) (l u t : ℚ) (h1 : Rep F 1) (hF : F.emin ≤ 1 - F.p) (hl : Rep F l) (hu : Rep F u) (hlu : l < u)
    (ht1 : l ≤ t) (ht2 : t ≤ u) :
    |engine.real {ω | ∃ fuel n q rest, realRange F fuel (.fin l) (.fin u) ((List.range n).map ω) = some (.ok (.fin q), rest) ∧ q < t} -
        (((t - l) / (u - l) : ℚ) : ℝ)| ≤
      2 * ((((8 * unit F * max |l| |u| + 2 ^ (F.emin + 1)) / (u - l) : ℚ) : ℝ) + 1 / 2 ^ 52) := by
  have hL : 0 < u - l := by linarith
  set ε := 8 * unit F * max |l| |u| + 2 ^ (F.emin + 1) with hε
  have hε0 : 0 ≤ ε := by
    have := unit_pos F
    have := two_zpow_pos (F.emin + 1)
    have : 0 ≤ max |l| |u| := le_trans (abs_nonneg l) (le_max_left _ _)
    positivity
  have hr : ∀ fuel ws, realRange F fuel (.fin l) (.fin u) ws = realRangeLoop F (.fin l) (.fin u) fuel ws := by
    intro fuel ws
    unfold realRange
    have : Fp.lt (.fin l) (.fin u) = true := by
      have := (cond_cases (a := .fin l) (l := l) (u := u)).2 ⟨l, rfl, le_rfl, hlu⟩
      simp only [Bool.and_eq_true] at this
      exact this.2
    rw [this]
    rfl
  refine law_of_loop _ _ _ (div_nonneg (by linarith) hL.le) ((div_le_one hL).2 (by linarith)) (div_nonneg hε0 hL.le) ?_ ?_
  · rintro ω hw ⟨fuel, n, q, rest, h, hq⟩
    rw [hr] at h
    cases fuel with
    | zero => simp [realRangeLoop] at h
    | succ fuel =>
      unfold realRangeLoop at h
      cases hx : realWords ((List.range n).map ω) with
      | none => rw [hx] at h; cases h
      | some p =>
        obtain ⟨x, ws'⟩ := p
        rw [hx] at h
        dsimp only at h
        have hf : First ω x := ⟨n, ws', hx⟩
        obtain ⟨hx0, hx1⟩ := first_range hw hf
        refine ⟨x, hf, ?_⟩
        split at h
        · -- accepted
          left
          obtain ⟨c, b, d, hc, hb, hd, hc0, hc1, hbl, hdu, he⟩ := range_steps h1 hl hu hx0 hx1
          simp only [Option.some.injEq, Prod.mk.injEq, Except.ok.injEq] at h
          rw [he] at h
          have herr := (abs_le.1 (range_err hF hx0 hx1 hc hb hd hc0 hc1 hbl hdu h.1)).1
          rw [← hε] at herr
          rw [← add_div, lt_div_iff₀ hL]
          nlinarith
        · next hc =>
          by_cases hxa : ε ≤ (u - l) * x
          · right
            by_contra hxb
            have hxb := not_le.1 hxb
            refine hc (cond_cases.2 (range_iteration h1 hF hl hu hx0 hx1 ε hε hxa ?_))
            have : ε / (u - l) < 1 - x := by linarith
            rw [div_lt_iff₀ hL] at this
            linarith
          · left
            have hxa := not_le.1 hxa
            rw [← add_div, lt_div_iff₀ hL]
            nlinarith
  · intro ω hw x hf hxa hxb
    obtain ⟨n, rest, hx⟩ := hf
    obtain ⟨hx0, hx1⟩ := first_range hw ⟨n, rest, hx⟩
    rw [div_le_iff₀ hL] at hxa
    rw [← sub_div, lt_div_iff₀ hL] at hxb
    obtain ⟨q, hq, hq1, hq2⟩ := range_iteration h1 hF hl hu hx0 hx1 ε hε (by linarith) (by nlinarith)
    refine ⟨1, n, q, rest, ?_, ?_⟩
    · rw [hr, realRangeLoop, hx]
      dsimp only
      rw [if_pos (cond_cases.2 ⟨q, hq, hq1, hq2⟩), hq]
    · obtain ⟨c, b, d, hc, hb, hd, hc0, hc1, hbl, hdu, he⟩ := range_steps h1 hl hu hx0 hx1
      rw [he] at hq
      have herr := (abs_le.1 (range_err hF hx0 hx1 hc hb hd hc0 hc1 hbl hdu hq)).2
      rw [← hε] at herr
      nlinarith

/-- **C112**: likewise for `real(upper)`. -/
theorem C112_upper (F : Format) (u t : ℚ) (hu : Rep F u) (h0 : 0 < u) (ht1 : 0 ≤ t) (ht2 : t ≤ u) :
    |engine.real {ω | ∃ fuel n q rest, realUpper F fuel (.fin u) ((List.range n).map ω) = some (.ok (.fin q), rest) ∧ q < t} -
        ((t / u : ℚ) : ℝ)| ≤ 2 * (((unit F + 2 ^ (F.emin - 1) / u : ℚ) : ℝ) + 1 / 2 ^ 52) := by
  set η := unit F + 2 ^ (F.emin - 1) / u with hη
  have hη0 : 0 ≤ η := by
    have := unit_pos F
    have := two_zpow_pos (F.emin - 1)
    positivity
  have hr : ∀ fuel ws, realUpper F fuel (.fin u) ws = realUpperLoop F (.fin u) fuel ws := by
    intro fuel ws
    unfold realUpper
    have : Fp.lt (.fin 0) (.fin u) = true := by
      have := (cond_cases (a := .fin 0) (l := 0) (u := u)).2 ⟨0, rfl, le_rfl, h0⟩
      simp only [Bool.and_eq_true] at this
      exact this.2
    rw [this]
    rfl
  have hit : ∀ x : ℚ, 0 < x → x ≤ 1 → ∃ q, mul F (.fin x) (.fin u) = .fin q ∧ 0 ≤ q ∧ |q - x * u| ≤ η * u := by
    intro x hx0 hx1
    have hxu : |x * u| ≤ |u| := by
      rw [abs_of_pos h0, abs_of_pos (mul_pos hx0 h0)]
      nlinarith
    obtain ⟨q, hq⟩ := round_fin hu hxu
    refine ⟨q, hq, round_nonneg hq (mul_pos hx0 h0).le, le_trans (round_err hq) ?_⟩
    rw [hη, add_mul, div_mul_cancel₀ _ h0.ne']
    rw [abs_of_pos h0] at hxu
    have := unit_pos F
    nlinarith
  refine law_of_loop _ _ _ (div_nonneg ht1 h0.le) ((div_le_one h0).2 ht2) hη0 ?_ ?_
  · rintro ω hw ⟨fuel, n, q, rest, h, hq⟩
    rw [hr] at h
    cases fuel with
    | zero => simp [realUpperLoop] at h
    | succ fuel =>
      unfold realUpperLoop at h
      cases hx : realWords ((List.range n).map ω) with
      | none => rw [hx] at h; cases h
      | some p =>
        obtain ⟨x, ws'⟩ := p
        rw [hx] at h
        dsimp only at h
        have hf : First ω x := ⟨n, ws', hx⟩
        obtain ⟨hx0, hx1⟩ := first_range hw hf
        obtain ⟨v, hv, hv0, herr⟩ := hit x hx0 hx1
        have herr := abs_le.1 herr
        refine ⟨x, hf, ?_⟩
        split at h
        · left
          simp only [Option.some.injEq, Prod.mk.injEq, Except.ok.injEq] at h
          rw [hv] at h
          obtain ⟨rfl⟩ := Flt.fin.inj h.1
          rw [div_add' _ _ _ h0.ne', lt_div_iff₀ h0]
          linarith [herr.1]
        · next hc =>
          right
          by_contra hxb
          have hxb := not_le.1 hxb
          refine hc (cond_cases.2 ⟨v, hv, hv0, ?_⟩)
          nlinarith [herr.2]
  · intro ω hw x hf hxa hxb
    obtain ⟨n, rest, hx⟩ := hf
    obtain ⟨hx0, hx1⟩ := first_range hw ⟨n, rest, hx⟩
    obtain ⟨v, hv, hv0, herr⟩ := hit x hx0 hx1
    have herr := abs_le.1 herr
    rw [div_sub' h0.ne', lt_div_iff₀ h0] at hxb
    have hvt : v < t := by linarith [herr.2]
    refine ⟨1, n, v, rest, ?_, hvt⟩
    rw [hr, realUpperLoop, hx]
    dsimp only
    rw [if_pos (cond_cases.2 ⟨v, hv, hv0, by linarith⟩), hv]

theorem mem_prefix {ω : ℕ → ℕ} (hw : Words ω) (n : ℕ) : ∀ w ∈ (List.range n).map ω, w < 2 ^ 64 := by
  intro w h
  obtain ⟨j, -, rfl⟩ := List.mem_map.1 h
  exact hw j

/-- **C75** (partial: one vertex; that different vertices take different words is not composed with the rest of the generator): the
number of smaller neighbours of vertex `i`, computed in any floating point format, is less than `k` with the probability that
`floor(p * X)` is, `X` uniform in `[0, i+1)`, up to the error of rounding. -/
theorem C75_degree_law_partial (F : Format) (p : ℚ) (i k : ℕ) (h1 : Rep F 1) (hF : F.emin ≤ 1 - F.p) (hi : Rep F (i + 1))
    (hk : Rep F k) (hk0 : 0 < k) (hp0 : 0 < p) (hp1 : p ≤ 1) :
    |engine.real {ω | ∃ fuel n r q rest, realRange F fuel (.fin 0) (.fin (i + 1)) ((List.range n).map ω) = some (.ok r, rest) ∧
        mul F (.fin p) r = .fin q ∧ ⌊q⌋ < k} - ((min 1 (k / (p * (i + 1))) : ℚ) : ℝ)| ≤
      2 * (((9 * unit F + 2 ^ (F.emin + 1) : ℚ) : ℝ) + 1 / 2 ^ 52) := by
  have := uniformBelow_isProb (show 0 < 2 ^ 64 from Nat.two_pow_pos 64)
  have : IsProbabilityMeasure engine := by unfold engine; infer_instance
  have hi0 : (0 : ℚ) < i + 1 := by positivity
  have hk1 : (1 : ℚ) ≤ k := by exact_mod_cast hk0
  have hun := unit_pos F
  have hun2 : 2 * unit F ≤ 1 := by
    have : unit F ≤ 2 ^ (-1 : ℤ) := by unfold unit; exact two_zpow_le (by have := F.one_le_p; omega)
    norm_num at this
    linarith
  have hηu : (2 : ℚ) ^ (F.emin - 1) ≤ unit F := by unfold unit; exact two_zpow_le (by omega)
  have hT := two_zpow_pos (F.emin + 1)
  have hnull : engine.real {ω | ¬ Words ω} = 0 := by
    have : {ω : ℕ → ℕ | ¬ Words ω} = {ω | ∃ i, 2 ^ 64 ≤ ω i} := by
      ext ω; simp [Words]
    rw [this, Measure.real, show engine = words (2 ^ 64) from rfl, not_words_null (Nat.two_pow_pos 64)]
    rfl
  have hE : ∀ t : ℚ, 0 ≤ t → t ≤ i + 1 → |engine.real {ω | ∃ fuel n q rest, realRange F fuel (.fin 0) (.fin (i + 1)) ((List.range n).map ω) =
      some (.ok (.fin q), rest) ∧ q < t} - ((t / (i + 1) : ℚ) : ℝ)| ≤ 2 * (((8 * unit F + 2 ^ (F.emin + 1) : ℚ) : ℝ) + 1 / 2 ^ 52) := by
    intro t ht0 ht1
    have h := C112_range F 0 (i + 1) t h1 hF (rep_zero F) hi hi0 ht0 ht1
    rw [sub_zero, sub_zero, abs_zero, abs_of_pos hi0, max_eq_right hi0.le] at h
    refine h.trans ?_
    have : (8 * unit F * ((i : ℚ) + 1) + 2 ^ (F.emin + 1)) / (i + 1) ≤ 8 * unit F + 2 ^ (F.emin + 1) := by
      rw [div_le_iff₀ hi0]
      have : (0 : ℚ) ≤ i := by positivity
      nlinarith
    have := (Rat.cast_le (K := ℝ)).2 this
    linarith
  -- the value and its product in one run
  have hrun : ∀ ω, Words ω → ∀ fuel n r rest, realRange F fuel (.fin 0) (.fin (i + 1)) ((List.range n).map ω) = some (.ok r, rest) →
      ∃ x q, r = .fin x ∧ 0 ≤ x ∧ x < i + 1 ∧ mul F (.fin p) r = .fin q ∧ Nearest F (p * x) q ∧ |q - p * x| ≤ unit F * (p * x) + 2 ^ (F.emin - 1) := by
    intro ω hw fuel n r rest h
    obtain ⟨x, -, -, -, -, -, -, rfl, hx, hx0, hx1, -⟩ := C84_range F 0 (i + 1) h1 hF (rep_zero F) hi fuel _ rest (mem_prefix hw n) r h
    have hpx0 : 0 ≤ p * x := mul_nonneg hp0.le hx0
    have hpx : p * x ≤ x := mul_le_of_le_one_left hx0 hp1
    obtain ⟨q, hq⟩ := round_fin (F := F) (z := p * x) hx (by rw [abs_of_nonneg hpx0, abs_of_nonneg hx0]; exact hpx)
    have herr := round_err hq
    rw [abs_of_nonneg hpx0] at herr
    exact ⟨x, q, rfl, hx0, hx1, hq, round_nearest hq, herr⟩
  set S := {ω : ℕ → ℕ | ∃ fuel n r q rest, realRange F fuel (.fin 0) (.fin (i + 1)) ((List.range n).map ω) = some (.ok r, rest) ∧
        mul F (.fin p) r = .fin q ∧ ⌊q⌋ < k} with hS
  set A := fun t : ℚ => {ω : ℕ → ℕ | ∃ fuel n q rest, realRange F fuel (.fin 0) (.fin (i + 1)) ((List.range n).map ω) =
      some (.ok (.fin q), rest) ∧ q < t} with hA
  have hup : S ⊆ A (min (i + 1) (k / p)) ∪ {ω | ¬ Words ω} := by
    rintro ω ⟨fuel, n, r, q, rest, h, hq, hlt⟩
    by_cases hw : Words ω
    · left
      obtain ⟨x, q', rfl, hx0, hx1, hq', hn, -⟩ := hrun ω hw fuel n r rest h
      rw [hq'] at hq
      obtain ⟨rfl⟩ := Flt.fin.inj hq
      refine ⟨fuel, n, x, rest, h, lt_min hx1 ?_⟩
      rw [lt_div_iff₀ hp0, mul_comm]
      by_contra hc
      have := nearest_ge hn hk (not_lt.1 hc)
      have h2 := Int.floor_lt.1 hlt
      push_cast at h2
      linarith
    · exact .inr hw
  have hlo : A (min (i + 1) (k * (1 - 2 * unit F) / p)) ⊆ S ∪ {ω | ¬ Words ω} := by
    rintro ω ⟨fuel, n, x, rest, h, hlt⟩
    by_cases hw : Words ω
    · left
      obtain ⟨x', q, hx', hx0, hx1, hq, -, herr⟩ := hrun ω hw fuel n _ rest h
      obtain ⟨rfl⟩ := Flt.fin.inj hx'
      refine ⟨fuel, n, _, q, rest, h, hq, Int.floor_lt.2 ?_⟩
      have h2 := (lt_min_iff.1 hlt).2
      rw [lt_div_iff₀ hp0, mul_comm] at h2
      have h3 := (abs_le.1 herr).2
      push_cast
      have h4 := mul_lt_mul_of_pos_left h2 (by linarith : 0 < 1 + unit F)
      have h5 : unit F ≤ unit F * k := le_mul_of_one_le_right hun.le hk1
      have h6 : 0 < unit F * unit F * k := by positivity
      linarith
    · exact .inr hw
  have mA : ∀ {X Y : Set (ℕ → ℕ)}, X ⊆ Y ∪ {ω | ¬ Words ω} → engine.real X ≤ engine.real Y := by
    intro X Y h
    have := (measureReal_mono (μ := engine) h).trans (measureReal_union_le _ _)
    rw [hnull] at this
    linarith
  have m1 := mA hup
  have m2 := mA hlo
  have hkp : 0 ≤ (k : ℚ) / p := div_nonneg (by positivity) hp0.le
  have hkp2 : 0 ≤ (k : ℚ) * (1 - 2 * unit F) / p := div_nonneg (mul_nonneg (by positivity) (by linarith)) hp0.le
  have e1 := (abs_le.1 (hE (min (i + 1) (k / p)) (le_min hi0.le hkp) (min_le_left _ _))).2
  have e2 := (abs_le.1 (hE (min (i + 1) (k * (1 - 2 * unit F) / p)) (le_min hi0.le hkp2) (min_le_left _ _))).1
  have d1 : min ((i : ℚ) + 1) (k / p) / (i + 1) = min 1 (k / (p * (i + 1))) := by
    rw [← min_div_div_right hi0.le, div_self hi0.ne', div_div]
  have d2 : min 1 (k / (p * ((i : ℚ) + 1))) - 2 * unit F ≤ min ((i : ℚ) + 1) (k * (1 - 2 * unit F) / p) / (i + 1) := by
    rw [← min_div_div_right hi0.le, div_self hi0.ne', div_div]
    have e : (k : ℚ) * (1 - 2 * unit F) / (p * (i + 1)) = k / (p * (i + 1)) * (1 - 2 * unit F) := by ring
    rw [e]
    have ha : 0 ≤ (k : ℚ) / (p * (i + 1)) := by positivity
    generalize (k : ℚ) / (p * (i + 1)) = a at ha
    rcases le_total 1 a with h | h
    · rw [min_eq_left h]
      refine le_min (by linarith) (by nlinarith)
    · rw [min_eq_right h]
      refine le_min (by linarith) (by nlinarith)
  have d2' := (Rat.cast_le (K := ℝ)).2 d2
  rw [d1] at e1
  have hun' : (0 : ℝ) ≤ ((unit F : ℚ) : ℝ) := by exact_mod_cast hun.le
  generalize (1 : ℝ) / 2 ^ 52 = κ at *
  generalize min 1 ((k : ℚ) / (p * (i + 1))) = a at *
  generalize min ((i : ℚ) + 1) (k * (1 - 2 * unit F) / p) / (i + 1) = b at *
  generalize (2 : ℚ) ^ (F.emin + 1) = T at *
  push_cast at *
  rw [abs_le]
  constructor
  · linarith
  · linarith

/-- `binary64`. -/
private def double : Format := ⟨53, -1074, 971, by norm_num, by norm_num⟩

/-- The first quarter of `real(-1e6, 1e6)` has probability `1/4`, up to `10^-14`. -/
example : |engine.real {ω | ∃ fuel n q rest, realRange double fuel (.fin (-1000000)) (.fin 1000000) ((List.range n).map ω) =
    some (.ok (.fin q), rest) ∧ q < -500000} - 1 / 4| ≤ 1 / 10 ^ 14 := by
  have h := C112_range double (-1000000) 1000000 (-500000) ⟨1, 0, by decide, by decide, by decide, by norm_num⟩ (by decide)
    ⟨-1000000, 0, by decide, by decide, by decide, by norm_num⟩ ⟨1000000, 0, by decide, by decide, by decide, by norm_num⟩
    (by norm_num) (by norm_num) (by norm_num)
  have e : (((-500000 - -1000000) / (1000000 - -1000000) : ℚ) : ℝ) = 1 / 4 := by norm_num
  rw [e] at h
  refine h.trans ?_
  have b : (8 * unit double * max |(-1000000 : ℚ)| |1000000| + 2 ^ (double.emin + 1)) / (1000000 - -1000000) ≤ 1 / 2 ^ 50 := by
    have h2 : (2 : ℚ) ^ (double.emin + 1) ≤ 2 ^ (-60 : ℤ) := two_zpow_le (by decide)
    have h3 : unit double = 2 ^ (-53 : ℤ) := rfl
    rw [h3]
    norm_num at *
    linarith
  have b' : (((8 * unit double * max |(-1000000 : ℚ)| |1000000| + 2 ^ (double.emin + 1)) / (1000000 - -1000000) : ℚ) : ℝ) ≤ 1 / 2 ^ 50 := by
    refine le_trans (Rat.cast_le.2 b) (le_of_eq ?_)
    push_cast; rfl
  have n : (2 : ℝ) * (1 / 2 ^ 50 + 1 / 2 ^ 52) ≤ 1 / 10 ^ 14 := by norm_num
  linarith

/-- `real(2)` is less than `1` with probability `1/2`, up to an error. -/
example : |engine.real {ω | ∃ fuel n q rest, realUpper double fuel (.fin 2) ((List.range n).map ω) =
    some (.ok (.fin q), rest) ∧ q < 1} - ((1 / 2 : ℚ) : ℝ)| ≤ 2 * (((unit double + 2 ^ (double.emin - 1) / 2 : ℚ) : ℝ) + 1 / 2 ^ 52) :=
  C112_upper double 2 1 ⟨1, 1, by decide, by decide, by decide, by norm_num⟩ (by norm_num) (by norm_num) (by norm_num)

/-- In `randomGrowingGraph(n, 1/2)`, vertex `9` has at most one smaller neighbour with probability `2/5`, up to `10^-14`. -/
example : |engine.real {ω | ∃ fuel n r q rest, realRange double fuel (.fin 0) (.fin ((9 : ℕ) + 1)) ((List.range n).map ω) = some (.ok r, rest) ∧
    mul double (.fin (1 / 2)) r = .fin q ∧ ⌊q⌋ < (2 : ℕ)} - 2 / 5| ≤ 1 / 10 ^ 14 := by
  have h := C75_degree_law_partial double (1 / 2) 9 2 ⟨1, 0, by decide, by decide, by decide, by norm_num⟩ (by decide)
    ⟨10, 0, by decide, by decide, by decide, by norm_num⟩ ⟨2, 0, by decide, by decide, by decide, by norm_num⟩ (by decide) (by norm_num) (by norm_num)
  have e : ((min 1 (((2 : ℕ) : ℚ) / (1 / 2 * ((9 : ℕ) + 1))) : ℚ) : ℝ) = 2 / 5 := by
    rw [show min 1 (((2 : ℕ) : ℚ) / (1 / 2 * ((9 : ℕ) + 1))) = 2 / 5 by norm_num]; norm_num
  rw [e] at h
  refine h.trans ?_
  have b : 9 * unit double + 2 ^ (double.emin + 1) ≤ 1 / 2 ^ 49 := by
    have h2 : (2 : ℚ) ^ (double.emin + 1) ≤ 2 ^ (-60 : ℤ) := two_zpow_le (by decide)
    have h3 : unit double = 2 ^ (-53 : ℤ) := rfl
    rw [h3]
    norm_num at *
    linarith
  have b' : ((9 * unit double + 2 ^ (double.emin + 1) : ℚ) : ℝ) ≤ 1 / 2 ^ 49 := by
    refine le_trans (Rat.cast_le.2 b) (le_of_eq ?_)
    push_cast; rfl
  have n : (2 : ℝ) * (1 / 2 ^ 49 + 1 / 2 ^ 52) ≤ 1 / 10 ^ 14 := by norm_num
  linarith

end ICPC.Props
