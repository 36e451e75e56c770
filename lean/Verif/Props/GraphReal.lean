import Verif.Model.GraphReal
import Verif.Spec.Mixed
import Verif.Props.Ideal2
import Verif.Props.RandomGraphP
import Verif.Props.Growing

/-!
# C74, C75: random graphs with real parameters, composed with the laws of the real draws (exact arithmetic)
-/

namespace ICPC.Props

open ICPC ICPC.Gen ICPC.Ideal ICPC.Spec ICPC.Spec.EdgeMap MeasureTheory

variable {E : Type} [Inhabited E]

private theorem good_draws : ∀ᵐ ω ∂independentUniforms, ∀ k, 0 < ω k ∧ ω k < 1 := by
  rw [ae_all_iff]
  intro k
  have : Measure.map (fun ω : ℕ → ℝ => ω k) independentUniforms = uniform01 := Measure.infinitePi_map_eval (fun _ => uniform01) k
  have h1 : ∀ᵐ u ∂uniform01, 0 < u ∧ u < 1 := by
    unfold uniform01
    filter_upwards [ae_restrict_mem measurableSet_Ioo] with u hu
    exact hu
  rw [← this] at h1
  exact ae_of_ae_map (measurable_pi_apply k).aemeasurable h1

private theorem outside {n : ℤ} {p : ℝ} {x : ℤ} (h : ¬ (0 ≤ x ∧ x ≤ n)) : probIn (fun f => binomial f n p) {x} = 0 := by
  unfold probIn
  rw [← nonpos_iff_eq_zero, ← measure_empty (μ := independentUniforms)]
  refine measure_mono_ae ?_
  filter_upwards [good_draws] with ω hω
  rintro ⟨fuel, y, ω', h1, rfl⟩
  exact (h (C73_binomial_range fuel (fun k => ⟨(hω k).1, (hω k).2.le⟩) h1)).elim

omit [Inhabited E] in
/-- A number of edges, then a uniform set of as many edges. -/
theorem drawn_real {dir : Bool} {n N : ℕ} {P : Finset (Int × Int)} {r : ℤ → Rand (Graph E)} (hN : N = P.card) (hP : P ⊆ allPairs dir n)
    (hsat : ∀ k : ℕ, k ≤ P.card → SatOk (r k) fun g => ∃ S, S ⊆ P ∧ S.card = k ∧ HasExactly g dir n S)
    (hunif : ∀ S ⊆ P, probEdges (r S.card) dir n S = 1 / ((P.card.choose S.card : Nat) : ℚ)) {p c : ℝ} (hp : 0 < p) (hp1 : p < 1) (hc : 0 ≤ c)
    (hlaw : ∀ k : ℕ, k ≤ N → probIn (fun f => binomial f N p) {(k : ℤ)} = ENNReal.ofReal (N.choose k * p ^ k * (1 - p) ^ (N - k) * c))
    {S : Finset (Int × Int)} (hS : S ⊆ P) :
    probThen (fun f => binomial f N p) r (fun g => HasExactly g dir n S) = ENNReal.ofReal ((∏ e ∈ P, if e ∈ S then p else 1 - p) * c) := by
  have hcard := Finset.card_le_card hS
  unfold probThen
  rw [tsum_eq_single (S.card : ℤ)]
  · rw [hlaw _ (by omega)]
    have e0 : probThat (r S.card) (fun g => HasExactly g dir n S) = 1 / ((P.card.choose S.card : Nat) : ℚ) := hunif S hS
    have hch : 0 < P.card.choose S.card := Nat.choose_pos hcard
    have hq : (0 : ℝ) < 1 - p := by linarith
    rw [e0, ← ENNReal.ofReal_mul (by positivity)]
    congr 1
    rw [Finset.prod_ite, Finset.prod_const, Finset.prod_const]
    have e1 : P.filter (· ∈ S) = S := by
      ext x
      simpa using fun h => hS h
    have e2 : (P.filter (· ∉ S)).card = P.card - S.card := by
      rw [← Finset.card_sdiff_of_subset hS]
      congr 1
      ext x
      simp
    rw [e1, e2, hN]
    have : ((P.card.choose S.card : Nat) : ℝ) ≠ 0 := by positivity
    push_cast
    field_simp
  · intro x hx
    by_cases h : 0 ≤ x ∧ x ≤ N
    · have e0 : probThat (r x) (fun g => HasExactly g dir n S) = 0 := by
        have := hsat x.toNat (by omega)
        rw [Int.toNat_of_nonneg h.1] at this
        unfold probThat
        rw [expect_congr_ok this (h := fun _ => 0), expect_zero]
        rintro g ⟨T, h1, h2, h3⟩
        rw [if_neg]
        intro h4
        have := HasExactly.unique (h1.trans hP) (hS.trans hP) h3 h4
        subst this
        omega
      rw [e0]
      simp
    · rw [outside h, zero_mul]

section

attribute [local irreducible] randomGraph randomBipartite SatOk

/-- **C74**: the undirected `randomGraph(n, p)` with its call of `binomial` (C73) is the graph of Erdős and Rényi: every edge exists independently
with probability `p`.  The last factor is the probability that the call of `binomial` is not undefined.  (Partial: exact arithmetic, and only for the
parameters for which `binomial` uses geometric gaps.) -/
theorem C74_composed_partial (n : ℕ) (hl : I64 (n * (n - 1) : Int)) {p : ℝ} (hp : 0 < p) (hp1 : p < 1) (hs : min p (1 - p) * n.choose 2 < 10)
    (S : Finset (Int × Int)) (hS : S ⊆ allPairs false n) :
    probThen (fun f => binomial f (n.choose 2 : ℕ) p) (fun m => (randomGraph false n m : Rand (Graph E))) (fun g => HasExactly g false n S)
      = ENNReal.ofReal ((∏ e ∈ allPairs false n, if e ∈ S then p else 1 - p) * (1 - max p (1 - p) ^ (2 ^ 63 - 1 - n.choose 2))) := by
  have hn : I64 (n : Int) := by
    unfold I64 at *
    rcases Nat.eq_zero_or_pos n with rfl | h
    · simp
    · rcases Nat.lt_or_ge n 3 with h | h
      · omega
      · constructor
        · omega
        · nlinarith [hl.2]
  have hN : n.choose 2 < 2 ^ 63 := by
    have h2 : 2 * n.choose 2 = n * (n - 1) := by
      rw [Nat.choose_two_right]
      exact Nat.mul_div_cancel' (Nat.even_mul_pred_self n).two_dvd
    have e : ((n * (n - 1) : Nat) : Int) = n * (n - 1) := by
      cases n with
      | zero => simp
      | succ n => push_cast; simp
    unfold I64 at hl
    omega
  have hq : (0 : ℝ) < max p (1 - p) := lt_of_lt_of_le hp (le_max_left _ _)
  have hq1 : max p (1 - p) ≤ 1 := max_le hp1.le (by linarith)
  refine drawn_real (C49_number n).2.symm (Finset.Subset.refl _)
    (fun k hk => SatOk.mono (C49_randomGraph n k hn hl hk) fun g ⟨_, T, h1, h2, h3, _⟩ => ⟨T, h1, h2, h3⟩)
    (fun S hS => C49_randomGraph_uniform n S.card hn hl S hS rfl) hp hp1 (sub_nonneg.2 (pow_le_one₀ hq.le hq1)) ?_ hS
  intro k hk
  exact C73_binomial_partial hN hp hp1 hs hk

/-- **C74**: the same for `randomBipartite(n, m, p)`. -/
theorem C74_bipartite_composed_partial (n m : ℕ) (hn : I64 (n + m : Int)) (hl : I64 ((n * m : ℕ) : Int)) {p : ℝ} (hp : 0 < p) (hp1 : p < 1)
    (hs : min p (1 - p) * (n * m : ℕ) < 10) (S : Finset (Int × Int)) (hS : S ⊆ crossPairs false n m) :
    probThen (fun f => binomial f (n * m : ℕ) p) (fun k => (randomBipartite false n m k : Rand (Graph E))) (fun g => HasExactly g false (n + m) S)
      = ENNReal.ofReal ((∏ e ∈ crossPairs false n m, if e ∈ S then p else 1 - p) * (1 - max p (1 - p) ^ (2 ^ 63 - 1 - n * m))) := by
  have hl' : I64 ((crossPairs false n m).card : Int) := by rw [(C56_number n m).2]; exact hl
  have hq : (0 : ℝ) < max p (1 - p) := lt_of_lt_of_le hp (le_max_left _ _)
  have hq1 : max p (1 - p) ≤ 1 := max_le hp1.le (by linarith)
  refine drawn_real (C56_number n m).2.symm crossPairs_sub
    (fun k hk => SatOk.mono (C56_randomBipartite n m k hn hl' hk) fun g ⟨_, T, h1, h2, h3, _⟩ => ⟨T, h1, h2, h3⟩)
    (fun S hS => C56_randomBipartite_uniform n m S.card hn hl' S hS rfl) hp hp1 (sub_nonneg.2 (pow_le_one₀ hq.le hq1)) ?_ hS
  intro k hk
  refine C73_binomial_partial ?_ hp hp1 hs hk
  unfold I64 at hl
  omega

end

/-- A triangle with probability 1/4 for each edge has no edge with probability 27/64, up to the undefined runs. -/
example : probThen (fun f => binomial f (Nat.choose 3 2 : ℕ) (1 / 4)) (fun m => (randomGraph false (3 : ℕ) m : Rand (Graph Unit)))
    (fun g => HasExactly g false 3 ∅) = ENNReal.ofReal (27 / 64 * (1 - (3 / 4) ^ (2 ^ 63 - 1 - 3))) := by
  have e : (1 : ℝ) - 1 / 4 = 3 / 4 := by norm_num
  have m1 : min (1 / 4 : ℝ) (3 / 4) = 1 / 4 := min_eq_left (by norm_num)
  have m2 : max (1 / 4 : ℝ) (3 / 4) = 3 / 4 := max_eq_right (by norm_num)
  have c : Nat.choose 3 2 = 3 := rfl
  have := C74_composed_partial (E := Unit) 3 (by unfold I64; omega) (p := 1 / 4) (by norm_num) (by norm_num)
    (by rw [e, m1, c]; norm_num) ∅ (by simp)
  rw [e, m2] at this
  rw [this, c]
  congr 2
  rw [Finset.prod_congr rfl (g := fun _ => (3 / 4 : ℝ)) (fun e _ => by simp), Finset.prod_const, (C49_number 3).2]
  norm_num [c]

/-! ## `randomGrowingGraph` -/

/-- In exact arithmetic the first draw is taken. -/
private theorem degree_run {i : ℕ} (hi : I64 (i + 1 : Int)) {p : ℝ} (hp : 0 ≤ p) (hp1 : p ≤ 1) {ω : ℕ → ℝ} (h0 : 0 < ω 0) (h1 : ω 0 < 1) (fuel : ℕ) :
    (degree (fuel + 1) p i ω).map (·.1) = .ok ⌊p * ((i + 1 : ℕ) * ω 0)⌋ ∧ 0 ≤ ⌊p * ((i + 1 : ℕ) * ω 0)⌋ ∧ ⌊p * ((i + 1 : ℕ) * ω 0)⌋ ≤ i := by
  have hx0 : (0 : ℝ) ≤ (i + 1 : ℕ) * ω 0 := by positivity
  have hx1 : ((i + 1 : ℕ) : ℝ) * ω 0 < (i + 1 : ℕ) := by
    have : (0 : ℝ) < (i + 1 : ℕ) := by positivity
    nlinarith
  have hd0 : 0 ≤ ⌊p * ((i + 1 : ℕ) * ω 0)⌋ := Int.floor_nonneg.2 (mul_nonneg hp hx0)
  have hd1 : ⌊p * ((i + 1 : ℕ) * ω 0)⌋ ≤ i := by
    have : p * ((i + 1 : ℕ) * ω 0) < ((i + 1 : ℕ) : ℝ) := lt_of_le_of_lt (mul_le_of_le_one_left hx0 hp1) hx1
    have : ⌊p * ((i + 1 : ℕ) * ω 0)⌋ < ((i + 1 : ℕ) : ℤ) := Int.floor_lt.2 (by exact_mod_cast this)
    omega
  refine ⟨?_, hd0, hd1⟩
  have hj : (((i : Int) + 1 : Int) : ℝ) = ((i + 1 : ℕ) : ℝ) := by push_cast; ring
  unfold degree
  rw [chk_ok hi, lift_ok_bind]
  unfold realIn
  rw [bind_assoc, require_bind (by rw [hj]; positivity)]
  unfold realInLoop
  rw [hj]
  have e : (0 : ℝ) * (1 - ω 0) + (i + 1 : ℕ) * ω 0 = (i + 1 : ℕ) * ω 0 := by ring
  rw [bind_assoc, real_bind]
  simp only [e]
  rw [if_pos ⟨hx0, hx1⟩, pure_bind]
  unfold truncated
  rw [if_neg (not_lt.2 (mul_nonneg hp hx0)), chk_ok ?_, lift_ok]
  · rfl
  · unfold I64 at *
    omega

/-- The probability that `⌊x * u⌋ = d`. -/
private theorem floor_law {x : ℝ} (hx : 0 < x) (d : ℕ) :
    uniform01 {u | ⌊x * u⌋ = (d : ℤ)} = ENNReal.ofReal (min 1 ((d + 1) / x) - min 1 (d / x)) := by
  have e : {u : ℝ | ⌊x * u⌋ = (d : ℤ)} = Set.Ico (d / x) ((d + 1) / x) := by
    ext u
    simp only [Set.mem_ofPred_eq, Set.mem_Ico]
    rw [Int.floor_eq_iff, div_le_iff₀ hx, lt_div_iff₀ hx, mul_comm u x]
    push_cast
    rfl
  have hd0 : (0 : ℝ) ≤ d / x := by positivity
  have hdd : (d : ℝ) / x < (d + 1) / x := by gcongr; linarith
  rw [e, uniform01, Measure.restrict_apply measurableSet_Ico]
  have h1 : volume (Set.Ico ((d : ℝ) / x) ((d + 1) / x) ∩ Set.Ioo 0 1) = volume (Set.Ico (min 1 ((d : ℝ) / x)) (min 1 ((d + 1) / x))) := by
    refine measure_congr ?_
    have h0 : ∀ᵐ u : ℝ ∂volume, u ≠ 0 := by
      rw [ae_iff]
      simp
    filter_upwards [h0] with u hu
    refine propext ?_
    show (u ∈ Set.Ico ((d : ℝ) / x) ((d + 1) / x) ∧ u ∈ Set.Ioo (0 : ℝ) 1) ↔ u ∈ Set.Ico (min 1 ((d : ℝ) / x)) (min 1 ((d + 1) / x))
    simp only [Set.mem_Ico, Set.mem_Ioo, min_le_iff, lt_min_iff]
    constructor
    · rintro ⟨⟨a, b⟩, c, d⟩
      exact ⟨.inr a, d, b⟩
    · rintro ⟨a | a, b, c⟩
      · linarith
      · exact ⟨⟨a, c⟩, lt_of_le_of_ne (hd0.trans a) hu.symm, b⟩
  rw [h1, Real.volume_Ico]

private theorem grow_integral (n : ℕ) (hn : I64 n) {p : ℝ} (hp : 0 ≤ p) (hp1 : p ≤ 1) (fuel : ℕ) (S : Finset (Int × Int)) (hS : S ⊆ allPairs false n) :
    ∫⁻ ω, ENNReal.ofReal ((probEdges (Ideal.randomGrowingGraph (fuel + 1) n p ω : Rand (Graph E)) false n S : ℚ) : ℝ) ∂independentUniforms
      = ∏ i ∈ Finset.range n, ENNReal.ofReal (1 / (i.choose (smaller S i) : ℝ)) * uniform01 {u | ⌊p * (i + 1 : ℕ) * u⌋ = ((smaller S i : ℕ) : ℤ)} := by
  classical
  set t : ℕ → Set ℝ := fun i => {u | ⌊p * (i + 1 : ℕ) * u⌋ = ((smaller S i : ℕ) : ℤ)} with ht
  have hmeas : ∀ i, MeasurableSet (t i) := fun i => ((measurable_id.const_mul _).floor (measurableSet_singleton _) : MeasurableSet _)
  have hprod : MeasurableSet (Set.pi (Finset.range n : Set ℕ) t) := .pi (Finset.countable_toSet _) fun i _ => hmeas i
  have e : ∀ᵐ ω ∂independentUniforms,
      ENNReal.ofReal ((probEdges (Ideal.randomGrowingGraph (fuel + 1) n p ω : Rand (Graph E)) false n S : ℚ) : ℝ)
        = (Set.pi (Finset.range n : Set ℕ) t).indicator
            (fun _ => ENNReal.ofReal (∏ i ∈ Finset.range n, (1 / (i.choose (smaller S i) : ℝ)))) ω := by
    filter_upwards [good_draws] with ω hω
    have hrun : ∀ i : Int, 0 ≤ i → i < n → (degree (fuel + 1) p i fun k => ω (i.toNat + k)).map (·.1) = .ok ⌊p * ((i.toNat + 1 : ℕ) * ω i.toNat)⌋ ∧
        0 ≤ ⌊p * ((i.toNat + 1 : ℕ) * ω i.toNat)⌋ ∧ ⌊p * ((i.toNat + 1 : ℕ) * ω i.toNat)⌋ ≤ i := by
      intro i h0 h1
      have := degree_run (i := i.toNat) (by unfold I64 at *; omega) hp hp1 (ω := fun k => ω (i.toNat + k)) (hω _).1 (hω _).2 fuel
      rw [Int.toNat_of_nonneg h0] at this
      exact this
    unfold Ideal.randomGrowingGraph
    rw [show decide (0 ≤ p ∧ p ≤ 1) = true from decide_eq_true ⟨hp, hp1⟩]
    rw [show judgeAssert true = .ok () from rfl, Rand.lift_ok, Rand.bind_done_ok, C75_law_partial _ hn ?_ S hS]
    · have e1 : ∀ i ∈ Finset.range n, prob (Rand.lift ((degree (fuel + 1) p (i : Int) fun k => ω ((i : Int).toNat + k)).map fun y => y.1)) ((smaller S i : ℕ) : Int)
          / ((i.choose (smaller S i) : Nat) : ℚ) = if ω i ∈ t i then 1 / ((i.choose (smaller S i) : Nat) : ℚ) else 0 := by
        intro i hi
        rw [(hrun i (by omega) (by have := Finset.mem_range.1 hi; omega)).1, Rand.lift_ok]
        show (if ⌊p * (((i : Int).toNat + 1 : ℕ) * ω (i : Int).toNat)⌋ = ((smaller S i : ℕ) : ℤ) then (1 : ℚ) else 0) / _ = _
        rw [Int.toNat_natCast, ← mul_assoc]
        by_cases hc : ω i ∈ t i
        · have hc' : ⌊p * (i + 1 : ℕ) * ω i⌋ = ((smaller S i : ℕ) : ℤ) := hc
          rw [if_pos hc, if_pos hc']
        · have hc' : ¬ ⌊p * (i + 1 : ℕ) * ω i⌋ = ((smaller S i : ℕ) : ℤ) := hc
          rw [if_neg hc, if_neg hc', zero_div]
      rw [Finset.prod_congr rfl e1]
      by_cases hc : ω ∈ Set.pi (Finset.range n : Set ℕ) t
      · rw [Set.indicator_of_mem hc, Finset.prod_congr rfl (fun i hi => if_pos (hc i (by simpa using hi)))]
        push_cast
        rfl
      · rw [Set.indicator_of_notMem hc]
        have : ∃ i ∈ Finset.range n, ω i ∉ t i := by
          by_contra hh
          push Not at hh
          exact hc fun i hi => hh i (by simpa using hi)
        obtain ⟨i, hi, hni⟩ := this
        rw [Finset.prod_eq_zero hi (if_neg hni)]
        simp
    · intro i h0 h1
      have := hrun i h0 h1
      rw [this.1, Rand.lift_ok]
      exact satOk_done this.2
  rw [lintegral_congr_ae e, lintegral_indicator hprod, lintegral_const, Measure.restrict_apply .univ, Set.univ_inter]
  unfold independentUniforms
  rw [Measure.infinitePi_pi _ (fun i _ => hmeas i), ENNReal.ofReal_prod_of_nonneg (fun i _ => by positivity), ← Finset.prod_mul_distrib]

/-- **C75**: `randomGrowingGraph(n, p)` with its draws: the numbers of smaller neighbours are independent, that of vertex `i` is the whole part of a
number uniform in `[0, p(i+1))`, and given these numbers all graphs are equally likely.  (Partial: exact arithmetic.) -/
theorem C75_composed_partial (n : ℕ) (hn : I64 n) {p : ℝ} (hp : 0 < p) (hp1 : p ≤ 1) (fuel : ℕ) (S : Finset (Int × Int)) (hS : S ⊆ allPairs false n) :
    ∫⁻ ω, ENNReal.ofReal ((probEdges (Ideal.randomGrowingGraph (fuel + 1) n p ω : Rand (Graph E)) false n S : ℚ) : ℝ) ∂independentUniforms
      = ∏ i ∈ Finset.range n, ENNReal.ofReal ((min 1 ((smaller S i + 1) / (p * (i + 1 : ℕ))) - min 1 (smaller S i / (p * (i + 1 : ℕ))))
          / i.choose (smaller S i)) := by
  rw [grow_integral n hn hp.le hp1 fuel S hS]
  refine Finset.prod_congr rfl fun i _ => ?_
  rw [floor_law (by positivity), ← ENNReal.ofReal_mul (by positivity)]
  congr 1
  ring

/-- **C75**: `p = 0` gives a graph without edges. -/
theorem C75_zero (n : ℕ) (hn : I64 n) (fuel : ℕ) :
    ∫⁻ ω, ENNReal.ofReal ((probEdges (Ideal.randomGrowingGraph (fuel + 1) n 0 ω : Rand (Graph E)) false n ∅ : ℚ) : ℝ) ∂independentUniforms = 1 := by
  rw [grow_integral n hn le_rfl zero_le_one fuel ∅ (by simp)]
  refine Finset.prod_eq_one fun i _ => ?_
  have e : smaller ∅ (i : Int) = 0 := by simp [smaller]
  rw [e]
  simp

/-- **C75**: values of `p` outside `[0, 1]` throw. -/
theorem C75_assertion (n : ℕ) (p : ℝ) (fuel : ℕ) (ω : ℕ → ℝ) (h : p < 0 ∨ 1 < p) :
    (Ideal.randomGrowingGraph fuel n p ω : Rand (Graph E)) = .done (.error .throw) := by
  unfold Ideal.randomGrowingGraph
  rw [decide_eq_false (by rintro ⟨h1, h2⟩; rcases h with h | h <;> linarith)]
  rfl

/-- Two vertices and `p = 1`: the edge is there with probability 1/2. -/
example : ∫⁻ ω, ENNReal.ofReal ((probEdges (Ideal.randomGrowingGraph 1 (2 : ℕ) 1 ω : Rand (Graph Unit)) false 2 {(0, 1)} : ℚ) : ℝ) ∂independentUniforms
    = ENNReal.ofReal (1 / 2) := by
  rw [C75_composed_partial (E := Unit) 2 (by unfold I64; omega) one_pos le_rfl 0 {(0, 1)} (by decide)]
  have e0 : smaller {((0 : Int), (1 : Int))} ((0 : ℕ) : Int) = 0 := by decide
  have e1 : smaller {((0 : Int), (1 : Int))} ((1 : ℕ) : Int) = 1 := by decide
  rw [Finset.prod_range_succ, Finset.prod_range_one, e0, e1, ← ENNReal.ofReal_mul]
  · congr 1
    norm_num
  · norm_num

end ICPC.Props
