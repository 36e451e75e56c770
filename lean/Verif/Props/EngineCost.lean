import Verif.Spec.EngineCost
import Verif.Props.Engine
import Verif.Props.GraphOps
import Verif.Props.DegreeGraph
import Verif.Props.Tree
import Verif.Props.RandomGraph

/-!
# C100: random programs need few words
-/

namespace ICPC.Props

open MeasureTheory Spec ICPC.Engine

variable {α β : Type}

/-! ### What `wordsUsed` counts -/

theorem rejectLoop_suffix {s m : Nat} : ∀ {ws : List Nat} {x : Nat} {p : Nat × List Nat}, rejectLoop s m x ws = some p →
    ∃ pre, ws = pre ++ p.2 ∧ rejectLoop s m x pre = some (p.1, []) := by
  intro ws
  induction ws with
  | nil =>
    intro x p h
    unfold rejectLoop at h
    split at h
    · cases h
    · rename_i hc
      injection h with h
      subst h
      exact ⟨[], rfl, by simp [rejectLoop, hc]⟩
  | cons w ws ih =>
    intro x p h
    unfold rejectLoop at h
    split at h
    · rename_i hc
      obtain ⟨pre, h1, h2⟩ := ih h
      exact ⟨w :: pre, by rw [h1]; rfl, by rw [rejectLoop, if_pos hc, h2]⟩
    · rename_i hc
      injection h with h
      subst h
      exact ⟨[], rfl, by simp [rejectLoop, hc]⟩

theorem integerWords_suffix (i128 : Bool) {l u : Int} {ws rest : List Nat} {o : Out Int} (h : integerWords i128 l u ws = some (o, rest)) :
    ∃ pre, ws = pre ++ rest ∧ integerWords i128 l u pre = some (o, []) := by
  unfold integerWords at h
  by_cases hlu : l < u
  · rw [if_pos hlu] at h
    obtain ⟨p, hp, h⟩ := Option.map_eq_some_iff.1 h
    injection h with h1 h2
    cases ws with
    | nil => cases hp
    | cons x ws =>
      rw [acceptWord] at hp
      by_cases hx : x * rangeWidth l u % 2 ^ 64 < rangeWidth l u
      · rw [if_pos hx] at hp
        obtain ⟨pre, e1, e2⟩ := rejectLoop_suffix hp
        refine ⟨x :: pre, by rw [e1, h2]; rfl, ?_⟩
        rw [integerWords, if_pos hlu, acceptWord, if_pos hx, e2, ← h1]
        rfl
      · rw [if_neg hx] at hp
        injection hp with hp
        subst hp
        refine ⟨[x], by rw [← h2]; rfl, ?_⟩
        rw [integerWords, if_pos hlu, acceptWord, if_neg hx, ← h1]
        rfl
  · rw [if_neg hlu] at h
    injection h with h
    injection h with h1 h2
    exact ⟨[], by rw [h2]; rfl, by rw [integerWords, if_neg hlu, h1]⟩

theorem run_suffix (i128 : Bool) {r : Rand α} : ∀ {ws rest : List Nat} {o : Out α}, r.run i128 ws = some (o, rest) →
    ∃ pre, ws = pre ++ rest ∧ r.run i128 pre = some (o, []) := by
  induction r with
  | done o =>
    intro ws rest o' h
    rw [Rand.run] at h
    injection h with h
    injection h with h1 h2
    exact ⟨[], by rw [h2]; rfl, by rw [Rand.run, h1]⟩
  | draw l u k ih =>
    intro ws rest o h
    rw [Rand.run] at h
    cases hi : integerWords i128 l u ws with
    | none => rw [hi] at h; cases h
    | some p =>
      obtain ⟨v, ws'⟩ := p
      rw [hi] at h
      obtain ⟨pre, e1, e2⟩ := integerWords_suffix i128 hi
      cases v with
      | error e =>
        injection h with h
        injection h with h1 h2
        exact ⟨pre, by rw [e1, h2], by rw [Rand.run, e2, ← h1]⟩
      | ok v =>
        obtain ⟨pre', e3, e4⟩ := ih v h
        refine ⟨pre ++ pre', by rw [e1, e3, List.append_assoc], ?_⟩
        rw [Rand.run, integerWords_append i128 e2]
        exact e4
  | coin k ih =>
    intro ws rest o h
    cases ws with
    | nil => rw [Rand.run] at h; cases h
    | cons w ws =>
      rw [Rand.run] at h
      obtain ⟨pre, e1, e2⟩ := ih _ h
      exact ⟨w :: pre, by rw [e1]; rfl, by rw [Rand.run]; exact e2⟩

/-- **C100, meaning.** If the execution ends with `rest` left of the first `n` words, then it has used all the others. -/
theorem C100_used (i128 : Bool) (r : Rand α) (ω : ℕ → ℕ) (n : ℕ) (o : Out α) (rest : List ℕ)
    (h : r.run i128 ((List.range n).map ω) = some (o, rest)) : wordsUsed i128 r ω = (n - rest.length : ℕ) := by
  obtain ⟨pre, e1, e2⟩ := run_suffix i128 h
  have hlen : pre.length = n - rest.length := by
    have := congrArg List.length e1
    simp only [List.length_map, List.length_range, List.length_append] at this
    omega
  have hle : pre.length ≤ n := by omega
  have hpre : pre = (List.range pre.length).map ω := by
    have h1 : ((List.range n).map ω).take pre.length = pre := by rw [e1, List.take_left]
    rw [← List.map_take, List.take_range, min_eq_left hle] at h1
    exact h1.symm
  have key : ∀ m, r.run i128 ((List.range m).map ω) = none ↔ m < pre.length := by
    intro m
    constructor
    · intro hm
      by_contra hlt
      obtain ⟨d, rfl⟩ := Nat.exists_eq_add_of_le (not_lt.1 hlt)
      rw [List.range_add, List.map_append, ← hpre, engine_run_append i128 e2] at hm
      cases hm
    · intro hm
      by_contra hne
      obtain ⟨⟨o', rest'⟩, hr⟩ := Option.ne_none_iff_exists'.1 hne
      obtain ⟨d, hd⟩ := Nat.exists_eq_add_of_lt hm
      have h2 : pre = (List.range m).map ω ++ (List.map (fun x => m + x) (List.range (d + 1))).map ω := by
        rw [← List.map_append, ← List.range_add, ← add_assoc, ← hd, ← hpre]
      rw [h2, engine_run_append i128 hr] at e2
      injection e2 with e2
      injection e2 with _ e2
      have := congrArg List.length e2
      simp at this
  unfold wordsUsed
  rw [← hlen, tsum_eq_sum (s := Finset.range pre.length)]
  · rw [Finset.sum_congr rfl (g := fun _ => 1) fun m hm => if_pos ((key m).2 (Finset.mem_range.1 hm))]
    simp
  · intro m hm
    rw [if_neg]
    rw [key]
    simpa using hm

/-! ### The expected number -/

theorem engine_isProb : IsProbabilityMeasure engine := by
  have := uniformBelow_isProb (Nat.two_pow_pos 64)
  unfold engine
  infer_instance

theorem measurable_late (i128 : Bool) (r : Rand α) (n : ℕ) : MeasurableSet {ω : ℕ → ℕ | r.run i128 ((List.range n).map ω) = none} := by
  have e : {ω : ℕ → ℕ | r.run i128 ((List.range n).map ω) = none} =
      {ω : ℕ → ℕ | ∃ m, (fun m ws => m = n ∧ r.run i128 ws = none) m ((List.range m).map ω)} := by
    ext ω
    exact ⟨fun h => ⟨n, rfl, h⟩, fun ⟨m, h1, h2⟩ => by subst h1; exact h2⟩
  rw [e]
  exact measurable_prefix fun m ws => m = n ∧ r.run i128 ws = none

theorem late_first (i128 : Bool) (r : Rand α) (n : ℕ) :
    late i128 r (n + 1) = (∑ w ∈ Finset.range (2 ^ 64), engine.real {ω | r.run i128 (w :: (List.range n).map ω) = none}) / ((2 ^ 64 : ℕ) : ℝ) := by
  have := words_first (N := 2 ^ 64) (Nat.two_pow_pos 64) (measurable_late i128 r (n + 1))
  simp only [Set.mem_ofPred_eq, map_range_cons] at this
  exact this

theorem late_le_one (i128 : Bool) (r : Rand α) (n : ℕ) : late i128 r n ≤ 1 := by
  have := engine_isProb
  exact measureReal_le_one

theorem late_done (i128 : Bool) (o : Out α) (n : ℕ) : late i128 (.done o) n = 0 := by
  unfold late
  have : {ω : ℕ → ℕ | (Rand.done o).run i128 ((List.range n).map ω) = none} = ∅ := by
    ext ω
    simp [Rand.run]
  rw [this, measureReal_empty]

open Classical in
theorem late_draw (i128 : Bool) {l u : Int} (hl : I64 l) (hu : I64 u) (hlu : l < u) (k : Int → Rand α) (n : ℕ) :
    late i128 (.draw l u k) (n + 1) = (∑ w ∈ Finset.range (2 ^ 64),
      if Accepted l u w then late i128 (k (integerValue i128 (toU64 l) (rangeWidth l u) w)) n else late i128 (.draw l u k) n) / ((2 ^ 64 : ℕ) : ℝ) := by
  rw [late_first]
  generalize (2 : ℕ) ^ 64 = N
  congr 1
  refine Finset.sum_congr rfl fun w _ => ?_
  by_cases ha : Accepted l u w
  · rw [if_pos ha]
    have key : ∀ ws, integerWords i128 l u (w :: ws) = some (.ok (integerValue i128 (toU64 l) (rangeWidth l u) w), ws) := by
      intro ws
      rcases integerWords_single i128 hl hu hlu w with ⟨_, h⟩ | ⟨h, _⟩
      · exact absurd ha h
      · exact integerWords_append i128 (t := ws) h
    simp only [Rand.run, key]
    rfl
  · rw [if_neg ha]
    have key : ∀ ws, integerWords i128 l u (w :: ws) = integerWords i128 l u ws := by
      intro ws
      rcases integerWords_single i128 hl hu hlu w with ⟨h, _⟩ | ⟨_, h⟩
      · exact C02_rejected_words_are_skipped i128 l u hl hu hlu w ws h
      · exact absurd h ha
    unfold late
    simp only [Rand.run, key]

theorem late_coin (i128 : Bool) (k : Bool → Rand α) (n : ℕ) :
    late i128 (.coin k) (n + 1) = (late i128 (k false) n + late i128 (k true) n) / 2 := by
  rw [late_first]
  refine coin_average (M := 2 ^ 63) (by norm_num) (Nat.two_pow_pos 63) (card_filter_words C02_bit_uniform) fun w => ?_
  simp only [Rand.run]
  cases bitWord w <;> rfl

theorem late_zero (i128 : Bool) (r : Rand α) : late i128 r 0 ≤ 1 := late_le_one i128 r 0

open Classical in
theorem few_rejected (i128 : Bool) {l u : Int} (hl : I64 l) (hu : I64 u) (hlu : l < u) :
    ((Finset.range (2 ^ 64)).filter fun w => ¬Accepted l u w).card = {w : Nat | w < 2 ^ 64 ∧ integerWords i128 l u [w] = none}.ncard := by
  refine card_filter_words (congrArg Set.ncard ?_)
  ext w
  refine and_congr_right fun _ => ?_
  rcases integerWords_single i128 hl hu hlu w with ⟨e, ha⟩ | ⟨e, ha⟩
  · rw [e]; exact ⟨fun _ => rfl, fun _ => ha⟩
  · rw [e]; exact ⟨fun h => absurd ha h, fun h => by cases h⟩

open Classical in
theorem step_bound {N : ℕ} {acc : ℕ → Prop} (hN : 0 < N) (hR : 2 * ((Finset.range N).filter fun w => ¬acc w).card ≤ N) {F : ℕ → ℝ} {a : ℝ}
    (h1 : ∀ w < N, acc w → F w ≤ a) (h2 : ∀ w < N, ¬acc w → F w ≤ a + 2) : (∑ w ∈ Finset.range N, F w) / (N : ℝ) ≤ a + 1 := by
  have hN' : (0 : ℝ) < N := by exact_mod_cast hN
  rw [div_le_iff₀ hN']
  have h3 : ∑ w ∈ Finset.range N, F w ≤ ∑ w ∈ Finset.range N, (a + if ¬acc w then 2 else 0) := by
    refine Finset.sum_le_sum fun w hw => ?_
    by_cases ha : acc w
    · rw [if_neg (not_not.2 ha), add_zero]; exact h1 w (Finset.mem_range.1 hw) ha
    · rw [if_pos ha]; exact h2 w (Finset.mem_range.1 hw) ha
  rw [Finset.sum_add_distrib, Finset.sum_const, Finset.card_range, nsmul_eq_mul, ← Finset.sum_filter, Finset.sum_const, nsmul_eq_mul] at h3
  have h4 : (2 : ℝ) * ((Finset.range N).filter fun w => ¬acc w).card ≤ N := by exact_mod_cast hR
  linarith

theorem sum_late (i128 : Bool) {r : Rand α} (h : Sat r fun _ => True) : ∀ {D : ℕ}, CallsAtMost r D → ∀ n, ∑ m ∈ Finset.range n, late i128 r m ≤ 2 * D := by
  classical
  induction r with
  | done o => intro D _ n; simp [late_done]
  | draw l u k ih =>
    intro D hD n
    obtain ⟨hl, hu, hlu, hk⟩ := h
    cases D with
    | zero => exact hD.elim
    | succ D =>
      induction n with
      | zero => simp; positivity
      | succ n ihn =>
        rw [Finset.sum_range_succ']
        simp only [late_draw i128 hl hu hlu k]
        rw [← Finset.sum_div, Finset.sum_comm]
        have := late_le_one i128 (.draw l u k) 0
        have hb : (∑ w ∈ Finset.range (2 ^ 64), ∑ m ∈ Finset.range n,
            if Accepted l u w then late i128 (k (integerValue i128 (toU64 l) (rangeWidth l u) w)) m else late i128 (.draw l u k) m) / ((2 ^ 64 : ℕ) : ℝ) ≤ 2 * D + 1 := by
          have hf := few_rejected i128 hl hu hlu
          have hc := C02_few_rejections i128 l u hl hu hlu
          rw [← hf] at hc
          refine step_bound (acc := Accepted l u) (Nat.two_pow_pos 64) hc.le (fun w hw ha => ?_) fun w hw ha => ?_
          · simp only [if_pos ha]
            have hr := integerValue_range i128 hl hu hlu hw
            exact ih _ (hk _ hr.1 hr.2) (hD _ hr.1 hr.2) n
          · simp only [if_neg ha]
            refine ihn.trans ?_
            push_cast
            linarith
        refine (add_le_add hb this).trans ?_
        push_cast
        linarith
  | coin k ih =>
    intro D hD n
    cases D with
    | zero => exact hD.elim
    | succ D =>
      cases n with
      | zero => simp; positivity
      | succ n =>
        rw [Finset.sum_range_succ']
        simp only [late_coin]
        rw [← Finset.sum_div, Finset.sum_add_distrib]
        have h0 := late_le_one i128 (.coin k) 0
        have h1 := ih false (h false) (hD false) n
        have h2 := ih true (h true) (hD true) n
        push_cast
        linarith

/-- **C100, expectation.** A program with at most `D` calls of `Random::integer` and `Random::bit` takes at most `2 * D` words on average. -/
theorem C100_expected (i128 : Bool) (r : Rand α) (h : Sat r fun _ => True) (D : ℕ) (hD : CallsAtMost r D) :
    ∫⁻ ω, wordsUsed i128 r ω ∂engine ≤ 2 * D := by
  classical
  have := engine_isProb
  have hm : ∀ n, Measurable fun ω : ℕ → ℕ => if r.run i128 ((List.range n).map ω) = none then (1 : ENNReal) else 0 := fun n =>
    Measurable.ite (measurable_late i128 r n) measurable_const measurable_const
  unfold wordsUsed
  rw [lintegral_tsum fun n => (hm n).aemeasurable]
  refine ENNReal.tsum_le_of_sum_range_le fun n => ?_
  have e : ∀ m, ∫⁻ ω, (if r.run i128 ((List.range m).map ω) = none then (1 : ENNReal) else 0) ∂engine = ENNReal.ofReal (late i128 r m) := by
    intro m
    unfold late
    rw [ofReal_measureReal, ← lintegral_indicator_one (measurable_late i128 r m)]
    refine lintegral_congr fun ω => ?_
    rw [Set.indicator_apply]
    rfl
  rw [Finset.sum_congr rfl fun m _ => e m, ← ENNReal.ofReal_sum_of_nonneg (f := fun m => late i128 r m) fun m _ => measureReal_nonneg]
  refine (ENNReal.ofReal_le_ofReal (sum_late i128 h hD n)).trans (le_of_eq ?_)
  rw [show (2 * D : ℝ) = ((2 * D : ℕ) : ℝ) by push_cast; rfl, ENNReal.ofReal_natCast]
  push_cast
  rfl


/-! ### The functions of the header -/

/-- All calls are valid and there are at most `D` of them. -/
def Cost (r : Rand α) (D : ℕ) : Prop := Sat r (fun _ => True) ∧ CallsAtMost r D

theorem calls_mono {r : Rand α} : ∀ {D E : ℕ}, D ≤ E → CallsAtMost r D → CallsAtMost r E := by
  induction r with
  | done o => intro D E _ _; cases E <;> trivial
  | draw l u k ih =>
    intro D E h hD
    cases D with
    | zero => exact hD.elim
    | succ D =>
      cases E with
      | zero => omega
      | succ E => exact fun v h1 h2 => ih v (by omega) (hD v h1 h2)
  | coin k ih =>
    intro D E h hD
    cases D with
    | zero => exact hD.elim
    | succ D =>
      cases E with
      | zero => omega
      | succ E => exact fun b => ih b (by omega) (hD b)

theorem Cost.mono {r : Rand α} {D E : ℕ} (h : D ≤ E) (hr : Cost r D) : Cost r E := ⟨hr.1, calls_mono h hr.2⟩

theorem cost_done (o : Out α) (D : ℕ) : Cost (.done o) D := ⟨trivial, by cases D <;> trivial⟩

theorem cost_pure (a : α) (D : ℕ) : Cost (pure a : Rand α) D := cost_done _ D

theorem cost_lift (o : Out α) (D : ℕ) : Cost (Rand.lift o) D := cost_done _ D

theorem cost_lift_bind {o : Out α} {f : α → Rand β} {D : ℕ} (h : ∀ a, o = .ok a → Cost (f a) D) : Cost (Rand.lift o >>= f) D := by
  cases o with
  | error e => exact cost_done _ D
  | ok a => exact h a rfl

theorem cost_bind {r : Rand α} {f : α → Rand β} {E : ℕ} (hf : ∀ a, Cost (f a) E) : ∀ {D : ℕ}, Cost r D → Cost (r >>= f) (D + E) := by
  induction r with
  | done o =>
    intro D _
    cases o with
    | error e => exact cost_done _ _
    | ok a => exact (hf a).mono (by omega)
  | draw l u k ih =>
    intro D h
    obtain ⟨⟨hl, hu, hlu, hk⟩, hD⟩ := h
    cases D with
    | zero => exact hD.elim
    | succ D =>
      rw [Nat.succ_add]
      exact ⟨⟨hl, hu, hlu, fun v h1 h2 => (ih v ⟨hk v h1 h2, hD v h1 h2⟩).1⟩, fun v h1 h2 => (ih v ⟨hk v h1 h2, hD v h1 h2⟩).2⟩
  | coin k ih =>
    intro D h
    obtain ⟨hk, hD⟩ := h
    cases D with
    | zero => exact hD.elim
    | succ D =>
      rw [Nat.succ_add]
      exact ⟨fun b => (ih b ⟨hk b, hD b⟩).1, fun b => (ih b ⟨hk b, hD b⟩).2⟩

theorem cost_bind_sat {r : Rand α} {f : α → Rand β} {E : ℕ} {P : α → Prop} (hf : ∀ a, P a → Cost (f a) E) :
    ∀ {D : ℕ}, Sat r (fun o => ∀ a, o = .ok a → P a) → Cost r D → Cost (r >>= f) (D + E) := by
  induction r with
  | done o =>
    intro D hP _
    cases o with
    | error e => exact cost_done _ _
    | ok a => exact (hf a (hP a rfl)).mono (by omega)
  | draw l u k ih =>
    intro D hP h
    obtain ⟨⟨hl, hu, hlu, hk⟩, hD⟩ := h
    cases D with
    | zero => exact hD.elim
    | succ D =>
      rw [Nat.succ_add]
      exact ⟨⟨hl, hu, hlu, fun v h1 h2 => (ih v (hP.2.2.2 v h1 h2) ⟨hk v h1 h2, hD v h1 h2⟩).1⟩, fun v h1 h2 => (ih v (hP.2.2.2 v h1 h2) ⟨hk v h1 h2, hD v h1 h2⟩).2⟩
  | coin k ih =>
    intro D hP h
    obtain ⟨hk, hD⟩ := h
    cases D with
    | zero => exact hD.elim
    | succ D =>
      rw [Nat.succ_add]
      exact ⟨fun b => (ih b (hP b) ⟨hk b, hD b⟩).1, fun b => (ih b (hP b) ⟨hk b, hD b⟩).2⟩

theorem cost_integer (l u : Int) : Cost (integer l u) 1 := by
  unfold integer
  split_ifs with h h'
  · exact ⟨⟨h.1, h.2, h', fun _ _ _ => trivial⟩, fun _ _ _ => trivial⟩
  · exact cost_done _ _
  · exact cost_done _ _

theorem cost_bit : Cost bit 1 := ⟨fun _ => trivial, fun _ => trivial⟩

/-- After a call of `integer` one call less is left. -/
theorem cost_integer_bind {l u : Int} {f : Int → Rand β} {D : ℕ} (h : ∀ v, Cost (f v) D) : Cost (integer l u >>= f) (D + 1) := by
  rw [add_comm]
  exact cost_bind h (cost_integer l u)

theorem cost_bind_pure {r : Rand α} {f : α → β} {D : ℕ} (h : Cost r D) : Cost (r >>= fun a => pure (f a)) D :=
  cost_bind (E := 0) (fun _ => cost_pure _ 0) h

theorem cost_bind_lift {r : Rand α} {f : α → Out β} {D : ℕ} (h : Cost r D) : Cost (r >>= fun a => Rand.lift (f a)) D :=
  cost_bind (E := 0) (fun _ => cost_lift _ 0) h

theorem cost_words (i128 : Bool) {r : Rand α} {D : ℕ} (h : Cost r D) : ∫⁻ ω, wordsUsed i128 r ω ∂engine ≤ 2 * D :=
  C100_expected i128 r h.1 D h.2

theorem cost_shuffleLoop : ∀ (n : ℕ) (l : List α), Cost (shuffleLoop n l) n
  | 0, l => cost_pure _ _
  | n + 1, l => by
    rw [shuffleLoop]
    exact cost_integer_bind fun v => cost_lift_bind fun l' _ => cost_shuffleLoop n l'

theorem cost_shuffle (l : List α) : Cost (shuffle l) (l.length - 1) := cost_shuffleLoop _ _

theorem cost_distinctLoop (lower upper : Int) : ∀ (n : ℕ) (i : Int) (used : IntMap), Cost (distinctLoop lower upper n i used) n
  | 0, _, _ => cost_pure _ _
  | n + 1, i, used => by
    rw [distinctLoop]
    exact cost_lift_bind fun _ _ => cost_integer_bind fun v => cost_bind_pure (cost_distinctLoop lower upper n _ _)

theorem cost_distinct (count lower upper : Int) : Cost (distinct count lower upper) count.toNat := by
  unfold distinct
  exact cost_lift_bind fun _ _ => cost_lift_bind fun _ _ => cost_lift_bind fun _ _ => cost_distinctLoop _ _ _ _ _

theorem cost_multipleLoop (lower upper : Int) : ∀ n : ℕ, Cost (multipleLoop lower upper n) n
  | 0 => cost_pure _ _
  | n + 1 => by
    rw [multipleLoop]
    exact cost_integer_bind fun v => cost_bind_pure (cost_multipleLoop lower upper n)

theorem cost_select (l : List α) : Cost (select l) 1 := by
  unfold select
  refine cost_lift_bind fun _ _ => cost_integer_bind (D := 0) fun v => ?_
  split
  · exact cost_pure _ _
  · exact cost_lift _ _

theorem cost_stringLoop (alphabet : List α) : ∀ n : ℕ, Cost (stringLoop alphabet n) n
  | 0 => cost_pure _ _
  | n + 1 => by
    rw [stringLoop, add_comm]
    exact cost_bind (fun _ => cost_bind_pure (cost_stringLoop alphabet n)) (cost_select alphabet)

theorem cost_bracketLoop (n : Int) (o c : Char) : ∀ (r : ℕ) (d : Int), Cost (bracketLoop n o c r d) r
  | 0, _ => cost_pure _ _
  | r + 1, d => by
    rw [bracketLoop]
    refine cost_lift_bind fun _ _ => cost_lift_bind fun _ _ => cost_integer_bind fun v => ?_
    split
    · exact cost_bind_pure (cost_bracketLoop n o c r _)
    · exact cost_bind_pure (cost_bracketLoop n o c r _)

theorem cost_primeLoop (i128 : Bool) (l u : Int) : ∀ n : ℕ, Cost (primeLoop i128 l u n) n
  | 0 => cost_pure _ _
  | n + 1 => by
    rw [primeLoop]
    refine cost_integer_bind fun v => ?_
    dsimp only
    split
    · exact cost_pure _ _
    · exact cost_primeLoop i128 l u n

theorem cost_randomPrime (i128 : Bool) (l u : Int) : Cost (randomPrime i128 l u) 6400 := by
  unfold randomPrime
  refine cost_lift_bind fun _ _ => ?_
  have hj : ∀ r : Option Int, Cost (match r with | some p => pure p | none => Rand.lift (.error .throw) : Rand Int) 0 := by
    intro r
    cases r
    · exact cost_lift _ _
    · exact cost_pure _ _
  dsimp only
  generalize (if l ≤ 2 then (0 : Int) else l.tdiv 2) = sl
  split
  · refine cost_lift_bind fun d _ => cost_lift_bind fun t _ => cost_bind (E := 0) hj ((cost_primeLoop i128 _ _ _).mono ?_)
    omega
  · exact (cost_bind (E := 0) hj (cost_pure none 0)).mono (by omega)

theorem cost_randomCode (n : Int) : ∀ k : ℕ, Cost (Gen.randomCode n k) k
  | 0 => cost_pure _ _
  | k + 1 => by
    rw [Gen.randomCode]
    exact cost_integer_bind fun v => cost_bind_pure (cost_randomCode n k)

section
variable {E : Type} [Inhabited E]

theorem cost_coinIf (dir : Bool) : Cost (Gen.Graph.coinIf dir) 1 := by
  unfold Gen.Graph.coinIf
  split
  · exact cost_pure _ _
  · exact cost_bit

omit [Inhabited E] in
theorem cost_flipLoop (dir : Bool) : ∀ l : List (Gen.Rec E), Cost (Gen.Graph.flipLoop dir l) l.length
  | [] => cost_pure _ _
  | r :: l => by
    rw [Gen.Graph.flipLoop, List.length_cons, add_comm]
    exact cost_bind (fun _ => cost_bind_pure (cost_flipLoop dir l)) (cost_coinIf dir)

omit [Inhabited E] in
theorem cost_permLoop (dir : Bool) (minId : Int) (perm : List Int) : ∀ l : List (Gen.Rec E), Cost (Gen.Graph.permLoop dir minId perm l) l.length
  | [] => cost_pure _ _
  | r :: l => by
    rw [Gen.Graph.permLoop, List.length_cons, add_comm]
    exact cost_bind (fun _ => cost_lift_bind fun _ _ => cost_lift_bind fun _ _ => cost_bind_pure (cost_permLoop dir minId perm l)) (cost_coinIf dir)

theorem cost_flip (g : Gen.Graph E) : Cost (Gen.flip g) 2 := by
  unfold Gen.flip
  exact cost_integer_bind (D := 1) fun v => cost_lift_bind fun _ _ => cost_integer_bind (D := 0) fun v => cost_lift_bind fun _ _ => cost_lift _ _

theorem cost_flips : ∀ (k : ℕ) (g : Gen.Graph E), Cost (Gen.flips k g) (2 * k)
  | 0, _ => cost_pure _ _
  | k + 1, g => by
    rw [Gen.flips, show 2 * (k + 1) = 2 + 2 * k by ring]
    exact cost_bind (fun g' => cost_flips k g') (cost_flip g)

end

/-! ### Results -/

/-- **C100, one call.** `Random::integer` needs more than `n` words with this probability, which is less than `1 / 2 ^ n`. -/
theorem C100_integer (i128 : Bool) (l u : Int) (hl : I64 l) (hu : I64 u) (hlu : l < u) (n : ℕ) :
    late i128 (integer l u) (n + 1) = (((2 ^ 64 % (u - l).toNat : ℕ) : ℝ) / ((2 ^ 64 : ℕ) : ℝ)) ^ (n + 1) ∧ late i128 (integer l u) (n + 1) < 1 / 2 ^ (n + 1) := by
  classical
  have e : integer l u = .draw l u fun v => .done (.ok v) := by rw [integer, if_pos ⟨hl, hu⟩, if_pos hlu]
  have hs0 : 0 < (u - l).toNat := by omega
  have hs : (u - l).toNat ≤ 2 ^ 64 := by have := hl.1; have := hu.2; omega
  have hR : ((Finset.range (2 ^ 64)).filter fun w => ¬Accepted l u w).card = 2 ^ 64 % (u - l).toNat := by
    rw [← card_rejected hs0 hs]
    refine card_filter_words (congrArg Set.ncard ?_)
    ext w
    exact and_congr_right fun _ => not_not
  have hc := C02_few_rejections i128 l u hl hu hlu
  rw [← few_rejected i128 hl hu hlu, hR] at hc
  have hzero : late i128 (integer l u) 0 = 1 := by
    have := engine_isProb
    rw [e]
    unfold late
    have h0 : {ω : ℕ → ℕ | (Rand.draw l u fun v => Rand.done (.ok v)).run i128 ((List.range 0).map ω) = none} = Set.univ := by
      ext ω
      simp [Rand.run, integerWords, acceptWord, hlu]
    rw [h0, probReal_univ]
  have step : ∀ n, late i128 (integer l u) (n + 1) = ((2 ^ 64 % (u - l).toNat : ℕ) : ℝ) / ((2 ^ 64 : ℕ) : ℝ) * late i128 (integer l u) n := by
    intro n
    rw [e, late_draw i128 hl hu hlu]
    simp only [late_done]
    generalize late i128 (.draw l u fun v => Rand.done (.ok v)) n = x
    rw [← hR]
    generalize (2 : ℕ) ^ 64 = N
    simp only [← ite_not (Accepted l u _), ← Finset.sum_filter, Finset.sum_const, nsmul_eq_mul]
    ring
  have exact' : ∀ n, late i128 (integer l u) n = (((2 ^ 64 % (u - l).toNat : ℕ) : ℝ) / ((2 ^ 64 : ℕ) : ℝ)) ^ n := by
    intro n
    induction n with
    | zero => rw [hzero, pow_zero]
    | succ n ih => rw [step, ih, pow_succ]; ring
  refine ⟨exact' _, ?_⟩
  rw [exact', ← one_div_pow]
  have hN : 0 < 2 ^ 64 := Nat.two_pow_pos 64
  clear exact' step hzero hR hs
  generalize 2 ^ 64 % (u - l).toNat = R at hc ⊢
  generalize (2 : ℕ) ^ 64 = N at hc hN ⊢
  refine pow_lt_pow_left₀ ?_ (by positivity) (by omega)
  have hN' : (0 : ℝ) < N := by exact_mod_cast hN
  rw [div_lt_div_iff₀ hN' (by norm_num)]
  have : (2 : ℝ) * R < N := by exact_mod_cast hc
  linarith

/-- **C100, shuffle.** -/
theorem C100_shuffle (i128 : Bool) (l : List α) : ∫⁻ ω, wordsUsed i128 (shuffle l) ω ∂engine ≤ 2 * (l.length - 1 : ℕ) :=
  cost_words i128 (cost_shuffle l)

/-- **C100, distinct.** For every `lower` and `upper`, also if nearly all values of a huge range are taken. -/
theorem C100_distinct (i128 : Bool) (count lower upper : Int) : ∫⁻ ω, wordsUsed i128 (distinct count lower upper) ω ∂engine ≤ 2 * count.toNat :=
  cost_words i128 (cost_distinct count lower upper)

/-- **C100, multiple.** -/
theorem C100_multiple (i128 : Bool) (count lower upper : Int) : ∫⁻ ω, wordsUsed i128 (multiple count lower upper) ω ∂engine ≤ 2 * count.toNat := by
  refine cost_words i128 ?_
  unfold multiple
  split
  · exact cost_lift _ _
  · exact cost_multipleLoop _ _ _

/-- **C100, perm.** -/
theorem C100_perm (i128 : Bool) (count offset : Int) (ho : I64 offset) : ∫⁻ ω, wordsUsed i128 (permOf count offset) ω ∂engine ≤ 2 * (count.toNat - 1 : ℕ) := by
  refine cost_words i128 ?_
  unfold permOf
  refine cost_lift_bind fun _ h0 => cost_lift_bind fun e he => cost_lift_bind fun r hr => ?_
  have hc : 0 ≤ count := by
    unfold judgeAssert at h0
    split at h0
    · rename_i h; simpa using h
    · cases h0
  obtain ⟨n, rfl⟩ := Int.eq_ofNat_of_zero_le hc
  have h64 : I64 (offset + n) := by
    by_contra hn
    unfold chk at he
    rw [if_neg hn] at he
    cases he
  rw [chk_ok h64] at he
  cases he
  rw [range_interval ho h64] at hr
  cases hr
  have := cost_shuffle (interval offset n)
  rwa [length_interval] at this

/-- **C100, partition.** -/
theorem C100_partition (i128 : Bool) (n k min : Int) : ∫⁻ ω, wordsUsed i128 (partition n k min) ω ∂engine ≤ 2 * (k - 1).toNat := by
  refine cost_words i128 ?_
  unfold partition increasing
  exact cost_lift_bind fun _ _ => cost_lift_bind fun _ _ => cost_lift_bind fun _ _ => cost_lift_bind fun _ _ => cost_lift_bind fun _ _ =>
    cost_lift_bind fun _ _ => cost_bind_lift (cost_bind_pure (cost_distinct _ _ _))

/-- **C100, string.** -/
theorem C100_string (i128 : Bool) (n : Int) (alphabet : List Char) : ∫⁻ ω, wordsUsed i128 (randomString n alphabet) ω ∂engine ≤ 2 * n.toNat := by
  refine cost_words i128 ?_
  unfold randomString
  exact cost_lift_bind fun _ _ => cost_lift_bind fun _ _ => cost_stringLoop _ _

/-- **C100, bracketSequence.** -/
theorem C100_bracketSequence (i128 : Bool) (n : Int) (o c : Char) : ∫⁻ ω, wordsUsed i128 (bracketSequence n o c) ω ∂engine ≤ 2 * (2 * n).toNat := by
  refine cost_words i128 ?_
  unfold bracketSequence
  exact cost_lift_bind fun _ _ => cost_bracketLoop _ _ _ _ _

/-- **C100, prime.** -/
theorem C100_prime (i128 : Bool) (l u : Int) : ∫⁻ ω, wordsUsed i128 (randomPrime i128 l u) ω ∂engine ≤ 2 * 6400 := by
  have := cost_words i128 (cost_randomPrime i128 l u)
  exact_mod_cast this

section
variable {E : Type} [Inhabited E]

/-- **C100, random graphs.** The number of words does not depend on the number of vertices. -/
theorem C100_randomGraph (i128 : Bool) (dir : Bool) (n m : Int) : ∫⁻ ω, wordsUsed i128 (Gen.randomGraph dir n m : Rand (Gen.Graph E)) ω ∂engine ≤ 2 * m.toNat := by
  refine cost_words i128 ?_
  unfold Gen.randomGraph
  refine cost_lift_bind fun _ _ => cost_lift_bind fun _ _ => cost_bind (E := 0) (fun _ => ?_) (cost_distinct _ _ _)
  exact cost_lift_bind fun _ _ => cost_lift _ _

/-- **C100, random trees.** -/
theorem C100_randomTree (i128 : Bool) (n : Int) : ∫⁻ ω, wordsUsed i128 (Gen.randomTree n : Rand (Gen.Graph E)) ω ∂engine ≤ 2 * (n - 2).toNat := by
  refine cost_words i128 ?_
  unfold Gen.randomTree
  split
  · exact cost_lift _ _
  · exact cost_bind_lift (cost_randomCode _ _)

omit [Inhabited E] in
/-- **C100, renaming.** One call for the place and one for the direction of every edge, one for every vertex. -/
theorem C100_permutate (i128 : Bool) (g : Gen.Graph E) (hlen : g.edges.length < 2 ^ 63) :
    ∫⁻ ω, wordsUsed i128 g.permutateRandom ω ∂engine ≤ 2 * (g.adj.length + 2 * g.edges.length : ℕ) := by
  refine cost_words i128 (Cost.mono (D := (((List.range g.adj.length).map fun k : Nat => g.minId + (k : Int)).length - 1) + (g.edges.length - 1 + g.edges.length)) ?_ ?_)
  · rw [List.length_map, List.length_range]
    omega
  · unfold Gen.Graph.permutateRandom Gen.Graph.permutate
    refine cost_bind (fun perm => cost_lift_bind fun _ _ => cost_lift_bind fun _ _ => ?_) (cost_shuffle _)
    refine cost_bind_sat (P := fun es => es.length = g.edges.length) (fun es hes => ?_) (Sat.mono (C03_shuffle_perm g.edges hlen) fun o ho a e => ?_) (cost_shuffle _)
    · rw [← hes]
      exact cost_bind_lift (cost_permLoop _ _ _ _)
    · obtain ⟨a', e', h⟩ := ho
      rw [e'] at e
      cases e
      exact h.length_eq

end

/-! ### Examples -/

/-- A die needs a second word only if the first is one of four among all. -/
example : late true (integer 1 7) 1 = 4 / 2 ^ 64 := by
  rw [(C100_integer true 1 7 (by decide) (by decide) (by norm_num) 0).1, show 2 ^ 64 % (7 - 1 : Int).toNat = 4 from by decide +kernel]
  norm_num

/-- The words 0 and 5 for a die: the first is rejected, so two are used. -/
example (ω : ℕ → ℕ) (h0 : ω 0 = 0) (h1 : ω 1 = 5) : wordsUsed true (integer 1 7) ω = 2 := by
  have := C100_used true (integer 1 7) ω 2 (.ok 1) [] (by
    rw [show List.range 2 = [0, 1] from rfl, List.map_cons, List.map_cons, List.map_nil, h0, h1, integer, if_pos (by decide), if_pos (by decide)]
    decide +kernel)
  simpa using this

end ICPC.Props
