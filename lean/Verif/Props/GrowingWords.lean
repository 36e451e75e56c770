import Verif.Props.WordFn
import Verif.Props.RealUniform
import Verif.Props.Growing

/-!
# C75 on the words of the engine, with floating point numbers
-/

namespace ICPC.Props

open MeasureTheory Spec Engine Calls Fp Gen Spec.EdgeMap ICPC.Spec.Fp

variable {E : Type} [Inhabited E]

/-! ### Averages over the numbers of neighbours -/

/-- The average of `Φ` over the degrees of the vertices `i, ..., i + k - 1`. -/
private noncomputable def mix (P : Int → Int → ENNReal) : ℕ → Int → ((Int → Int) → ENNReal) → ENNReal
  | 0, _, Φ => Φ fun _ => 0
  | k + 1, i, Φ => ∑ d ∈ Finset.Icc 0 i, P i d * mix P k (i + 1) fun δ => Φ (Function.update δ i d)

private theorem mix_congr {P : Int → Int → ENNReal} : ∀ (k : ℕ) (i : Int) {Φ Ψ : (Int → Int) → ENNReal},
    (∀ δ : Int → Int, (∀ j, 0 ≤ j → 0 ≤ δ j ∧ δ j ≤ j) → Φ δ = Ψ δ) → mix P k i Φ = mix P k i Ψ := by
  intro k
  induction k with
  | zero => intro i Φ Ψ h; exact h _ fun j hj => ⟨le_rfl, hj⟩
  | succ k ih =>
    intro i Φ Ψ h
    unfold mix
    refine Finset.sum_congr rfl fun d hd => ?_
    rw [Finset.mem_Icc] at hd
    congr 1
    refine ih (i + 1) fun δ hδ => h _ fun j hj => ?_
    by_cases e : j = i
    · subst e; rw [Function.update_self]; exact hd
    · rw [Function.update_of_ne e]; exact hδ j hj

private theorem mix_tsum {γ : Type} {P : Int → Int → ENNReal} (c : γ → ENNReal) : ∀ (k : ℕ) (i : Int) (Φ : γ → (Int → Int) → ENNReal),
    mix P k i (fun δ => ∑' a, c a * Φ a δ) = ∑' a, c a * mix P k i (Φ a) := by
  intro k
  induction k with
  | zero => intro i Φ; rfl
  | succ k ih =>
    intro i Φ
    unfold mix
    have : ∀ d, mix P k (i + 1) (fun δ => ∑' a, c a * Φ a (Function.update δ i d)) =
        ∑' a, c a * mix P k (i + 1) fun δ => Φ a (Function.update δ i d) := fun d => ih (i + 1) fun a δ => Φ a (Function.update δ i d)
    simp only [this, Finset.mul_sum]
    rw [Summable.tsum_finsetSum fun _ _ => ENNReal.summable]
    refine Finset.sum_congr rfl fun d _ => ?_
    rw [← ENNReal.tsum_mul_left]
    refine tsum_congr fun a => ?_
    ring

private theorem mix_prod {P : Int → Int → ENNReal} (φ : Int → Int → ENNReal) : ∀ (k : ℕ) (i : Int) (c : ENNReal),
    mix P k i (fun δ => c * ∏ j ∈ Finset.range k, φ (i + j) (δ (i + j))) =
      c * ∏ j ∈ Finset.range k, ∑ d ∈ Finset.Icc 0 (i + j), P (i + j) d * φ (i + j) d := by
  intro k
  induction k with
  | zero => intro i c; rfl
  | succ k ih =>
    intro i c
    unfold mix
    rw [Finset.prod_range_succ', Nat.cast_zero, add_zero, mul_comm (∏ j ∈ Finset.range k, _) (∑ d ∈ _, _), ← mul_assoc, Finset.mul_sum, Finset.sum_mul]
    refine Finset.sum_congr rfl fun d _ => ?_
    have e : (fun δ : Int → Int => c * ∏ j ∈ Finset.range (k + 1), φ (i + j) (Function.update δ i d (i + j))) =
        fun δ => (c * φ i d) * ∏ j ∈ Finset.range k, φ (i + 1 + j) (δ (i + 1 + j)) := by
      funext δ
      rw [Finset.prod_range_succ', Nat.cast_zero, add_zero, Function.update_self, mul_comm (∏ j ∈ Finset.range k, _) (φ i d), ← mul_assoc]
      congr 1
      refine Finset.prod_congr rfl fun j _ => ?_
      have : i + ((j + 1 : ℕ) : Int) = i + 1 + j := by push_cast; ring
      rw [this, Function.update_of_ne (by omega)]
    rw [e, ih (i + 1) (c * φ i d)]
    have e2 : ∀ j : ℕ, i + ((j + 1 : ℕ) : Int) = i + 1 + j := by intro j; push_cast; ring
    simp only [e2]
    ring

/-! ### The loop -/

private theorem chance_bindOut {α β : Type} {f : WordFn (Out α)} (hf : Sequential f) (g : α → WordFn (Out β)) {Q : Out β → Prop} (hQ : ∀ e, ¬ Q (.error e)) :
    engine (Yields (f.bindOut g) Q) = ∑' a, engine (Yields f (· = .ok a)) * engine (Yields (g a) Q) := by
  classical
  unfold WordFn.bindOut
  rw [chance_andThen hf]
  have hinj : Function.Injective (Except.ok : α → Out α) := fun a b h => by injection h
  refine Eq.symm (Eq.trans ?_ (hinj.tsum_eq (f := fun o : Out α => engine (Yields f (· = o)) * engine (Yields ((match o with
    | .error e => fun ws => some (.error e, ws)
    | .ok a => g a) : WordFn (Out β)) Q)) ?_))
  · rfl
  · intro o ho
    cases o with
    | ok a => exact ⟨a, rfl⟩
    | error e =>
      refine absurd ?_ ho
      dsimp only
      rw [yields_pure, if_neg (hQ e), mul_zero]

private theorem growLoop_congr {n : Int} : ∀ (k : ℕ) (i : Int) (res : Graph E) {δ δ' : Int → Rand Int}, (∀ j, i ≤ j → δ j = δ' j) →
    growLoop δ n k i res = growLoop δ' n k i res := by
  intro k
  induction k with
  | zero => intros; rfl
  | succ k ih =>
    intro i res δ δ' h
    unfold growLoop
    rw [h i le_rfl]
    congr 1
    congr 1
    funext d
    congr 1
    funext t
    congr 1
    funext g
    exact ih (i + 1) g fun j hj => h j (by omega)

private theorem growLoop_fixed {n : Int} (δ : Int → Int) (k : ℕ) (i d : Int) (res : Graph E) (hi : i < n) :
    growLoop (fun j => (pure (Function.update δ i d j) : Rand Int)) n (k + 1) i res =
      growStep i d res >>= fun g => growLoop (fun j => (pure (δ j) : Rand Int)) n k (i + 1) g := by
  have h := fun g : Graph E => growLoop_congr (n := n) k (i + 1) g (δ := fun j => (pure (Function.update δ i d j) : Rand Int)) (δ' := fun j => pure (δ j))
    fun j hj => by rw [Function.update_of_ne (by omega)]
  conv_lhs => unfold growLoop
  rw [if_pos hi, Function.update_self]
  unfold growStep
  rw [Rand.bind_assoc]
  simp only [h]
  rfl

/-- The loop is an average of loops with given degrees. -/
private theorem grow_mix (i128 : Bool) (F : Format) (p : Flt) {n : Int} {Q : Out (Graph E) → Prop} (hQ : ∀ e, ¬ Q (.error e))
    (hd : ∀ i : Int, 0 ≤ i → i < n → ∀ d : Int, ¬ (0 ≤ d ∧ d ≤ i) → engine (Yields (degreeCall F p i) (· = .ok d)) = 0) :
    ∀ (k : ℕ) (i : Int) (res : Graph E), 0 ≤ i → i + k = n →
    engine (Yields (growCallLoop i128 F p n k i res) Q) = mix (fun i d => engine (Yields (degreeCall F p i) (· = .ok d))) k i
      fun δ => engine (Yields ((growLoop (fun j => (pure (δ j) : Rand Int)) n k i res).run i128) Q) := by
  intro k
  induction k with
  | zero => intro i res h0 h1; rfl
  | succ k ih =>
    intro i res h0 h1
    have hi : i < n := by omega
    unfold growCallLoop
    rw [if_pos hi, chance_bindOut (seq_degree F p i) _ hQ, tsum_eq_sum (s := Finset.Icc 0 i)]
    · unfold mix
      refine Finset.sum_congr rfl fun d _ => ?_
      congr 1
      rw [chance_bindOut (seq_run i128 _) _ hQ]
      simp only [ih (i + 1) _ (by omega) (by push_cast at h1; omega)]
      rw [← mix_tsum]
      congr 1
      funext δ
      rw [growLoop_fixed δ k i d res hi, run_bind, chance_bindOut (seq_run i128 _) _ hQ]
    · intro d hdm
      rw [Finset.mem_Icc] at hdm
      rw [hd i h0 hi d hdm, zero_mul]

/-! ### The degree of a vertex -/

private theorem degree_mem {F : Format} {p : ℚ} {i : ℕ} (hI : I64 i) (h1 : Rep F 1) (hF : F.emin ≤ 1 - F.p) (hi : Rep F (i + 1)) (hp0 : 0 ≤ p)
    (hp1 : p ≤ 1) {ω : ℕ → ℕ} (hw : Words ω) (R : Int → Prop) : ω ∈ Yields (degreeCall F (.fin p) i) (fun o => ∃ d, o = .ok d ∧ R d) ↔
      ∃ fuel n r q rest, realRange F fuel (.fin 0) (.fin (i + 1)) ((List.range n).map ω) = some (.ok r, rest) ∧ mul F (.fin p) r = .fin q ∧ R ⌊q⌋ := by
  have hc : ((i : Int) : ℚ) + 1 = (i : ℚ) + 1 := by push_cast; rfl
  have hto : ∀ q : ℚ, 0 ≤ ⌊q⌋ → ⌊q⌋ ≤ i → toInteger (.fin q) = .ok ⌊q⌋ := by
    intro q h2 h3
    have : ¬ q < 0 := not_lt.2 (Int.floor_nonneg.1 h2)
    unfold toInteger chk
    dsimp only
    rw [if_neg this, if_pos]
    exact ⟨by have := hI.1; unfold I64 at *; omega, by have := hI.2; unfold I64 at *; omega⟩
  constructor
  · rintro ⟨n, o, rest, h, d, rfl, hR⟩
    unfold degreeCall WordFn.bindOut WordFn.andThen at h
    rw [hc] at h
    cases hx : realRangeCall F (.fin 0) (.fin ((i : ℚ) + 1)) ((List.range n).map ω) with
    | none => rw [hx] at h; cases h
    | some pr =>
      obtain ⟨o, ws'⟩ := pr
      rw [hx] at h
      cases o with
      | error e => cases h
      | ok r =>
        dsimp only at h
        obtain ⟨q, hq, h2, h3⟩ := C75_degree_float F p i h1 hF hi hp0 hp1 _ _ ws' (mem_prefix hw n) r hx
        rw [hq, hto q h2 h3] at h
        simp only [Option.some.injEq, Prod.mk.injEq, Except.ok.injEq] at h
        exact ⟨_, n, r, q, ws', hx, hq, h.1 ▸ hR⟩
  · rintro ⟨fuel, n, r, q, rest, h, hq, hR⟩
    obtain ⟨q', hq', h2, h3⟩ := C75_degree_float F p i h1 hF hi hp0 hp1 fuel _ rest (mem_prefix hw n) r h
    rw [hq'] at hq
    obtain ⟨rfl⟩ := Flt.fin.inj hq
    refine ⟨n, .ok ⌊q⌋, rest, ?_, _, rfl, hR⟩
    unfold degreeCall WordFn.bindOut WordFn.andThen
    rw [hc, realRangeCall_ok.2 ⟨fuel, h⟩]
    dsimp only
    rw [hq', hto q h2 h3]

private theorem words_null : engine {ω | ¬ Words ω} = 0 := by
  have : {ω : ℕ → ℕ | ¬ Words ω} = {ω | ∃ i, 2 ^ 64 ≤ ω i} := by
    ext ω; simp [Words]
  rw [this]
  exact not_words_null (Nat.two_pow_pos 64)

private theorem measure_congr_words {A B : Set (ℕ → ℕ)} (h : ∀ ω, Words ω → (ω ∈ A ↔ ω ∈ B)) : engine A = engine B := by
  have key : ∀ {A B : Set (ℕ → ℕ)}, (∀ ω, Words ω → ω ∈ A → ω ∈ B) → engine A ≤ engine B := by
    intro A B h
    have : A ⊆ B ∪ {ω | ¬ Words ω} := by
      intro ω hA
      by_cases hw : Words ω
      · exact .inl (h ω hw hA)
      · exact .inr hw
    refine (measure_mono this).trans ((measure_union_le _ _).trans ?_)
    rw [words_null, add_zero]
  exact le_antisymm (key fun ω hw => (h ω hw).1) (key fun ω hw => (h ω hw).2)

/-- **C75**: the number of smaller neighbours of vertex `i`, computed on the words of the engine in any floating point format, is less than
`k` with the probability that `floor(p * X)` is, `X` uniform in `[0, i+1)`, up to the error of rounding. -/
theorem C75_degree_words (F : Format) (p : ℚ) (i k : ℕ) (hI : I64 i) (h1 : Rep F 1) (hF : F.emin ≤ 1 - F.p) (hi : Rep F (i + 1))
    (hk : Rep F k) (hk0 : 0 < k) (hp0 : 0 < p) (hp1 : p ≤ 1) :
    |engine.real (Yields (degreeCall F (.fin p) i) fun o => ∃ d, o = .ok d ∧ d < k) - ((min 1 (k / (p * (i + 1))) : ℚ) : ℝ)| ≤
      2 * (((9 * unit F + 2 ^ (F.emin + 1) : ℚ) : ℝ) + 1 / 2 ^ 52) := by
  have e : engine.real (Yields (degreeCall F (.fin p) i) fun o => ∃ d, o = .ok d ∧ d < k) = engine.real {ω | ∃ fuel n r q rest,
      realRange F fuel (.fin 0) (.fin (i + 1)) ((List.range n).map ω) = some (.ok r, rest) ∧ mul F (.fin p) r = .fin q ∧ ⌊q⌋ < k} := by
    unfold Measure.real
    rw [measure_congr_words fun ω hw => degree_mem hI h1 hF hi hp0.le hp1 hw fun d => d < k]
    rfl
  rw [e]
  exact C75_degree_law_partial F p i k h1 hF hi hk hk0 hp0 hp1

private theorem yields_or {α : Type} {f : WordFn α} (hf : Sequential f) {A B : α → Prop} (h : ∀ a, A a → ¬ B a) :
    engine.real (Yields f fun a => A a ∨ B a) = engine.real (Yields f A) + engine.real (Yields f B) := by
  classical
  have := uniformBelow_isProb (Nat.two_pow_pos 64)
  have : IsProbabilityMeasure engine := by unfold engine; infer_instance
  have e : engine (Yields f fun a => A a ∨ B a) = engine (Yields f A) + engine (Yields f B) := by
    rw [chance_sum hf, chance_sum hf A, chance_sum hf B, ← ENNReal.tsum_add]
    refine tsum_congr fun a => ?_
    by_cases hA : A a
    · simp [hA, h a hA]
    · simp [hA]
  unfold Measure.real
  rw [e, ENNReal.toReal_add (measure_ne_top _ _) (measure_ne_top _ _)]

/-- **C75**: the probability of each number of smaller neighbours. -/
theorem C75_degree_value (F : Format) (p : ℚ) (i d : ℕ) (hI : I64 i) (h1 : Rep F 1) (hF : F.emin ≤ 1 - F.p) (hi : Rep F (i + 1))
    (hd : Rep F d) (hd1 : Rep F (d + 1 : ℕ)) (hp0 : 0 < p) (hp1 : p ≤ 1) :
    |engine.real (Yields (degreeCall F (.fin p) i) (· = .ok (d : Int))) -
        ((min 1 ((d + 1) / (p * (i + 1))) - min 1 (d / (p * (i + 1))) : ℚ) : ℝ)| ≤
      4 * (((9 * unit F + 2 ^ (F.emin + 1) : ℚ) : ℝ) + 1 / 2 ^ 52) := by
  have hsum : engine.real (Yields (degreeCall F (.fin p) i) fun o => ∃ e, o = .ok e ∧ e < ((d + 1 : ℕ) : Int)) =
      engine.real (Yields (degreeCall F (.fin p) i) (· = .ok (d : Int))) + engine.real (Yields (degreeCall F (.fin p) i) fun o => ∃ e, o = .ok e ∧ e < (d : Int)) := by
    rw [← yields_or (seq_degree F (.fin p) i)]
    · congr 2
      funext o
      refine propext ⟨?_, ?_⟩
      · rintro ⟨e, rfl, he⟩
        push_cast at he
        by_cases hc : e = d
        · exact .inl (by rw [hc])
        · exact .inr ⟨e, rfl, by omega⟩
      · rintro (rfl | ⟨e, rfl, he⟩)
        · exact ⟨d, rfl, by push_cast; omega⟩
        · exact ⟨e, rfl, by push_cast; omega⟩
    · rintro o rfl ⟨e, he, h2⟩
      injection he with he
      omega
  have hlow : |engine.real (Yields (degreeCall F (.fin p) i) fun o => ∃ e, o = .ok e ∧ e < (d : Int)) - ((min 1 (d / (p * (i + 1))) : ℚ) : ℝ)| ≤
      2 * (((9 * unit F + 2 ^ (F.emin + 1) : ℚ) : ℝ) + 1 / 2 ^ 52) := by
    by_cases hd0 : 0 < d
    · exact C75_degree_words F p i d hI h1 hF hi hd hd0 hp0 hp1
    · obtain rfl : d = 0 := by omega
      have e0 : engine.real (Yields (degreeCall F (.fin p) i) fun o => ∃ e, o = .ok e ∧ e < ((0 : ℕ) : Int)) = 0 := by
        unfold Measure.real
        rw [measure_congr_words (B := ∅), measure_empty, ENNReal.toReal_zero]
        intro ω hw
        rw [degree_mem hI h1 hF hi hp0.le hp1 hw fun e => e < ((0 : ℕ) : Int)]
        simp only [Set.mem_empty_iff_false, iff_false]
        rintro ⟨fuel, n, r, q, rest, h2, h3, h4⟩
        obtain ⟨q', hq', h5, h6⟩ := C75_degree_float F p i h1 hF hi hp0.le hp1 fuel _ rest (mem_prefix hw n) r h2
        rw [hq'] at h3
        obtain ⟨rfl⟩ := Flt.fin.inj h3
        push_cast at h4
        omega
      rw [e0]
      have hT := two_zpow_pos (F.emin + 1)
      have hun := unit_pos F
      have : (0 : ℝ) ≤ ((9 * unit F + 2 ^ (F.emin + 1) : ℚ) : ℝ) := by
        have : 0 ≤ 9 * unit F + 2 ^ (F.emin + 1) := by linarith
        exact_mod_cast this
      simp only [Nat.cast_zero, zero_div]
      rw [min_eq_right zero_le_one, Rat.cast_zero, sub_zero, abs_zero]
      positivity
  have hup := C75_degree_words F p i (d + 1) hI h1 hF hi hd1 (by omega) hp0 hp1
  rw [hsum] at hup
  generalize (((9 * unit F + 2 ^ (F.emin + 1) : ℚ) : ℝ) + 1 / 2 ^ 52) = κ at *
  rw [abs_le] at *
  push_cast at *
  constructor <;> linarith

private theorem degree_zero {F : Format} {p : ℚ} {i : ℕ} (hI : I64 i) (h1 : Rep F 1) (hF : F.emin ≤ 1 - F.p) (hi : Rep F (i + 1)) (hp0 : 0 ≤ p)
    (hp1 : p ≤ 1) (d : Int) (hd : ¬ (0 ≤ d ∧ d ≤ i)) : engine (Yields (degreeCall F (.fin p) i) (· = .ok d)) = 0 := by
  rw [← measure_empty (μ := engine)]
  refine measure_congr_words fun ω hw => ?_
  simp only [Set.mem_empty_iff_false, iff_false]
  rintro ⟨n, o, rest, h, rfl⟩
  obtain ⟨fuel, n, r, q, rest, h2, h3, h4⟩ := (degree_mem hI h1 hF hi hp0 hp1 hw (· = d)).1 ⟨n, .ok d, rest, h, d, rfl, rfl⟩
  obtain ⟨q', hq', h5, h6⟩ := C75_degree_float F p i h1 hF hi hp0 hp1 fuel _ rest (mem_prefix hw n) r h2
  rw [hq'] at h3
  obtain ⟨rfl⟩ := Flt.fin.inj h3
  exact hd (h4 ▸ ⟨h5, h6⟩)

private theorem sat_of_satOk {α : Type} {r : Rand α} {P : α → Prop} (h : SatOk r P) : Sat r fun _ => True := Sat.mono h fun _ _ => trivial

private theorem prob_fixed (a b : Int) : ((prob (pure a : Rand Int) b : ℚ) : ℝ) = if a = b then 1 else 0 := by
  show ((prob (.done (.ok a) : Rand Int) b : ℚ) : ℝ) = _
  unfold prob
  rw [expect_done_ok]
  split <;> simp

open Classical in
omit [Inhabited E] in
private theorem chance_edges (i128 : Bool) {r : Rand (Graph E)} (h : Sat r fun _ => True) (dir : Bool) (n : ℕ) (S : Finset (Int × Int)) :
    chance i128 r (fun o => ∃ g, o = .ok g ∧ HasExactly g dir n S) = ((probEdges r dir n S : ℚ) : ℝ) := by
  have h98 := C98_law i128 r h {g : Graph E | HasExactly g dir n S}
  have hq : (fun o : Out (Graph E) => ∃ a ∈ {g : Graph E | HasExactly g dir n S}, o = .ok a) = fun o => ∃ g, o = .ok g ∧ HasExactly g dir n S := by
    funext o
    exact propext ⟨fun ⟨a, h1, h2⟩ => ⟨a, h2, h1⟩, fun ⟨a, h1, h2⟩ => ⟨a, h2, h1⟩⟩
  rw [hq] at h98
  rw [h98]
  rfl

section

attribute [local irreducible] SatOk Sat

/-- **C75** on the words of the engine: the numbers of smaller neighbours are independent with the law of `p * Random::real(0, i+1)` in floating
point arithmetic (`C75_degree_words`), and given these numbers all graphs are equally likely. -/
theorem C75_words (i128 : Bool) (F : Format) (p : ℚ) (n : ℕ) (hn : I64 n) (h1 : Rep F 1) (hF : F.emin ≤ 1 - F.p) (hi : ∀ i < n, Rep F (i + 1))
    (hp0 : 0 ≤ p) (hp1 : p ≤ 1) (S : Finset (Int × Int)) (hS : S ⊆ allPairs false n) :
    engine.real (Yields (growCall i128 F (.fin p) n : List ℕ → Option (Out (Graph E) × List ℕ)) fun o => ∃ g, o = .ok g ∧ HasExactly g false n S) =
      ∏ i ∈ Finset.range n, engine.real (Yields (degreeCall F (.fin p) i) (· = .ok (smaller S i : Int))) / (i.choose (smaller S i) : ℝ) := by
  have := uniformBelow_isProb (Nat.two_pow_pos 64)
  have : IsProbabilityMeasure engine := by unfold engine; infer_instance
  obtain ⟨g0, hg0⟩ : ∃ g0, (Graph.ofSize false n : Out (Graph E)) = .ok g0 := by
    obtain ⟨g, res, h1, h2, h3⟩ := newPairs (E := E) (dir := false) hn [] (R := fun u v => (u, v) ∈ (∅ : Finset (Int × Int))) (by simp) (by simp)
    exact ⟨res, h1⟩
  have hle : ∀ a b : ℚ, Fp.le (.fin a) (.fin b) = decide (a ≤ b) := fun _ _ => rfl
  have hcall : (growCall i128 F (.fin p) n : WordFn (Out (Graph E))) = growCallLoop i128 F (.fin p) n n 0 g0 := by
    funext ws
    unfold growCall
    rw [hle, hle, decide_eq_true hp0, decide_eq_true hp1, hg0, Int.toNat_natCast]
    rfl
  have hI : ∀ {i : ℕ}, i < n → I64 i := fun h => ⟨by have := hn.1; omega, by have := hn.2; omega⟩
  set Q : Out (Graph E) → Prop := fun o => ∃ g, o = .ok g ∧ HasExactly g false n S with hQdef
  set P : Int → Int → ENNReal := fun i d => engine (Yields (degreeCall F (.fin p) i) (· = .ok d)) with hP
  have hzero : ∀ i : ℕ, i < n → ∀ d : Int, ¬ (0 ≤ d ∧ d ≤ i) → P i d = 0 := fun i h d hd => degree_zero (hI h) h1 hF (hi i h) hp0 hp1 d hd
  have hmix := grow_mix (E := E) i128 F (.fin p) (n := n) (Q := Q) (by rintro e ⟨g, h, -⟩; cases h)
    (fun i h2 h3 d hd => by
      obtain ⟨j, rfl⟩ := Int.eq_ofNat_of_zero_le h2
      exact hzero j (by omega) d hd) n 0 g0 le_rfl (by omega)
  let φ : Int → Int → ENNReal := fun j d => ENNReal.ofReal ((if d = (smaller S j : Int) then 1 else 0) / ((j.toNat.choose (smaller S j) : ℕ) : ℝ))
  have hΦ : ∀ δ : Int → Int, (∀ j, 0 ≤ j → 0 ≤ δ j ∧ δ j ≤ j) →
      engine (Yields ((growLoop (fun j => (pure (δ j) : Rand Int)) n n 0 g0).run i128) Q) = 1 * ∏ j ∈ Finset.range n, φ (0 + j) (δ (0 + j)) := by
    intro δ hδ
    have hsat := C75_growing (E := E) (n := n) (fun j => (pure (δ j) : Rand Int)) hn (fun _ _ => True)
      (fun i h2 h3 => satOk_done ⟨(hδ i h2).1, (hδ i h2).2, trivial⟩)
    have hlaw := C75_law_partial (E := E) (n := n) (fun j => (pure (δ j) : Rand Int)) hn
      (fun i h2 h3 => satOk_done (hδ i h2)) S hS
    have hrg : (randomGrowingGraph (fun j => (pure (δ j) : Rand Int)) n : Rand (Graph E)) = growLoop (fun j => (pure (δ j) : Rand Int)) n n 0 g0 := by
      unfold randomGrowingGraph
      rw [hg0, Rand.lift_ok, Rand.bind_done_ok, Int.toNat_natCast]
    have h98 := chance_edges i128 (sat_of_satOk hsat) false n S
    rw [hlaw, ← yields_chance, hrg] at h98
    rw [← ENNReal.ofReal_toReal (measure_ne_top engine (Yields ((growLoop (fun j => (pure (δ j) : Rand Int)) n n 0 g0).run i128) Q))]
    rw [show (engine (Yields ((growLoop (fun j => (pure (δ j) : Rand Int)) n n 0 g0).run i128) Q)).toReal = _ from h98]
    rw [one_mul]
    push_cast
    rw [ENNReal.ofReal_prod_of_nonneg]
    · refine Finset.prod_congr rfl fun j _ => ?_
      simp only [φ, zero_add, Int.toNat_natCast, prob_fixed]
    · intro j _
      rw [prob_fixed]
      refine div_nonneg ?_ (by positivity)
      split <;> simp
  rw [mix_congr n 0 hΦ, mix_prod φ n 0 1, one_mul] at hmix
  unfold Measure.real
  rw [hcall, hmix, ENNReal.toReal_prod]
  refine Finset.prod_congr rfl fun j hj => ?_
  have hj := Finset.mem_range.1 hj
  rw [zero_add]
  have hsum : ∑ d ∈ Finset.Icc 0 (j : Int), P j d * φ j d = P j (smaller S j) * ENNReal.ofReal (1 / ((j.choose (smaller S j) : ℕ) : ℝ)) := by
    have e : ∀ d, φ (j : Int) d = if d = (smaller S j : Int) then ENNReal.ofReal (1 / ((j.choose (smaller S j) : ℕ) : ℝ)) else 0 := by
      intro d
      simp only [φ, Int.toNat_natCast]
      split <;> simp
    simp only [e, mul_ite, mul_zero]
    rw [Finset.sum_ite_eq']
    split
    · rfl
    · next hm =>
      rw [Finset.mem_Icc] at hm
      rw [hzero j hj _ hm, zero_mul]
  rw [hsum, ENNReal.toReal_mul, ENNReal.toReal_ofReal (by positivity), mul_one_div]

end

/-- **C75**: other values of `p` are rejected before any word is drawn, also infinities and values that are not numbers. -/
theorem C75_words_assertion (i128 : Bool) (F : Format) (p : Flt) (n : ℕ) (hp : ¬ ∃ q, p = .fin q ∧ 0 ≤ q ∧ q ≤ 1) (ws : List ℕ) :
    (growCall i128 F p n : List ℕ → Option (Out (Graph E) × List ℕ)) ws = some (.error .throw, ws) := by
  unfold growCall
  rw [if_neg]
  intro h
  refine hp ?_
  cases p with
  | nan s => simp [Fp.le] at h
  | inf s => cases s <;> simp [Fp.le] at h
  | fin q =>
    rw [show Fp.le (.fin 0) (.fin q) = decide (0 ≤ q) from rfl, show Fp.le (.fin q) (.fin 1) = decide (q ≤ 1) from rfl] at h
    simp at h
    exact ⟨q, rfl, h⟩

example : (growCall true ⟨53, -1074, 971, by norm_num, by norm_num⟩ (.nan false) 3 : List ℕ → Option (Out (Graph Int) × List ℕ)) [] = some (.error .throw, []) :=
  C75_words_assertion (E := Int) true _ (.nan false) 3 (by rintro ⟨q, h, -⟩; cases h) []

/-- `binary64`. -/
private def double : Format := ⟨53, -1074, 971, by norm_num, by norm_num⟩

/-- One of the graphs on three vertices. -/
example : engine.real (Yields (growCall true double (.fin (1 / 2)) 3 : List ℕ → Option (Out (Graph Int) × List ℕ))
    fun o => ∃ g, o = .ok g ∧ HasExactly g false 3 {(0, 2)}) =
    engine.real (Yields (degreeCall double (.fin (1 / 2)) 0) (· = .ok 0)) * engine.real (Yields (degreeCall double (.fin (1 / 2)) 1) (· = .ok 0)) *
      (engine.real (Yields (degreeCall double (.fin (1 / 2)) 2) (· = .ok 1)) / 2) := by
  have h := C75_words (E := Int) true double (1 / 2) 3 (by decide) ⟨1, 0, by decide, by decide, by decide, by norm_num⟩ (by decide)
    (fun i hi => ⟨i + 1, 0, by have : (2 : Int) ^ double.p = 9007199254740992 := rfl; rw [abs_of_nonneg (by omega)]; omega, by decide, by decide, by push_cast; ring⟩) (by norm_num) (by norm_num) {(0, 2)} (by decide)
  rw [Finset.prod_range_succ, Finset.prod_range_succ, Finset.prod_range_one] at h
  have e0 : smaller {((0 : Int), (2 : Int))} ((0 : ℕ) : Int) = 0 := by decide
  have e1 : smaller {((0 : Int), (2 : Int))} ((1 : ℕ) : Int) = 0 := by decide
  have e2 : smaller {((0 : Int), (2 : Int))} ((2 : ℕ) : Int) = 1 := by decide
  rw [e0, e1, e2] at h
  norm_num at h
  exact h

end ICPC.Props
