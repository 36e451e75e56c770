import Verif.Lemmas.FloatBinomial
import Verif.Props.Rejection

/-!
# C117: `binomial` in floating point, geometric method
-/

namespace ICPC.Props

open MeasureTheory Spec ICPC.Engine ICPC.Fp ICPC.Spec.Fp ICPC.Calls ICPC.TwoReals ICPC.Bg

/-- One step of the loop. -/
private def step (F : Format) (log : Flt → Flt) (lg : Flt) (y : Int) (x : ℚ) : Out Int :=
  gap F log x lg >>= fun g => chk (g + 1) >>= fun g => chk (y + g)

private theorem step_ok {F : Format} {log : Flt → Flt} {lg : Flt} {y z : Int} {x : ℚ} (h : step F log lg y x = .ok z) :
    ∃ g, gap F log x lg = .ok g ∧ z = y + g + 1 := by
  unfold step at h
  cases hg : gap F log x lg with
  | error e => rw [hg] at h; cases h
  | ok g =>
    rw [hg] at h
    change (chk (g + 1) >>= fun g => chk (y + g)) = _ at h
    cases h1 : chk (g + 1) with
    | error e => rw [h1] at h; cases h
    | ok g1 =>
      rw [h1] at h
      change chk (y + g1) = _ at h
      have e1 := chk_val h1
      have e2 := chk_val h
      exact ⟨g, rfl, by omega⟩

private def next (F : Format) (log : Flt → Flt) (n : Int) (swap : Bool) (lg : Flt) (fuel : ℕ) (y res : Int) (x : ℚ) : WordFn (Out Int) :=
  match step F log lg y x with
  | .error e => fun ws => some (.error e, ws)
  | .ok z => if z > n then fun ws => some (.ok (if swap then n - res else res), ws) else bgLoop F log n swap lg fuel z (res + 1)

private theorem loop_eq (F : Format) (log : Flt → Flt) (n : Int) (swap : Bool) (lg : Flt) (fuel : ℕ) (y res : Int) :
    bgLoop F log n swap lg (fuel + 1) y res = WordFn.andThen realWords (next F log n swap lg fuel y res) := by
  funext ws
  unfold bgLoop WordFn.andThen
  cases realWords ws with
  | none => rfl
  | some q =>
    obtain ⟨x, r⟩ := q
    dsimp only
    unfold next step
    split
    · next e he => rw [he]
    · next z hz =>
      rw [hz]
      dsimp only
      split <;> rfl

/-- The probability that `real()` returns `q`. -/
private noncomputable def mass (q : ℚ) : ENNReal := engine (Yields realWords (· = q))

private theorem mass_support {q : ℚ} (h : mass q ≠ 0) : 0 < q ∧ q ≤ 1 := by
  by_contra hc
  refine h (le_antisymm ?_ zero_le)
  have h1 := law_apply (Set.Ioc 0 1)ᶜ measurableSet_Ioc.compl
  rw [law_support] at h1
  rw [h1]
  refine measure_mono ?_
  rintro ω ⟨n, a, rest, e, rfl⟩
  refine ⟨n, a, rest, e, fun hm => hc ?_⟩
  exact ⟨by exact_mod_cast hm.1, by exact_mod_cast hm.2⟩

private theorem mass_sum : ∑' q, mass q = 1 := by
  have h := chance_sum seq_realWords fun _ => True
  have h2 := law_apply Set.univ MeasurableSet.univ
  rw [measure_univ] at h2
  simp only [Set.mem_univ] at h2
  simp only [if_true, mul_one] at h
  rw [← h2] at h
  exact h.symm

/-- The gap is below `h`. -/
private def GapBelow (F : Format) (log : Flt → Flt) (lg : Flt) (h : ℕ) (x : ℚ) : Prop := ∃ g, gap F log x lg = .ok g ∧ g < h

private theorem chance_not (Q : ℚ → Prop) {c : ℝ} (h : c ≤ engine.real (Yields realWords Q)) : engine (Yields realWords fun x => ¬ Q x) ≤ ENNReal.ofReal (1 - c) := by
  classical
  have hs : engine (Yields realWords Q) + engine (Yields realWords fun x => ¬ Q x) = 1 := by
    rw [chance_sum seq_realWords Q, chance_sum seq_realWords fun x => ¬ Q x, ← ENNReal.tsum_add]
    conv_rhs => rw [← mass_sum]
    refine tsum_congr fun q => ?_
    show mass q * _ + mass q * _ = mass q
    by_cases hq : Q q <;> simp [hq]
  have h1 : engine (Yields realWords fun x => ¬ Q x) ≤ 1 := by rw [← hs]; exact le_add_self
  rw [← ENNReal.ofReal_toReal (ne_top_of_le_ne_top ENNReal.one_ne_top h1)]
  refine ENNReal.ofReal_le_ofReal ?_
  have h2 : engine (Yields realWords Q) ≤ 1 := by rw [← hs]; exact le_self_add
  have := congrArg ENNReal.toReal hs
  rw [ENNReal.toReal_add (ne_top_of_le_ne_top ENNReal.one_ne_top h2) (ne_top_of_le_ne_top ENNReal.one_ne_top h1), ENNReal.toReal_one] at this
  unfold Measure.real at h
  linarith

/-- A bound for the expectation of a function of the gap. -/
private theorem mean_le {c : ℚ → ENNReal} {D e : ℕ → ℝ} {Q : ℕ → ℚ → Prop} [∀ i, DecidablePred (Q i)] {M : ℕ} {b : ℝ} (hb : 0 ≤ b)
    (hD : ∀ i, 0 ≤ D i) (he : ∀ i, 0 ≤ e i)
    (hc : ∀ q, mass q ≠ 0 → c q ≤ ENNReal.ofReal (b + ∑ i ∈ Finset.range M, if Q i q then D i else 0))
    (hQ : ∀ i ∈ Finset.range M, engine (Yields realWords (Q i)) ≤ ENNReal.ofReal (e i)) :
    ∑' q, mass q * c q ≤ ENNReal.ofReal (b + ∑ i ∈ Finset.range M, D i * e i) := by
  have h1 : ∀ q, mass q * c q ≤ mass q * ENNReal.ofReal b + ∑ i ∈ Finset.range M, ENNReal.ofReal (D i) * (mass q * if Q i q then 1 else 0) := by
    intro q
    by_cases hm : mass q = 0
    · simp [hm]
    refine (mul_le_mul_right (hc q hm) _).trans ?_
    rw [ENNReal.ofReal_add hb (Finset.sum_nonneg fun i _ => by split <;> [exact hD i; exact le_rfl]), mul_add,
      ENNReal.ofReal_sum_of_nonneg fun i _ => by split <;> [exact hD i; exact le_rfl], Finset.mul_sum]
    refine add_le_add le_rfl (Finset.sum_le_sum fun i _ => ?_)
    split <;> simp [mul_comm]
  refine (ENNReal.tsum_le_tsum h1).trans ?_
  rw [ENNReal.tsum_add, ENNReal.tsum_mul_right, mass_sum, one_mul, Summable.tsum_finsetSum fun _ _ => ENNReal.summable,
    ENNReal.ofReal_add hb (Finset.sum_nonneg fun i _ => mul_nonneg (hD i) (he i)), ENNReal.ofReal_sum_of_nonneg fun i _ => mul_nonneg (hD i) (he i)]
  refine add_le_add le_rfl (Finset.sum_le_sum fun i hi => ?_)
  rw [ENNReal.tsum_mul_left, ENNReal.ofReal_mul (hD i)]
  refine mul_le_mul_right ?_ _
  have := chance_sum seq_realWords (Q i)
  exact this.symm.le.trans (hQ i hi)

private theorem loop_fuel_zero (F : Format) (log : Flt → Flt) (n : Int) (swap : Bool) (lg : Flt) (y res : Int) (Q : Out Int → Prop) (hQ : ¬ Q (.error .fuel)) :
    engine (Yields (bgLoop F log n swap lg 0 y res) Q) = 0 := by
  classical
  have h := yields_pure (Except.error Stop.fuel : Out Int) Q
  rw [if_neg hQ] at h
  exact h

section Law

variable {F : Format} {log : Flt → Flt} {lg : Flt} {n : ℕ} {p η : ℝ}

/-- The chance of at least `k` further successes, from above. -/
private theorem upper (h0 : 0 ≤ p) (h1 : p ≤ 1) (hη : 0 ≤ η) (hg0 : ∀ x g, 0 < x → x ≤ 1 → gap F log x lg = .ok g → 0 ≤ g)
    (hgap : ∀ h : ℕ, 1 ≤ h → h ≤ n → engine.real (Yields realWords (GapBelow F log lg h)) ≤ 1 - (1 - p) ^ h + η) (k : ℕ) :
    ∀ (fuel M : ℕ) (y res : Int), y + M = n → 0 ≤ y →
      engine (Yields (bgLoop F log n false lg fuel y res) fun o => ∃ m, o = .ok m ∧ res + k ≤ m) ≤ ENNReal.ofReal (atLeast p k M + k * η) := by
  classical
  induction k with
  | zero =>
    intro fuel M y res _ _
    rw [tail_zero]
    have : engine (Yields (bgLoop F log n false lg fuel y res) fun o => ∃ m, o = .ok m ∧ res + (0 : ℕ) ≤ m) ≤ 1 := prob_le_one
    simpa using this
  | succ k ih =>
    intro fuel M y res hM hy
    cases fuel with
    | zero => rw [loop_fuel_zero _ _ _ _ _ _ _ _ (by rintro ⟨m, h, -⟩; cases h)]; exact zero_le
    | succ fuel =>
      rw [loop_eq, chance_andThen seq_realWords]
      have hfin := mean_le (c := fun q => engine (Yields (next F log n false lg fuel y res q) fun o => ∃ m, o = .ok m ∧ res + (k + 1 : ℕ) ≤ m))
        (D := incr p k) (e := fun i => 1 - (1 - p) ^ (M - i) + η) (Q := fun i => GapBelow F log lg (M - i)) (M := M) (b := k * η) (by positivity)
        (incr_nonneg h0 h1 k) (fun i => by
          have : (1 - p) ^ (M - i) ≤ 1 := pow_le_one₀ (by linarith) (by linarith)
          linarith) (fun q hq => ?_) (fun i hi => ?_)
      · refine hfin.trans (ENNReal.ofReal_le_ofReal ?_)
        have e : ∑ i ∈ Finset.range M, incr p k i * (1 - (1 - p) ^ (M - i) + η) = atLeast p (k + 1) M + η * after p k M := by
          rw [← gaps, ← incr_sum, Finset.mul_sum, ← Finset.sum_add_distrib]
          exact Finset.sum_congr rfl fun i _ => by ring
        rw [e]
        have := after_le_one h0 h1 k M
        push_cast
        nlinarith
      · obtain ⟨q0, q1⟩ := mass_support hq
        unfold next
        cases hs : step F log lg y q with
        | error e =>
          refine le_trans (le_of_eq ?_) zero_le
          have h := yields_pure (Except.error e : Out Int) fun o => ∃ m, o = .ok m ∧ res + (k + 1 : ℕ) ≤ m
          rw [if_neg (by rintro ⟨m, h, -⟩; cases h)] at h
          exact h
        | ok z =>
          dsimp only
          obtain ⟨g, hg, hz⟩ := step_ok hs
          have hgn := hg0 q g q0 q1 hg
          split
          · refine le_trans (le_of_eq ?_) zero_le
            have h := yields_pure (Except.ok res : Out Int) fun o => ∃ m, o = .ok m ∧ res + (k + 1 : ℕ) ≤ m
            rw [if_neg (by rintro ⟨m, h, h2⟩; injection h with h; push_cast at h2; omega)] at h
            exact h
          · next hzn =>
            obtain ⟨G, rfl⟩ := Int.eq_ofNat_of_zero_le hgn
            have hGM : G < M := by omega
            have h2 := ih fuel (M - 1 - G) z (res + 1) (by omega) (by omega)
            have e1 : ∑ i ∈ Finset.range M, (if GapBelow F log lg (M - i) q then incr p k i else 0) = atLeast p k (M - 1 - G) := by
              have : M - G = (M - 1 - G) + 1 := by omega
              have c := cut (p := p) k M G
              rw [this] at c
              rw [show atLeast p k (M - 1 - G) = after p k (M - 1 - G + 1) from rfl, ← c]
              refine Finset.sum_congr rfl fun i _ => ?_
              have : GapBelow F log lg (M - i) q ↔ G < M - i := by
                unfold GapBelow
                rw [hg]
                constructor
                · rintro ⟨g, h, h2⟩; injection h with h; omega
                · intro h; exact ⟨_, rfl, by exact_mod_cast h⟩
              simp only [this]
            rw [e1, add_comm ((k : ℝ) * η)]
            have e2 : (fun o : Out Int => ∃ m, o = .ok m ∧ res + ((k + 1 : ℕ) : ℤ) ≤ m) = fun o => ∃ m, o = .ok m ∧ res + 1 + (k : ℤ) ≤ m := by
              funext o; push_cast; simp only [add_assoc, add_comm (1 : ℤ)]
            rw [e2]
            exact h2
      · have hi := Finset.mem_range.1 hi
        have h := hgap (M - i) (by omega) (by omega)
        rw [← ENNReal.ofReal_toReal (measure_ne_top engine _)]
        exact ENNReal.ofReal_le_ofReal h

private theorem loop_ge (fuel : ℕ) : ∀ (y res : Int) (ws rest : List ℕ) (m : Int),
    bgLoop F log n false lg fuel y res ws = some (.ok m, rest) → res ≤ m := by
  induction fuel with
  | zero => intro y res ws rest m h; cases h
  | succ fuel ih =>
    intro y res ws rest m h
    unfold bgLoop at h
    split at h
    · cases h
    · split at h
      · cases h
      · split at h
        · simp only [Bool.false_eq_true, if_false, Option.some.injEq, Prod.mk.injEq, Except.ok.injEq] at h
          omega
        · have := ih _ _ _ _ _ h
          omega

/-- The chance of less than `k` further successes, from above. -/
private theorem lower (h0 : 0 ≤ p) (h1 : p ≤ 1) (hη : 0 ≤ η) (hg0 : ∀ x g, 0 < x → x ≤ 1 → gap F log x lg = .ok g → 0 ≤ g)
    (hgap : ∀ h : ℕ, 1 ≤ h → h ≤ n → 1 - (1 - p) ^ h - η ≤ engine.real (Yields realWords (GapBelow F log lg h))) (k : ℕ) :
    ∀ (fuel M : ℕ) (y res : Int), y + M = n → 0 ≤ y →
      engine (Yields (bgLoop F log n false lg fuel y res) fun o => ∃ m, o = .ok m ∧ m < res + k) ≤ ENNReal.ofReal (1 - atLeast p k M + k * η) := by
  classical
  induction k with
  | zero =>
    intro fuel M y res _ _
    rw [show Yields (bgLoop F log n false lg fuel y res) (fun o => ∃ m, o = .ok m ∧ m < res + (0 : ℕ)) = ∅ from ?_, measure_empty]
    · exact zero_le
    · refine Set.eq_empty_of_forall_notMem ?_
      rintro ω ⟨N, o, rest, h, m, rfl, h2⟩
      have := loop_ge _ _ _ _ _ _ h
      push_cast at h2
      omega
  | succ k ih =>
    intro fuel M y res hM hy
    cases fuel with
    | zero => rw [loop_fuel_zero _ _ _ _ _ _ _ _ (by rintro ⟨m, h, -⟩; cases h)]; exact zero_le
    | succ fuel =>
      rw [loop_eq, chance_andThen seq_realWords]
      have ha1 := after_le_one h0 h1 k M
      have hfin := mean_le (c := fun q => engine (Yields (next F log n false lg fuel y res q) fun o => ∃ m, o = .ok m ∧ m < res + (k + 1 : ℕ)))
        (D := incr p k) (e := fun i => 1 - (1 - (1 - p) ^ (M - i) - η)) (Q := fun i q => ¬ GapBelow F log lg (M - i) q) (M := M)
        (b := k * η + (1 - after p k M)) (add_nonneg (by positivity) (by linarith))
        (incr_nonneg h0 h1 k) (fun i => by
          have : 0 ≤ (1 - p) ^ (M - i) := pow_nonneg (by linarith) _
          linarith) (fun q hq => ?_) (fun i hi => ?_)
      · refine hfin.trans (ENNReal.ofReal_le_ofReal ?_)
        have e : ∑ i ∈ Finset.range M, incr p k i * (1 - (1 - (1 - p) ^ (M - i) - η)) = after p k M - atLeast p (k + 1) M + η * after p k M := by
          rw [← gaps, ← incr_sum, Finset.mul_sum, ← Finset.sum_sub_distrib, ← Finset.sum_add_distrib]
          exact Finset.sum_congr rfl fun i _ => by ring
        rw [e]
        push_cast
        nlinarith
      · obtain ⟨q0, q1⟩ := mass_support hq
        have hall : ∀ G : ℕ, gap F log q lg = .ok G →
            ∑ i ∈ Finset.range M, (if ¬ GapBelow F log lg (M - i) q then incr p k i else 0) = after p k M - after p k (M - G) := by
          intro G hg
          rw [← cut k M G, ← incr_sum, ← Finset.sum_sub_distrib]
          refine Finset.sum_congr rfl fun i _ => ?_
          have : GapBelow F log lg (M - i) q ↔ G < M - i := by
            unfold GapBelow
            rw [hg]
            constructor
            · rintro ⟨g, h, h2⟩; injection h with h; omega
            · intro h; exact ⟨_, rfl, by exact_mod_cast h⟩
          by_cases hc : G < M - i <;> simp [this, hc]
        unfold next
        cases hs : step F log lg y q with
        | error e =>
          refine le_trans (le_of_eq ?_) zero_le
          have h := yields_pure (Except.error e : Out Int) fun o => ∃ m, o = .ok m ∧ m < res + (k + 1 : ℕ)
          rw [if_neg (by rintro ⟨m, h, -⟩; cases h)] at h
          exact h
        | ok z =>
          dsimp only
          obtain ⟨g, hg, hz⟩ := step_ok hs
          have hgn := hg0 q g q0 q1 hg
          obtain ⟨G, rfl⟩ := Int.eq_ofNat_of_zero_le hgn
          rw [hall G hg]
          split
          · next hzn =>
            have : M - G = 0 := by omega
            rw [this]
            have hk : (0 : ℝ) ≤ k * η := by positivity
            have e1 : (1 : ENNReal) ≤ ENNReal.ofReal (k * η + (1 - after p k M) + (after p k M - after p k 0)) := by
              rw [← ENNReal.ofReal_one]
              refine ENNReal.ofReal_le_ofReal ?_
              show 1 ≤ k * η + (1 - after p k M) + (after p k M - 0)
              linarith
            exact le_trans prob_le_one e1
          · next hzn =>
            have hGM : G < M := by omega
            have h2 := ih fuel (M - 1 - G) z (res + 1) (by omega) (by omega)
            have e2 : (fun o : Out Int => ∃ m, o = .ok m ∧ m < res + ((k + 1 : ℕ) : ℤ)) = fun o => ∃ m, o = .ok m ∧ m < res + 1 + (k : ℤ) := by
              funext o; push_cast; simp only [add_assoc, add_comm (1 : ℤ)]
            rw [e2]
            refine h2.trans (ENNReal.ofReal_le_ofReal ?_)
            have e3 : M - G = (M - 1 - G) + 1 := by omega
            rw [e3]
            show _ ≤ _ + (_ - atLeast p k (M - 1 - G))
            linarith
      · have hi := Finset.mem_range.1 hi
        exact chance_not _ (hgap (M - i) (by omega) (by omega))

end Law

private theorem round_same {F : Format} {z : ℚ} (hz : Rep F z) (h0 : 0 ≤ z) : Fp.round F z = .fin z := by
  obtain ⟨q, hq, -, h1⟩ := round_le hz h0 le_rfl
  have h2 := le_round hz le_rfl
  rw [hq] at h2 ⊢
  have h2 : z ≤ q := of_decide_eq_true h2
  rw [le_antisymm h1 h2]

private theorem not_lt_of {a b : ℚ} {x : Flt} (h : Fp.le (.fin a) x = true) (hb : b ≤ a) : Fp.lt x (.fin b) = false := by
  cases x with
  | nan s => rfl
  | inf s =>
    cases s
    · rfl
    · cases h
  | fin q =>
    have h : a ≤ q := of_decide_eq_true h
    rw [lt_fin]
    exact decide_eq_false (not_lt.2 (hb.trans h))

/-- For `p` up to one half and a small product only the loop remains. -/
private theorem binomial_eq {F : Format} {log log1p : Flt → Flt} {large : Bool → Flt → List Nat → Option (Out Int × List Nat)} {ε p : ℚ} {n : ℕ}
    (hlog1 : Log1pWithin ε log1p) (hε : ε < 1) (hp0 : 0 < p) (hp1 : p ≤ 1 / 2) (hhalf : Rep F (1 / 2))
    (hsmall : Fp.lt (Fp.mul F (.fin p) (Fp.round F n)) (.fin 10) = true) (fuel : ℕ) :
    Fp.binomial F log log1p large fuel n (.fin p) = bgLoop F log n false (log1p (neg (.fin p))) fuel 0 0 := by
  obtain ⟨L, hL, hL0, -, -, -⟩ := log1p_within hlog1 hε hp0 (by linarith : p < 1)
  funext ws
  unfold Fp.binomial
  have e1 : Fp.lt (.fin (1 / 2)) (.fin p) = false := by rw [lt_fin]; exact decide_eq_false (not_lt.2 hp1)
  have e2 : Fp.lt (Fp.sub F (.fin 1) (.fin p)) (.fin p) = false := not_lt_of (le_round hhalf (by linarith)) hp1
  have e3 : Fp.le (.fin 0) (.fin p) = true := decide_eq_true hp0.le
  have e4 : Fp.le (.fin p) (.fin 1) = true := decide_eq_true (by linarith)
  have e5 : Fp.le (.fin 0) (log1p (neg (.fin p))) = false := by rw [hL]; exact decide_eq_false (not_le.2 hL0)
  have e6 : decide ((n : ℤ) ≥ 0) = true := decide_eq_true (by omega)
  have hsmall' : Fp.lt (Fp.mul F (.fin p) (Fp.round F ((n : ℤ) : ℚ))) (.fin 10) = true := by simpa using hsmall
  simp only [e1, e2, e3, e4, e6, Bool.and_self, Bool.not_true, Bool.false_eq_true, if_false, hsmall', if_true, e5]

private theorem gap_law {F : Format} {log log1p : Flt → Flt} {p : ℚ} (hp0 : 0 < p) (hp1 : p < 1) (h : ℕ) :
    {ω | ∃ n m rest, geometric F log log1p (.fin p) ((List.range n).map ω) = some (.ok m, rest) ∧ m < h} =
      Yields realWords (GapBelow F log (log1p (neg (.fin p))) h) := by
  have e : (Fp.le (.fin 0) (.fin p) && Fp.lt (.fin p) (.fin 1)) = true := by
    rw [lt_fin]
    show (decide (0 ≤ p) && decide (p < 1)) = true
    rw [decide_eq_true hp0.le, decide_eq_true hp1]; rfl
  ext ω
  constructor
  · rintro ⟨n, m, rest, h1, h2⟩
    unfold geometric at h1
    rw [e] at h1
    simp only [Bool.not_true, Bool.false_eq_true, if_false, Option.map_eq_some_iff] at h1
    obtain ⟨⟨x, r⟩, h3, h4⟩ := h1
    exact ⟨n, x, r, h3, m, congrArg Prod.fst h4, h2⟩
  · rintro ⟨n, x, r, h1, m, h2, h3⟩
    refine ⟨n, m, r, ?_, h3⟩
    unfold geometric
    rw [e, h1]
    simp only [Bool.not_true, Bool.false_eq_true, if_false, Option.map_some, h2]

private theorem sides {F : Format} {log log1p : Flt → Flt} {ε p : ℚ} {n : ℕ} (k : ℕ)
    (hlog : LogWithin ε log) (hlog1 : Log1pWithin ε log1p) (hε0 : 0 ≤ ε) (hε : ε ≤ 1 / 8) (hp0 : 0 < p) (hp1 : p ≤ 1 / 2) (hn : n < 2 ^ 63)
    (hrep : ∀ h : ℕ, h ≤ n → Rep F h) (hF : F.emin ≤ 1 - F.p) (hFp : 3 ≤ F.p) :
    engine.real (Yields (bgLoop F log n false (log1p (neg (.fin p))) (n + 1) 0 0) fun o => ∃ m, o = .ok m ∧ (0 : ℤ) + k ≤ m) ≤
        atLeast p k n + k * (2 * (ε + (unit F : ℚ)) + 1 / 2 ^ 52) ∧
      engine.real (Yields (bgLoop F log n false (log1p (neg (.fin p))) (n + 1) 0 0) fun o => ∃ m, o = .ok m ∧ m < (0 : ℤ) + k) ≤
        1 - atLeast p k n + k * (2 * (ε + (unit F : ℚ)) + 1 / 2 ^ 52) := by
  have hp0R : (0 : ℝ) ≤ p := by exact_mod_cast hp0.le
  have hp1R : (p : ℝ) ≤ 1 := by
    have : p ≤ 1 := by linarith
    exact_mod_cast this
  have hε0R : (0 : ℝ) ≤ ε := by exact_mod_cast hε0
  have hu : (0 : ℝ) ≤ (unit F : ℚ) := by
    have : 0 ≤ unit F := by unfold unit; positivity
    exact_mod_cast this
  set η : ℝ := 2 * (ε + (unit F : ℚ)) + 1 / 2 ^ 52 with hη
  have hη0 : 0 ≤ η := by positivity
  have hg0 : ∀ (x : ℚ) (g : ℤ), 0 < x → x ≤ 1 → gap F log x (log1p (neg (.fin p))) = .ok g → 0 ≤ g := fun x g x0 x1 h =>
    gap_nonneg hlog hlog1 (by linarith) (by
      rw [lt_fin]
      show (decide (0 ≤ p) && decide (p < 1)) = true
      rw [decide_eq_true hp0.le, decide_eq_true (by linarith : p < 1)]; rfl) x0 x1 h
  have hgap : ∀ h : ℕ, 1 ≤ h → h ≤ n → |engine.real (Yields realWords (GapBelow F log (log1p (neg (.fin p))) h)) - (1 - (1 - (p : ℝ)) ^ h)| ≤ η := by
    intro h h1 h2
    have := C114_geometric_law F log log1p ε p h hlog hlog1 hε0 hε hp0 (by linarith) h1 (by omega) (hrep h h2) hF hFp
    rw [gap_law hp0 (by linarith)] at this
    exact this
  have hU := upper (n := n) hp0R hp1R hη0 hg0 (fun h h1 h2 => by have := (abs_le.1 (hgap h h1 h2)).2; linarith) k (n + 1) n 0 0 (by omega) le_rfl
  have hL := lower (n := n) hp0R hp1R hη0 hg0 (fun h h1 h2 => by have := (abs_le.1 (hgap h h1 h2)).1; linarith) k (n + 1) n 0 0 (by omega) le_rfl
  have ht0 := tail_nonneg hp0R hp1R k n
  have ht1 := tail_le_one hp0R hp1R k n
  have hkη : (0 : ℝ) ≤ k * η := by positivity
  have hU' := ENNReal.toReal_mono ENNReal.ofReal_ne_top hU
  rw [ENNReal.toReal_ofReal (by linarith)] at hU'
  have hL' := ENNReal.toReal_mono ENNReal.ofReal_ne_top hL
  rw [ENNReal.toReal_ofReal (by linarith)] at hL'
  exact ⟨hU', hL'⟩

/-- **C117**: if the engine returns independent, uniformly distributed words and the logarithms have a relative error of at most `ε`, then
`binomial(n, p)` with the geometric method is at least `k` with the probability of at least `k` successes in `n` independent trials of
probability `p`, up to `k (2 (ε + unit) + 2^-52)` and the probability that the call has undefined behaviour. -/
theorem C117_law (F : Format) (log log1p : Flt → Flt) (large : Bool → Flt → List Nat → Option (Out Int × List Nat)) (ε p : ℚ) (n k : ℕ)
    (hlog : LogWithin ε log) (hlog1 : Log1pWithin ε log1p) (hε0 : 0 ≤ ε) (hε : ε ≤ 1 / 8) (hp0 : 0 < p) (hp1 : p ≤ 1 / 2) (hn : n < 2 ^ 63)
    (hrep : ∀ h : ℕ, h ≤ n → Rep F h) (hhalf : Rep F (1 / 2)) (hF : F.emin ≤ 1 - F.p) (hFp : 3 ≤ F.p)
    (hsmall : Fp.lt (Fp.mul F (.fin p) (Fp.round F n)) (.fin 10) = true) :
    let call := Fp.binomial F log log1p large (n + 1) n (.fin p)
    |engine.real {ω | ∃ N m rest, call ((List.range N).map ω) = some (.ok m, rest) ∧ k ≤ m} - atLeast p k n| ≤
      k * (2 * (ε + (unit F : ℚ)) + 1 / 2 ^ 52) + engine.real {ω | ¬ ∃ N m rest, call ((List.range N).map ω) = some (.ok m, rest)} := by
  intro call
  have hcall : call = bgLoop F log n false (log1p (neg (.fin p))) (n + 1) 0 0 := binomial_eq hlog1 (by linarith) hp0 hp1 hhalf hsmall _
  obtain ⟨hU', hL'⟩ := sides (n := n) k hlog hlog1 hε0 hε hp0 hp1 hn hrep hF hFp
  rw [← hcall] at hU' hL'
  have e1 : {ω : ℕ → ℕ | ∃ N m rest, call ((List.range N).map ω) = some (.ok m, rest) ∧ (k : ℤ) ≤ m} =
      Yields call fun o => ∃ m, o = .ok m ∧ (0 : ℤ) + k ≤ m := by
    ext ω
    constructor
    · rintro ⟨N, m, rest, h, h2⟩; exact ⟨N, _, rest, h, m, rfl, by omega⟩
    · rintro ⟨N, _, rest, h, m, rfl, h2⟩; exact ⟨N, m, rest, h, by omega⟩
  have e2 : {ω : ℕ → ℕ | ∃ N m rest, call ((List.range N).map ω) = some (.ok m, rest)} = Yields call fun o => ∃ m, o = .ok m := by
    ext ω
    constructor
    · rintro ⟨N, m, rest, h⟩; exact ⟨N, _, rest, h, m, rfl⟩
    · rintro ⟨N, _, rest, h, m, rfl⟩; exact ⟨N, m, rest, h⟩
  have e3 : engine.real {ω : ℕ → ℕ | ¬ ∃ N m rest, call ((List.range N).map ω) = some (.ok m, rest)} = 1 - engine.real (Yields call fun o => ∃ m, o = .ok m) := by
    rw [← e2, ← probReal_compl_eq_one_sub (by rw [e2]; exact measurable_yields _ _)]
    rfl
  have h4 : engine.real (Yields call fun o => ∃ m, o = .ok m) ≤ engine.real (Yields call fun o => ∃ m, o = .ok m ∧ (0 : ℤ) + k ≤ m) +
      engine.real (Yields call fun o => ∃ m, o = .ok m ∧ m < (0 : ℤ) + k) := by
    refine (measureReal_mono ?_).trans (measureReal_union_le _ _)
    rintro ω ⟨N, _, rest, h, m, rfl⟩
    rcases lt_or_ge m (0 + (k : ℤ)) with hm | hm
    · exact .inr ⟨N, _, rest, h, m, rfl, hm⟩
    · exact .inl ⟨N, _, rest, h, m, rfl, hm⟩
  have h5 : engine.real (Yields call fun o => ∃ m, o = .ok m) ≤ 1 := measureReal_le_one
  rw [e1, e3, abs_le]
  unfold Measure.real at *
  constructor <;> linarith

private theorem loop_swap {F : Format} {log : Flt → Flt} {lg : Flt} {n : Int} (fuel : ℕ) : ∀ (y res : Int) (ws : List ℕ),
    bgLoop F log n true lg fuel y res ws = (bgLoop F log n false lg fuel y res ws).map fun x => (x.1.map (n - ·), x.2) := by
  induction fuel with
  | zero => intro y res ws; rfl
  | succ fuel ih =>
    intro y res ws
    unfold bgLoop
    split
    · rfl
    · split
      · rfl
      · split
        · rfl
        · exact ih _ _ _

private theorem binomial_swap {F : Format} {log log1p : Flt → Flt} {large : Bool → Flt → List Nat → Option (Out Int × List Nat)} {ε p : ℚ} {n : ℕ}
    (hlog1 : Log1pWithin ε log1p) (hε : ε < 1) (hp0 : 1 / 2 < p) (hp1 : p < 1) (hq : Rep F (1 - p))
    (hsmall : Fp.lt (Fp.mul F (.fin (1 - p)) (Fp.round F n)) (.fin 10) = true) (fuel : ℕ) :
    Fp.binomial F log log1p large fuel n (.fin p) = bgLoop F log n true (log1p (neg (.fin (1 - p)))) fuel 0 0 := by
  obtain ⟨L, hL, hL0, -, -, -⟩ := log1p_within hlog1 hε (by linarith : 0 < 1 - p) (by linarith : 1 - p < 1)
  funext ws
  unfold Fp.binomial
  have e1 : Fp.lt (.fin (1 / 2)) (.fin p) = true := by rw [lt_fin]; exact decide_eq_true hp0
  have e0 : Fp.sub F (.fin 1) (.fin p) = .fin (1 - p) := round_same hq (by linarith)
  have e2 : Fp.lt (.fin (1 - p)) (.fin p) = true := by rw [lt_fin]; exact decide_eq_true (by linarith)
  have e3 : Fp.le (.fin 0) (.fin p) = true := decide_eq_true (by linarith)
  have e4 : Fp.le (.fin p) (.fin 1) = true := decide_eq_true (by linarith)
  have e5 : Fp.le (.fin 0) (log1p (neg (.fin (1 - p)))) = false := by rw [hL]; exact decide_eq_false (not_le.2 hL0)
  have e6 : decide ((n : ℤ) ≥ 0) = true := decide_eq_true (by omega)
  have hsmall' : Fp.lt (Fp.mul F (.fin (1 - p)) (Fp.round F ((n : ℤ) : ℚ))) (.fin 10) = true := by simpa using hsmall
  simp only [e0, e1, e2, e3, e4, e6, Bool.and_self, Bool.not_true, Bool.false_eq_true, if_false, hsmall', if_true, e5]

/-- **C117**: for `p` above one half, `binomial(n, p)` counts the failures in `binomial(n, 1 - p)`, on the same words. -/
theorem C117_swap (F : Format) (log log1p : Flt → Flt) (large : Bool → Flt → List Nat → Option (Out Int × List Nat)) (ε p : ℚ) (n : ℕ)
    (hlog1 : Log1pWithin ε log1p) (hε : ε < 1) (hp0 : 1 / 2 < p) (hp1 : p < 1) (hq : Rep F (1 - p)) (hhalf : Rep F (1 / 2))
    (hsmall : Fp.lt (Fp.mul F (.fin (1 - p)) (Fp.round F n)) (.fin 10) = true) (fuel : ℕ) (ws : List ℕ) :
    Fp.binomial F log log1p large fuel n (.fin p) ws =
      (Fp.binomial F log log1p large fuel n (.fin (1 - p)) ws).map fun x => (x.1.map ((n : ℤ) - ·), x.2) := by
  rw [binomial_swap hlog1 hε hp0 hp1 hq hsmall, binomial_eq hlog1 hε (by linarith) (by linarith) hhalf hsmall]
  exact loop_swap _ _ _ _

/-- **C117**: the law for `p` above one half; `1 - p` is a number of the format, as it is for every `p` of the format in `(1/2, 1)`. -/
theorem C117_law_swapped (F : Format) (log log1p : Flt → Flt) (large : Bool → Flt → List Nat → Option (Out Int × List Nat)) (ε p : ℚ) (n k : ℕ)
    (hlog : LogWithin ε log) (hlog1 : Log1pWithin ε log1p) (hε0 : 0 ≤ ε) (hε : ε ≤ 1 / 8) (hp0 : 1 / 2 < p) (hp1 : p < 1) (hn : n < 2 ^ 63) (hk : k ≤ n)
    (hrep : ∀ h : ℕ, h ≤ n → Rep F h) (hq : Rep F (1 - p)) (hF : F.emin ≤ 1 - F.p) (hFp : 3 ≤ F.p)
    (hsmall : Fp.lt (Fp.mul F (.fin (1 - p)) (Fp.round F n)) (.fin 10) = true) :
    let call := Fp.binomial F log log1p large (n + 1) n (.fin p)
    |engine.real {ω | ∃ N m rest, call ((List.range N).map ω) = some (.ok m, rest) ∧ k ≤ m} - atLeast p k n| ≤
      (n - k + 1) * (2 * (ε + (unit F : ℚ)) + 1 / 2 ^ 52) + engine.real {ω | ¬ ∃ N m rest, call ((List.range N).map ω) = some (.ok m, rest)} := by
  intro call
  set f := bgLoop F log n false (log1p (neg (.fin (1 - p)))) (n + 1) 0 0 with hf
  have hcall : ∀ ws, call ws = (f ws).map fun x => (x.1.map ((n : ℤ) - ·), x.2) := fun ws => by
    show Fp.binomial F log log1p large (n + 1) n (.fin p) ws = _
    rw [binomial_swap hlog1 (by linarith) hp0 hp1 hq hsmall]
    exact loop_swap _ _ _ _
  obtain ⟨hU', hL'⟩ := sides (n := n) (n - k + 1) hlog hlog1 hε0 hε (by linarith : 0 < 1 - p) (by linarith) hn hrep hF hFp
  rw [← hf] at hU' hL'
  have ok_iff : ∀ ws m rest, call ws = some (.ok m, rest) ↔ f ws = some (.ok (n - m), rest) := by
    intro ws m rest
    rw [hcall]
    rcases f ws with _ | ⟨o, r⟩
    · simp
    · cases o with
      | error e => simp [Except.map]
      | ok v =>
        simp only [Option.map_some, Except.map, Option.some.injEq, Prod.mk.injEq, Except.ok.injEq]
        constructor
        · rintro ⟨h, rfl⟩; exact ⟨by omega, rfl⟩
        · rintro ⟨h, rfl⟩; exact ⟨by omega, rfl⟩
  have e1 : {ω : ℕ → ℕ | ∃ N m rest, call ((List.range N).map ω) = some (.ok m, rest) ∧ (k : ℤ) ≤ m} =
      Yields f fun o => ∃ m, o = .ok m ∧ m < (0 : ℤ) + (n - k + 1 : ℕ) := by
    ext ω
    constructor
    · rintro ⟨N, m, rest, h, h2⟩; exact ⟨N, _, rest, (ok_iff _ _ _).1 h, n - m, rfl, by omega⟩
    · rintro ⟨N, _, rest, h, m, rfl, h2⟩
      exact ⟨N, n - m, rest, (ok_iff _ _ _).2 (by rw [h, sub_sub_cancel]), by omega⟩
  have e2 : {ω : ℕ → ℕ | ∃ N m rest, call ((List.range N).map ω) = some (.ok m, rest)} = Yields f fun o => ∃ m, o = .ok m := by
    ext ω
    constructor
    · rintro ⟨N, m, rest, h⟩; exact ⟨N, _, rest, (ok_iff _ _ _).1 h, _, rfl⟩
    · rintro ⟨N, _, rest, h, m, rfl⟩; exact ⟨N, n - m, rest, (ok_iff _ _ _).2 (by rw [h, sub_sub_cancel])⟩
  have e3 : engine.real {ω : ℕ → ℕ | ¬ ∃ N m rest, call ((List.range N).map ω) = some (.ok m, rest)} = 1 - engine.real (Yields f fun o => ∃ m, o = .ok m) := by
    rw [← e2, ← probReal_compl_eq_one_sub (by rw [e2]; exact measurable_yields _ _)]
    rfl
  have h4 : engine.real (Yields f fun o => ∃ m, o = .ok m) ≤ engine.real (Yields f fun o => ∃ m, o = .ok m ∧ (0 : ℤ) + (n - k + 1 : ℕ) ≤ m) +
      engine.real (Yields f fun o => ∃ m, o = .ok m ∧ m < (0 : ℤ) + (n - k + 1 : ℕ)) := by
    refine (measureReal_mono ?_).trans (measureReal_union_le _ _)
    rintro ω ⟨N, _, rest, h, m, rfl⟩
    rcases lt_or_ge m (0 + ((n - k + 1 : ℕ) : ℤ)) with hm | hm
    · exact .inr ⟨N, _, rest, h, m, rfl, hm⟩
    · exact .inl ⟨N, _, rest, h, m, rfl, hm⟩
  have h5 : engine.real (Yields f fun o => ∃ m, o = .ok m) ≤ 1 := measureReal_le_one
  have h6 := tail_swap (p := (p : ℝ)) hk
  have hc : ((n - k + 1 : ℕ) : ℝ) = n - k + 1 := by rw [Nat.cast_add, Nat.cast_sub hk, Nat.cast_one]
  have hp : ((1 - p : ℚ) : ℝ) = 1 - p := by push_cast; rfl
  rw [hc, hp] at hU' hL'
  rw [e1, e3, abs_le, h6]
  unfold Measure.real at *
  constructor <;> linarith

/-- The smaller one of `p` and `1 - p` is in `[0, 1)`. -/
private theorem smaller_range {F : Format} {p : Flt} (h : (Fp.le (.fin 0) p && Fp.le p (.fin 1)) = true) :
    (Fp.le (.fin 0) (if Fp.lt (Fp.sub F (.fin 1) p) p then Fp.sub F (.fin 1) p else p) &&
      Fp.lt (if Fp.lt (Fp.sub F (.fin 1) p) p then Fp.sub F (.fin 1) p else p) (.fin 1)) = true := by
  rw [Bool.and_eq_true] at h
  cases p with
  | nan s => cases h.1
  | inf s =>
    cases s
    · cases h.2
    · cases h.1
  | fin r =>
    have r0 : 0 ≤ r := of_decide_eq_true h.1
    have r1 : r ≤ 1 := of_decide_eq_true h.2
    have h0 : Fp.round F 0 = .fin 0 := round_same ⟨0, F.emin, by simp, le_rfl, F.emin_le, by simp⟩ le_rfl
    show (Fp.le (.fin 0) (if Fp.lt (Fp.round F (1 - r)) (.fin r) then Fp.round F (1 - r) else .fin r) &&
      Fp.lt (if Fp.lt (Fp.round F (1 - r)) (.fin r) then Fp.round F (1 - r) else .fin r) (.fin 1)) = true
    rcases eq_or_lt_of_le r1 with rfl | r1
    · rw [sub_self, h0, lt_fin]
      simp only [zero_lt_one, decide_true, if_true]
      rw [lt_fin]
      rfl
    · rcases round_cases F (show 0 ≤ 1 - r by linarith) with ⟨q, hq, hq0⟩ | hq
      · rw [hq, lt_fin]
        by_cases hqr : q < r
        · rw [decide_eq_true hqr, if_pos rfl, lt_fin, decide_eq_true (by linarith : q < 1), Bool.and_true]
          exact decide_eq_true hq0
        · rw [decide_eq_false hqr, if_neg (by simp), lt_fin, decide_eq_true r1, Bool.and_true]
          exact decide_eq_true r0
      · rw [hq]
        show (Fp.le (.fin 0) (.fin r) && Fp.lt (.fin r) (.fin 1)) = true
        rw [lt_fin, decide_eq_true r1, Bool.and_true]
        exact decide_eq_true r0

private theorem loop_range {F : Format} {log : Flt → Flt} {lg : Flt} {n : Int} {swap : Bool}
    (hg0 : ∀ (x : ℚ) (g : ℤ), 0 < x → x ≤ 1 → gap F log x lg = .ok g → 0 ≤ g) (fuel : ℕ) :
    ∀ (y res : Int) (ws rest : List ℕ) (o : Out Int), (∀ w ∈ ws, w < 2 ^ 64) → 0 ≤ res → res ≤ y → y ≤ n → bgLoop F log n swap lg fuel y res ws = some (o, rest) →
      (∀ m, o = .ok m → 0 ≤ m ∧ m ≤ n) ∧ (n - y < fuel → o ≠ .error .fuel) := by
  induction fuel with
  | zero =>
    intro y res ws rest o _ _ _ hy h
    simp only [bgLoop, Option.some.injEq, Prod.mk.injEq] at h
    obtain ⟨rfl, rfl⟩ := h
    refine ⟨fun m hm => (by cases hm), fun h => ?_⟩
    simp only [Nat.cast_zero] at h
    omega
  | succ fuel ih =>
    intro y res ws rest o hw h0 h1 hy h
    rw [loop_eq] at h
    unfold WordFn.andThen at h
    split at h
    · cases h
    · next x r hr =>
      obtain ⟨x0, x1⟩ := realWords_range hw hr
      obtain ⟨pre, hpre⟩ := realWords_suffix hr
      unfold next at h
      cases hs : step F log lg y x with
      | error e =>
        rw [hs] at h
        simp only [Option.some.injEq, Prod.mk.injEq] at h
        obtain ⟨rfl, rfl⟩ := h
        refine ⟨fun m hm => (by cases hm), fun _ he => ?_⟩
        injection he with he
        subst he
        clear * - hs
        have hck : ∀ a, chk a ≠ .error .fuel := by intro a h; unfold chk at h; split at h <;> cases h
        have hgp : gap F log x lg ≠ .error .fuel := by
          unfold gap llround
          split
          · exact hck _
          · intro h; cases h
        unfold step at hs
        cases hg : gap F log x lg with
        | error e => rw [hg] at hs; exact hgp (by rw [hg]; exact hs)
        | ok g =>
          rw [hg] at hs
          change (chk (g + 1) >>= fun g => chk (y + g)) = _ at hs
          cases h1 : chk (g + 1) with
          | error e => rw [h1] at hs; exact hck _ (h1.trans hs)
          | ok g1 => rw [h1] at hs; exact hck _ hs
      | ok z =>
        rw [hs] at h
        dsimp only at h
        obtain ⟨g, hg, hz⟩ := step_ok hs
        have hgn := hg0 x g x0 x1 hg
        split at h
        · simp only [Option.some.injEq, Prod.mk.injEq] at h
          obtain ⟨rfl, rfl⟩ := h
          refine ⟨fun m hm => ?_, fun _ he => by cases he⟩
          injection hm with hm
          subst hm
          split <;> omega
        · next hzn =>
          obtain ⟨k1, k2⟩ := ih z (res + 1) r rest o (fun w hm => hw w (by rw [hpre]; exact List.mem_append_right _ hm)) (by omega) (by omega) (by omega) h
          exact ⟨k1, fun hlt => k2 (by push_cast at hlt; omega)⟩

/-- **C117**: `binomial(n, p)` returns a number in `[0, n]` for every `p` if the other branch does, and the geometric method takes at most
`n + 1` iterations. -/
theorem C117_range (F : Format) (log log1p : Flt → Flt) (large : Bool → Flt → List Nat → Option (Out Int × List Nat)) (ε : ℚ) (n : Int) (p : Flt)
    (hlog : LogWithin ε log) (hlog1 : Log1pWithin ε log1p) (hε : ε < 1) (fuel : ℕ) (ws rest : List ℕ) (hw : ∀ w ∈ ws, w < 2 ^ 64) (o : Out Int)
    (hlarge : ∀ swap p ws m rest, large swap p ws = some (.ok m, rest) → 0 ≤ m ∧ m ≤ n)
    (h : Fp.binomial F log log1p large fuel n p ws = some (o, rest)) :
    (∀ m, o = .ok m → 0 ≤ m ∧ m ≤ n) ∧
      ((∀ swap p ws rest, large swap p ws ≠ some (.error .fuel, rest)) → n < fuel → o ≠ .error .fuel) := by
  unfold Fp.binomial at h
  split at h
  · simp only [Option.some.injEq, Prod.mk.injEq] at h
    obtain ⟨rfl, rfl⟩ := h
    exact ⟨fun m hm => (by cases hm), fun _ _ hm => by cases hm⟩
  next hn =>
  split at h
  · simp only [Option.some.injEq, Prod.mk.injEq] at h
    obtain ⟨rfl, rfl⟩ := h
    exact ⟨fun m hm => (by cases hm), fun _ _ hm => by cases hm⟩
  next hp =>
  have hn : 0 ≤ n := by simpa using hn
  have hp := smaller_range (F := F) (p := p) (by simpa using hp)
  dsimp only at h
  generalize (if Fp.lt (Fp.sub F (.fin 1) p) p then Fp.sub F (.fin 1) p else p) = p' at h hp
  split at h
  · split at h
    · simp only [Option.some.injEq, Prod.mk.injEq] at h
      obtain ⟨rfl, rfl⟩ := h
      refine ⟨fun m hm => ?_, fun _ _ hm => by cases hm⟩
      injection hm with hm
      subst hm
      split <;> omega
    · obtain ⟨k1, k2⟩ := loop_range (fun x g x0 x1 hg => gap_nonneg hlog hlog1 hε hp x0 x1 hg) fuel 0 0 ws rest o hw le_rfl le_rfl hn h
      exact ⟨k1, fun _ hlt => k2 (by omega)⟩
  · exact ⟨fun m hm => hlarge _ _ _ m rest (by rw [h, hm]), fun hl _ hm => hl _ _ _ rest (by rw [h, hm])⟩

/-- **C117**: wrong parameters throw before a random number is drawn. -/
theorem C117_throws (F : Format) (log log1p : Flt → Flt) (large : Bool → Flt → List Nat → Option (Out Int × List Nat)) (fuel : ℕ) (n : Int) (p : Flt)
    (ws : List ℕ) (h : n < 0 ∨ Fp.le (.fin 0) p = false ∨ Fp.le p (.fin 1) = false) :
    Fp.binomial F log log1p large fuel n p ws = some (.error .throw, ws) := by
  unfold Fp.binomial
  split
  · rfl
  next hn =>
  rw [if_pos ?_]
  have hn : ¬ n < 0 := by simpa using hn
  rcases h with h | h | h
  · exact absurd h hn
  · rw [h]; rfl
  · rw [h, Bool.and_false]; rfl

private theorem gap_overflow {F : Format} {log log1p : Flt → Flt} {ε p x : ℚ} (hlog : LogWithin ε log) (hlog1 : Log1pWithin ε log1p) (hε0 : 0 ≤ ε)
    (hε : ε ≤ 1 / 8) (hp0 : 0 < p) (hp1 : p ≤ 1 / 2 ^ 65) (hrep : Rep F (2 ^ 63)) (x0 : 0 < x) (hx : x ≤ 1 / 2) :
    gap F log x (log1p (neg (.fin p))) = .error .ub := by
  have hp2 : p ≤ 1 / 2 := hp1.trans (by norm_num)
  obtain ⟨L, hL, hL0, -, -, hL2⟩ := log1p_within hlog1 (by linarith) hp0 (by linarith : p < 1)
  obtain ⟨y, hy, hy0, hy1, -⟩ := log_within hlog (by linarith) x0 (by linarith : x ≤ 1)
  have hε0R : (0 : ℝ) ≤ ε := by exact_mod_cast hε0
  have hεR : (ε : ℝ) ≤ 1 / 8 := by
    have : ((ε : ℚ) : ℝ) ≤ ((1 / 8 : ℚ) : ℝ) := Rat.cast_le.2 hε
    simpa using this
  have hp0R : (0 : ℝ) < p := by exact_mod_cast hp0
  have hp1R : (p : ℝ) ≤ 1 / 2 ^ 65 := by
    have : ((p : ℚ) : ℝ) ≤ ((1 / 2 ^ 65 : ℚ) : ℝ) := Rat.cast_le.2 hp1
    simpa using this
  have hp2R : (p : ℝ) ≤ 1 / 2 := by
    have : ((p : ℚ) : ℝ) ≤ ((1 / 2 : ℚ) : ℝ) := Rat.cast_le.2 hp2
    simpa using this
  have hxR : (x : ℝ) ≤ 1 / 2 := by
    have : ((x : ℚ) : ℝ) ≤ ((1 / 2 : ℚ) : ℝ) := Rat.cast_le.2 hx
    simpa using this
  have x0R : (0 : ℝ) < x := by exact_mod_cast x0
  have hlx : (0.69 : ℝ) ≤ -Real.log x := by
    have h1 := Real.log_le_log x0R hxR
    rw [one_div, Real.log_inv] at h1
    have := Real.log_two_gt_d9
    norm_num at this ⊢
    linarith
  have hlp : -Real.log (1 - p) ≤ 2 * p := by
    have h1 := Real.one_sub_inv_le_log_of_pos (show (0 : ℝ) < 1 - p by linarith)
    have h2 : (1 - (p : ℝ))⁻¹ ≤ 1 + 2 * p := by
      rw [inv_le_comm₀ (by linarith) (by linarith), inv_le_iff_one_le_mul₀ (by linarith)]
      nlinarith
    linarith
  have hyR : (0.6 : ℝ) ≤ ((-y : ℚ) : ℝ) := by nlinarith
  have hLR : ((-L : ℚ) : ℝ) ≤ 9 / 4 * p := by nlinarith
  have hyQ : (0.6 : ℚ) ≤ -y := by
    have : ((0.6 : ℚ) : ℝ) ≤ ((-y : ℚ) : ℝ) := by push_cast at hyR ⊢; exact hyR
    exact Rat.cast_le.1 this
  have hLQ : -L ≤ 9 / 4 / 2 ^ 65 := by
    have : ((-L : ℚ) : ℝ) ≤ ((9 / 4 / 2 ^ 65 : ℚ) : ℝ) := by push_cast at hLR ⊢; linarith
    exact Rat.cast_le.1 this
  have hz : (2 ^ 63 : ℚ) ≤ y / L := by
    rw [← neg_div_neg_eq, le_div_iff₀ (by linarith)]
    have h1 : (2 : ℚ) ^ 63 * -L ≤ 2 ^ 63 * (9 / 4 / 2 ^ 65) := mul_le_mul_of_nonneg_left hLQ (by positivity)
    have h2 : (2 : ℚ) ^ 63 * (9 / 4 / 2 ^ 65) ≤ 0.6 := by norm_num
    linarith
  have hle := le_round hrep hz
  unfold gap
  rw [hy, hL]
  simp only [Fp.div, if_neg hL0.ne]
  rcases round_cases F ((by positivity : (0 : ℚ) ≤ 2 ^ 63).trans hz) with ⟨q, hq, -⟩ | hq
  · rw [hq] at hle ⊢
    have hle : (2 ^ 63 : ℚ) ≤ q := of_decide_eq_true hle
    have hf : (2 ^ 63 : ℤ) ≤ ⌊q⌋ := Int.le_floor.2 (by push_cast; exact hle)
    have hf0 : (0 : ℚ) ≤ (⌊q⌋ : ℤ) := by exact_mod_cast (by positivity : (0 : ℤ) ≤ 2 ^ 63).trans hf
    have e : ⌊((⌊q⌋ : ℤ) : ℚ) + 1 / 2⌋ = ⌊q⌋ := by
      rw [Int.floor_eq_iff]
      constructor <;> linarith
    unfold floor llround chk
    dsimp only
    rw [if_pos hf0, e, if_neg]
    intro hI
    have := hI.2
    omega
  · rw [hq]; rfl

/-- **C117**, refuted: for small positive `p` the gap between two successes does not fit into 64 bits, and `std::llround` has no defined
result. For `p` up to `2^-65` this happens with probability at least one half minus `2^-52`, whatever `n` is. -/
theorem C117_defined_refuted (F : Format) (log log1p : Flt → Flt) (large : Bool → Flt → List Nat → Option (Out Int × List Nat)) (ε p : ℚ) (n : ℕ)
    (hlog : LogWithin ε log) (hlog1 : Log1pWithin ε log1p) (hε0 : 0 ≤ ε) (hε : ε ≤ 1 / 8) (hp0 : 0 < p) (hp1 : p ≤ 1 / 2 ^ 65)
    (hrep : Rep F (2 ^ 63)) (hhalf : Rep F (1 / 2)) (hsmall : Fp.lt (Fp.mul F (.fin p) (Fp.round F n)) (.fin 10) = true) (fuel : ℕ) :
    1 / 2 - 1 / 2 ^ 52 ≤ engine.real {ω | ∃ N rest, Fp.binomial F log log1p large (fuel + 1) n (.fin p) ((List.range N).map ω) = some (.error .ub, rest)} := by
  have h := below_ge (1 / 2) (by norm_num)
  have hw := not_words_real
  have h2 : engine.real {ω | ∃ v : ℚ, First ω v ∧ (v : ℝ) < 1 / 2} ≤
      engine.real {ω | ∃ N rest, Fp.binomial F log log1p large (fuel + 1) n (.fin p) ((List.range N).map ω) = some (.error .ub, rest)} +
      engine.real {ω | ¬ Words ω} := by
    refine (measureReal_mono ?_).trans (measureReal_union_le _ _)
    rintro ω ⟨v, ⟨N, rest, hv⟩, hv2⟩
    by_cases hω : Words ω
    · obtain ⟨v0, -⟩ := realWords_range (ws := (List.range N).map ω) (by
        intro w hm
        obtain ⟨i, -, rfl⟩ := List.mem_map.1 hm
        exact hω i) hv
      have hvQ : v ≤ 1 / 2 := by
        have : ((v : ℚ) : ℝ) ≤ ((1 / 2 : ℚ) : ℝ) := by push_cast; exact hv2.le
        exact Rat.cast_le.1 this
      refine .inl ⟨N, rest, ?_⟩
      rw [binomial_eq hlog1 (by linarith) hp0 (hp1.trans (by norm_num)) hhalf hsmall, loop_eq]
      unfold WordFn.andThen
      rw [hv]
      dsimp only
      unfold next step
      rw [gap_overflow hlog hlog1 hε0 hε hp0 hp1 hrep v0 hvQ]
      rfl
    · exact .inr hω
  linarith

private theorem loop_yields {F : Format} {log : Flt → Flt} {lg : Flt} {n : Int} {swap : Bool} (fuel : ℕ) : ∀ y res : Int,
    engine (Yields (bgLoop F log n swap lg fuel y res) fun _ => True) = 1 := by
  classical
  have hpure : ∀ o : Out Int, engine (Yields (fun ws => some (o, ws)) fun _ => True) = 1 := by
    intro o
    have h := yields_pure o fun _ => True
    rwa [if_pos trivial] at h
  induction fuel with
  | zero => intro y res; exact hpure _
  | succ fuel ih =>
    intro y res
    rw [loop_eq, chance_andThen seq_realWords]
    conv_rhs => rw [← mass_sum]
    refine tsum_congr fun q => ?_
    have : engine (Yields (next F log n swap lg fuel y res q) fun _ => True) = 1 := by
      unfold next
      split
      · exact hpure _
      · split
        · exact hpure _
        · exact ih _ _
    rw [this, mul_one]
    rfl

private theorem loop_error {F : Format} {log log1p : Flt → Flt} {ε p : ℚ} {n : ℕ} {swap : Bool} (hlog : LogWithin ε log) (hlog1 : Log1pWithin ε log1p)
    (hε0 : 0 ≤ ε) (hε : ε ≤ 1 / 8) (hp0 : 1 / 2 ^ 53 ≤ p) (hp1 : p < 1) (hrep : Rep F (1023 * 2 ^ 53)) (hn : n + 1 < 2 ^ 53) (fuel : ℕ) :
    ∀ y res : Int, 0 ≤ y → y ≤ n → n - y < fuel →
      engine (Yields (bgLoop F log n swap (log1p (neg (.fin p))) fuel y res) fun o => ∃ e, o = .error e) ≤
        ENNReal.ofReal (fuel * engine.real (Yields realWords fun x => x < 1 / 2 ^ 1074)) := by
  classical
  induction fuel with
  | zero => intro y res h0 h1 h2; simp only [Nat.cast_zero] at h2; omega
  | succ fuel ih =>
    intro y res h0 h1 h2
    rw [loop_eq, chance_andThen seq_realWords]
    set δ := engine.real (Yields realWords fun x => x < 1 / 2 ^ 1074) with hδ
    have hδ0 : 0 ≤ δ := measureReal_nonneg
    have hfin := mean_le (c := fun q => engine (Yields (next F log n swap (log1p (neg (.fin p))) fuel y res q) fun o => ∃ e, o = .error e))
      (D := fun _ => 1) (e := fun _ => δ) (Q := fun _ q => q < 1 / 2 ^ 1074) (M := 1) (b := fuel * δ) (by positivity) (fun _ => zero_le_one) (fun _ => hδ0)
      (fun q hq => ?_) (fun i _ => ?_)
    · refine hfin.trans (ENNReal.ofReal_le_ofReal ?_)
      rw [Finset.sum_range_one]
      push_cast
      linarith
    · obtain ⟨q0, q1⟩ := mass_support hq
      rw [Finset.sum_range_one]
      by_cases hs : q < 1 / 2 ^ 1074
      · rw [if_pos hs]
        refine le_trans prob_le_one ?_
        rw [← ENNReal.ofReal_one]
        refine ENNReal.ofReal_le_ofReal ?_
        have : 0 ≤ fuel * δ := by positivity
        linarith
      · rw [if_neg hs, add_zero]
        obtain ⟨g, hg, hg0, hg1⟩ := gap_fits (F := F) hlog hlog1 hε0 hε hp0 hp1 hrep q0 q1 (not_lt.1 hs)
        have hstep : step F log (log1p (neg (.fin p))) y q = .ok (y + (g + 1)) := by
          unfold step
          rw [hg]
          show (chk (g + 1) >>= fun g => chk (y + g)) = _
          rw [chk_ok (show I64 (g + 1) by unfold I64; constructor <;> omega)]
          show chk (y + (g + 1)) = _
          exact chk_ok (by unfold I64; constructor <;> omega)
        unfold next
        rw [hstep]
        dsimp only
        split
        · refine le_trans (le_of_eq ?_) zero_le
          generalize (if swap then (n : ℤ) - res else res) = r
          have h := yields_pure (Except.ok r : Out Int) fun o => ∃ e, o = .error e
          rwa [if_neg (by rintro ⟨e, h⟩; cases h)] at h
        · exact ih _ _ (by omega) (by omega) (by push_cast at h2; omega)
    · rw [← ENNReal.ofReal_toReal (measure_ne_top engine _)]
      exact ENNReal.ofReal_le_ofReal le_rfl

/-- **C117**: for `p ≥ 2^-53` the geometric method is undefined at most with the probability that one of `n + 1` calls of `real()` is below
`2^-1074`, the smallest positive `double`. -/
theorem C117_defined (F : Format) (log log1p : Flt → Flt) (large : Bool → Flt → List Nat → Option (Out Int × List Nat)) (ε p : ℚ) (n : ℕ)
    (hlog : LogWithin ε log) (hlog1 : Log1pWithin ε log1p) (hε0 : 0 ≤ ε) (hε : ε ≤ 1 / 8) (hp0 : 1 / 2 ^ 53 ≤ p) (hp1 : p ≤ 1 / 2) (hn : n + 1 < 2 ^ 53)
    (hrep : Rep F (1023 * 2 ^ 53)) (hhalf : Rep F (1 / 2)) (hsmall : Fp.lt (Fp.mul F (.fin p) (Fp.round F n)) (.fin 10) = true) :
    engine.real {ω | ¬ ∃ N m rest, Fp.binomial F log log1p large (n + 1) n (.fin p) ((List.range N).map ω) = some (.ok m, rest)} ≤
      (n + 1) * engine.real {ω | ∃ N x rest, realWords ((List.range N).map ω) = some (x, rest) ∧ x < 1 / 2 ^ 1074} := by
  have hp : 0 < p := lt_of_lt_of_le (by positivity) hp0
  rw [binomial_eq hlog1 (by linarith) hp hp1 hhalf hsmall]
  have h1 := loop_error (F := F) (swap := false) hlog hlog1 hε0 hε hp0 (by linarith) hrep hn (n + 1) 0 0 le_rfl (by omega) (by push_cast; omega)
  have h2 := loop_yields (F := F) (log := log) (lg := log1p (neg (.fin p))) (n := n) (swap := false) (n + 1) 0 0
  set call := bgLoop F log n false (log1p (neg (.fin p))) (n + 1) 0 0 with hcall
  have h3 : engine (Yields call fun _ => True)ᶜ = 0 := (prob_compl_eq_zero_iff (measurable_yields _ _)).2 h2
  have h4 : engine {ω | ¬ ∃ N m rest, call ((List.range N).map ω) = some (.ok m, rest)} ≤ engine (Yields call fun o => ∃ e, o = .error e) := by
    refine (measure_mono (t := (Yields call fun o => ∃ e, o = .error e) ∪ (Yields call fun _ => True)ᶜ) ?_).trans
      ((measure_union_le _ _).trans (by rw [h3, add_zero]))
    intro ω hω
    by_cases hy : ω ∈ Yields call fun _ => True
    · obtain ⟨N, o, rest, h, -⟩ := hy
      cases o with
      | ok m => exact absurd ⟨N, m, rest, h⟩ hω
      | error e => exact .inl ⟨N, _, rest, h, e, rfl⟩
    · exact .inr hy
  have h5 := ENNReal.toReal_mono ENNReal.ofReal_ne_top (h4.trans h1)
  rw [ENNReal.toReal_ofReal (by positivity)] at h5
  push_cast at h5
  exact h5

private theorem tiny_le : engine.real {ω | ∃ N x rest, realWords ((List.range N).map ω) = some (x, rest) ∧ x < 1 / 2 ^ 1074} ≤ 1 / 2 ^ 51 := by
  have h3 := below_le (1 / 2 ^ 1074) (by positivity)
  have h4 : engine.real {ω | ∃ N x rest, realWords ((List.range N).map ω) = some (x, rest) ∧ x < 1 / 2 ^ 1074} ≤
      engine.real {ω | ∃ v : ℚ, First ω v ∧ (v : ℝ) < 1 / 2 ^ 1074} := by
    refine measureReal_mono ?_
    rintro ω ⟨N, x, rest, hx, hlt⟩
    refine ⟨x, ⟨N, rest, hx⟩, ?_⟩
    have : (x : ℝ) < ((1 / 2 ^ 1074 : ℚ) : ℝ) := Rat.cast_lt.2 hlt
    push_cast at this
    exact this
  have h5 : (1 / 2 ^ 1074 : ℝ) ≤ 1 / 2 ^ 52 :=
    one_div_le_one_div_of_le (by positivity) (pow_le_pow_right₀ (by norm_num) (by norm_num))
  have h6 : (1 / 2 ^ 51 : ℝ) = 1 / 2 ^ 52 + 1 / 2 ^ 52 := by norm_num
  rw [h6]
  linarith

/-- **C117**: the law of the geometric method with an explicit error, for `p ≥ 2^-53`. -/
theorem C117_law_explicit (F : Format) (log log1p : Flt → Flt) (large : Bool → Flt → List Nat → Option (Out Int × List Nat)) (ε p : ℚ) (n k : ℕ)
    (hlog : LogWithin ε log) (hlog1 : Log1pWithin ε log1p) (hε0 : 0 ≤ ε) (hε : ε ≤ 1 / 8) (hp0 : 1 / 2 ^ 53 ≤ p) (hp1 : p ≤ 1 / 2) (hn : n + 1 < 2 ^ 53)
    (hrep : ∀ h : ℕ, h ≤ n → Rep F h) (hrep2 : Rep F (1023 * 2 ^ 53)) (hhalf : Rep F (1 / 2)) (hF : F.emin ≤ 1 - F.p) (hFp : 3 ≤ F.p)
    (hsmall : Fp.lt (Fp.mul F (.fin p) (Fp.round F n)) (.fin 10) = true) :
    |engine.real {ω | ∃ N m rest, Fp.binomial F log log1p large (n + 1) n (.fin p) ((List.range N).map ω) = some (.ok m, rest) ∧ k ≤ m} - atLeast p k n| ≤
      k * (2 * (ε + (unit F : ℚ)) + 1 / 2 ^ 52) + (n + 1) / 2 ^ 51 := by
  have hp : 0 < p := lt_of_lt_of_le (by positivity) hp0
  have h1 := C117_law F log log1p large ε p n k hlog hlog1 hε0 hε hp hp1 (by omega) hrep hhalf hF hFp hsmall
  have h2 := C117_defined F log log1p large ε p n hlog hlog1 hε0 hε hp0 hp1 hn hrep2 hhalf hsmall
  refine h1.trans (add_le_add le_rfl (h2.trans ?_))
  rw [div_eq_mul_one_div ((n : ℝ) + 1)]
  exact mul_le_mul_of_nonneg_left tiny_le (by positivity)

/-! ### The bounded variant -/

private theorem seq_loop {F : Format} {log : Flt → Flt} {lg : Flt} {n : Int} {swap : Bool} (fuel : ℕ) : ∀ y res : Int,
    Sequential (bgLoop F log n swap lg fuel y res) := by
  induction fuel with
  | zero => intro y res; exact seq_pure _
  | succ fuel ih =>
    intro y res
    rw [loop_eq]
    refine seq_andThen seq_realWords fun q => ?_
    unfold next
    split
    · exact seq_pure _
    · split
      · exact seq_pure _
      · exact ih _ _

private theorem ends_pure (o : Out Int) : engine (Yields (fun ws => some (o, ws)) fun _ => True) = 1 := by
  classical
  have h := yields_pure o fun _ => True
  rwa [if_pos trivial] at h

/-- `binomial(n, p)` takes its words one after the other and ends with probability one if the other branch does. -/
private theorem binomial_seq (F : Format) (log log1p : Flt → Flt) (large : Bool → Flt → List Nat → Option (Out Int × List Nat)) (steps : ℕ) (n : Int) (p : Flt)
    (hlarge : ∀ s q, Sequential (large s q) ∧ engine (Yields (large s q) fun _ => True) = 1) :
    Sequential (Fp.binomial F log log1p large steps n p) ∧ engine (Yields (Fp.binomial F log log1p large steps n p) fun _ => True) = 1 := by
  have key : ∀ f : WordFn (Out Int), (∀ ws, Fp.binomial F log log1p large steps n p ws = f ws) →
      Sequential f ∧ engine (Yields f fun _ => True) = 1 → Sequential (Fp.binomial F log log1p large steps n p) ∧
        engine (Yields (Fp.binomial F log log1p large steps n p) fun _ => True) = 1 := by
    intro f hf h
    rw [show Fp.binomial F log log1p large steps n p = f from funext hf]
    exact h
  by_cases h1 : (!decide (n ≥ 0)) = true
  · exact key _ (fun ws => by unfold Fp.binomial; rw [if_pos h1]) ⟨seq_pure _, ends_pure _⟩
  by_cases h2 : (!(le (.fin 0) p && le p (.fin 1))) = true
  · exact key _ (fun ws => by unfold Fp.binomial; rw [if_neg h1, if_pos h2]) ⟨seq_pure _, ends_pure _⟩
  by_cases h3 : lt (mul F (if lt (sub F (.fin 1) p) p then sub F (.fin 1) p else p) (Fp.round F n)) (.fin 10) = true
  · by_cases h4 : le (.fin 0) (log1p (neg (if lt (sub F (.fin 1) p) p then sub F (.fin 1) p else p))) = true
    · exact key _ (fun ws => by unfold Fp.binomial; dsimp only; rw [if_neg h1, if_neg h2, if_pos h3, if_pos h4]) ⟨seq_pure _, ends_pure _⟩
    · exact key _ (fun ws => by unfold Fp.binomial; dsimp only; rw [if_neg h1, if_neg h2, if_pos h3, if_neg h4]) ⟨seq_loop _ _ _, loop_yields _ _ _⟩
  · exact key _ (fun ws => by unfold Fp.binomial; dsimp only; rw [if_neg h1, if_neg h2, if_neg h3]) (hlarge _ _)

/-- What ends the loop: a number in the bounds, or no number at all. -/
private def Ends (lower upper : Int) : Out Int → Prop
  | .ok m => lower ≤ m ∧ m < upper
  | .error _ => True

private theorem loop_accepted {call : List Nat → Option (Out Int × List Nat)} {lower upper m : Int} {rest : List ℕ} (fuel : ℕ) : ∀ {ws : List ℕ},
    binomialLoop call lower upper fuel ws = some (.ok m, rest) → FirstAccepted call (Ends lower upper) ws (.ok m) rest := by
  induction fuel with
  | zero => intro ws h; simp [binomialLoop] at h
  | succ fuel ih =>
    intro ws h
    unfold binomialLoop at h
    split at h
    · cases h
    · cases h
    · next res ws' hc =>
      split at h
      · next hr =>
        cases h
        exact .now hc hr
      · next hr => exact .later hc hr (ih h)

private theorem accepted_loop {call : List Nat → Option (Out Int × List Nat)} {lower upper : Int} {ws rest : List ℕ} {o : Out Int}
    (h : FirstAccepted call (Ends lower upper) ws o rest) : ∀ m, o = .ok m → ∃ fuel, binomialLoop call lower upper fuel ws = some (.ok m, rest) := by
  induction h with
  | now h1 h2 =>
    rintro m rfl
    exact ⟨1, by rw [binomialLoop, h1]; exact if_pos h2⟩
  | @later ws rest rest' a b h1 h2 _ ih =>
    intro m hm
    obtain ⟨fuel, hf⟩ := ih m hm
    cases b with
    | error e => exact absurd trivial h2
    | ok v => exact ⟨fuel + 1, by rw [binomialLoop, h1]; exact (if_neg h2).trans hf⟩

private theorem accepted_in {call : List Nat → Option (Out Int × List Nat)} {A : Out Int → Prop} {ws rest : List ℕ} {o : Out Int}
    (h : FirstAccepted call A ws o rest) : A o ∧ ∃ ws', call ws' = some (o, rest) := by
  induction h with
  | now h1 h2 => exact ⟨h2, _, h1⟩
  | later _ _ _ ih => exact ih

/-- **C117**: `binomial(lower, upper, n, p)` returns only numbers in the bounds that `binomial(n, p)` returns, and throws before a random
number is drawn if the bounds are not in order. -/
theorem C117_bounded_range (F : Format) (log log1p : Flt → Flt) (large : Bool → Flt → List Nat → Option (Out Int × List Nat)) (steps fuel : ℕ)
    (lower upper n : Int) (p : Flt) (ws : List ℕ) :
    (upper ≤ lower → Fp.binomialIn F log log1p large steps fuel lower upper n p ws = some (.error .throw, ws)) ∧
      ∀ m rest, Fp.binomialIn F log log1p large steps fuel lower upper n p ws = some (.ok m, rest) →
        lower ≤ m ∧ m < upper ∧ ∃ ws', Fp.binomial F log log1p large steps n p ws' = some (.ok m, rest) := by
  unfold Fp.binomialIn
  constructor
  · intro h
    rw [decide_eq_false (not_lt.2 h)]; rfl
  · intro m rest h
    split at h
    · cases h
    · obtain ⟨⟨h1, h2⟩, h3⟩ := accepted_in (loop_accepted fuel h)
      exact ⟨h1, h2, h3⟩

/-- **C117**: `binomial(lower, upper, n, p)` returns a number with `Q` with the conditional probability of `Q`, given that `binomial(n, p)`
returns a number in the bounds or has no result. -/
theorem C117_conditional (F : Format) (log log1p : Flt → Flt) (large : Bool → Flt → List Nat → Option (Out Int × List Nat)) (steps : ℕ)
    (lower upper n : Int) (p : Flt) (hlu : lower < upper)
    (hlarge : ∀ s q, Sequential (large s q) ∧ engine (Yields (large s q) fun _ => True) = 1) (Q : Int → Prop) :
    let call := Fp.binomial F log log1p large steps n p
    let accept := engine.real {ω | ∃ N o rest, call ((List.range N).map ω) = some (o, rest) ∧ ∀ m, o = .ok m → lower ≤ m ∧ m < upper}
    0 < accept → engine.real {ω | ∃ fuel N m rest, Fp.binomialIn F log log1p large steps fuel lower upper n p ((List.range N).map ω) = some (.ok m, rest) ∧ Q m} =
      engine.real {ω | ∃ N m rest, call ((List.range N).map ω) = some (.ok m, rest) ∧ lower ≤ m ∧ m < upper ∧ Q m} / accept := by
  intro call accept hpos
  obtain ⟨hs, he⟩ := binomial_seq F log log1p large steps n p hlarge
  have ea : {ω : ℕ → ℕ | ∃ N o rest, call ((List.range N).map ω) = some (o, rest) ∧ ∀ m, o = .ok m → lower ≤ m ∧ m < upper} =
      Yields call (Ends lower upper) := by
    ext ω
    constructor
    · rintro ⟨N, o, rest, h, h2⟩
      refine ⟨N, o, rest, h, ?_⟩
      cases o with
      | ok m => exact h2 m rfl
      | error e => trivial
    · rintro ⟨N, o, rest, h, h2⟩
      refine ⟨N, o, rest, h, ?_⟩
      rintro m rfl
      exact h2
  have h := C115_conditional hs (Ends lower upper) (fun o => ∃ m, o = .ok m ∧ Q m) he (by rw [← ea]; exact hpos)
  have e1 : {ω : ℕ → ℕ | ∃ fuel N m rest, Fp.binomialIn F log log1p large steps fuel lower upper n p ((List.range N).map ω) = some (.ok m, rest) ∧ Q m} =
      {ω | ∃ N a rest, FirstAccepted call (Ends lower upper) ((List.range N).map ω) a rest ∧ ∃ m, a = .ok m ∧ Q m} := by
    have hin : ∀ fuel ws, Fp.binomialIn F log log1p large steps fuel lower upper n p ws = binomialLoop call lower upper fuel ws := fun fuel ws => by
      unfold Fp.binomialIn
      rw [decide_eq_true hlu]; rfl
    ext ω
    constructor
    · rintro ⟨fuel, N, m, rest, h1, h2⟩
      rw [hin] at h1
      exact ⟨N, _, rest, loop_accepted fuel h1, m, rfl, h2⟩
    · rintro ⟨N, _, rest, h1, m, rfl, h2⟩
      obtain ⟨fuel, hf⟩ := accepted_loop h1 m rfl
      exact ⟨fuel, N, m, rest, by rw [hin]; exact hf, h2⟩
  have e2 : {ω : ℕ → ℕ | ∃ N m rest, call ((List.range N).map ω) = some (.ok m, rest) ∧ lower ≤ m ∧ m < upper ∧ Q m} =
      Yields call fun o => Ends lower upper o ∧ ∃ m, o = .ok m ∧ Q m := by
    ext ω
    constructor
    · rintro ⟨N, m, rest, h1, h2, h3, h4⟩; exact ⟨N, _, rest, h1, ⟨h2, h3⟩, m, rfl, h4⟩
    · rintro ⟨N, _, rest, h1, h2, m, rfl, h4⟩; exact ⟨N, m, rest, h1, h2.1, h2.2, h4⟩
  rw [e1, h, e2]
  show _ = _ / engine.real _
  rw [ea]

private theorem split_yields {f : WordFn (Out Int)} (hf : Sequential f) {A B C : Out Int → Prop} (h1 : ∀ o, C o ↔ A o ∨ B o) (h2 : ∀ o, A o → ¬ B o) :
    engine.real (Yields f C) = engine.real (Yields f A) + engine.real (Yields f B) := by
  classical
  unfold Measure.real
  rw [← ENNReal.toReal_add (measure_ne_top _ _) (measure_ne_top _ _), chance_sum hf A, chance_sum hf B, chance_sum hf C, ← ENNReal.tsum_add]
  congr 1
  refine tsum_congr fun o => ?_
  by_cases hA : A o
  · rw [if_pos hA, if_neg (h2 o hA), if_pos ((h1 o).2 (.inl hA)), mul_zero, add_zero]
  · by_cases hB : B o
    · rw [if_neg hA, if_pos hB, if_pos ((h1 o).2 (.inr hB)), mul_zero, zero_add]
    · rw [if_neg hA, if_neg hB, if_neg (fun h => ((h1 o).1 h).elim hA hB), mul_zero, zero_add]

private theorem ratio_near {a b A B α β : ℝ} (ha : 0 ≤ a) (hab : a ≤ b) (hb : 0 < b) (hB : 0 < B) (h1 : |a - A| ≤ α) (h2 : |b - B| ≤ β) :
    |a / b - A / B| ≤ (α + β) / B := by
  have e : a / b - A / B = ((a - A) - a / b * (b - B)) / B := by field_simp; ring
  have h3 : a / b ≤ 1 := (div_le_one hb).2 hab
  have h4 : 0 ≤ a / b := div_nonneg ha hb.le
  rw [e, abs_div, abs_of_pos hB]
  refine div_le_div_of_nonneg_right ((abs_sub _ _).trans (add_le_add h1 ?_)) hB.le
  rw [abs_mul, abs_of_nonneg h4]
  exact (mul_le_of_le_one_left (abs_nonneg _) h3).trans h2

/-- **C117**: `binomial(lower, upper, n, p)` has the law of the binomial distribution conditioned on `[lower, upper)`, up to
`4 upper (2 (ε + unit) + 2^-52)` and five times the probability that one call of `binomial(n, p)` has undefined behaviour, divided by the
probability of `[lower, upper)`. -/
theorem C117_bounded_law (F : Format) (log log1p : Flt → Flt) (large : Bool → Flt → List Nat → Option (Out Int × List Nat)) (ε p : ℚ) (n l u k : ℕ)
    (hlog : LogWithin ε log) (hlog1 : Log1pWithin ε log1p) (hε0 : 0 ≤ ε) (hε : ε ≤ 1 / 8) (hp0 : 0 < p) (hp1 : p ≤ 1 / 2) (hn : n < 2 ^ 63)
    (hrep : ∀ h : ℕ, h ≤ n → Rep F h) (hhalf : Rep F (1 / 2)) (hF : F.emin ≤ 1 - F.p) (hFp : 3 ≤ F.p)
    (hsmall : Fp.lt (Fp.mul F (.fin p) (Fp.round F n)) (.fin 10) = true)
    (hlarge : ∀ s q, Sequential (large s q) ∧ engine (Yields (large s q) fun _ => True) = 1) (hlu : l < u) (hlk : l ≤ k) (hku : k ≤ u)
    (hmass : atLeast p u n < atLeast p l n)
    (hpos : 0 < engine.real {ω | ∃ N o rest, Fp.binomial F log log1p large (n + 1) n (.fin p) ((List.range N).map ω) = some (o, rest) ∧
      ∀ m, o = .ok m → (l : ℤ) ≤ m ∧ m < u}) :
    |engine.real {ω | ∃ fuel N m rest, Fp.binomialIn F log log1p large (n + 1) fuel l u n (.fin p) ((List.range N).map ω) = some (.ok m, rest) ∧ (k : ℤ) ≤ m} -
        (atLeast p k n - atLeast p u n) / (atLeast p l n - atLeast p u n)| ≤
      (4 * u * (2 * (ε + (unit F : ℚ)) + 1 / 2 ^ 52) +
        5 * engine.real {ω | ¬ ∃ N m rest, Fp.binomial F log log1p large (n + 1) n (.fin p) ((List.range N).map ω) = some (.ok m, rest)}) /
      (atLeast p l n - atLeast p u n) := by
  have hc := C117_conditional F log log1p large (n + 1) l u n (.fin p) (by exact_mod_cast hlu) hlarge (fun m => (k : ℤ) ≤ m) hpos
  rw [hc]
  obtain ⟨hs, he⟩ := binomial_seq F log log1p large (n + 1) n (.fin p) hlarge
  have hk := C117_law F log log1p large ε p n k hlog hlog1 hε0 hε hp0 hp1 hn hrep hhalf hF hFp hsmall
  have hl := C117_law F log log1p large ε p n l hlog hlog1 hε0 hε hp0 hp1 hn hrep hhalf hF hFp hsmall
  have hu := C117_law F log log1p large ε p n u hlog hlog1 hε0 hε hp0 hp1 hn hrep hhalf hF hFp hsmall
  have hη0 : (0 : ℝ) ≤ 2 * (ε + (unit F : ℚ)) + 1 / 2 ^ 52 := by
    have h1 : (0 : ℝ) ≤ ε := by exact_mod_cast hε0
    have h2 : (0 : ℝ) ≤ (unit F : ℚ) := by
      have : 0 ≤ unit F := by unfold unit; positivity
      exact_mod_cast this
    positivity
  set call := Fp.binomial F log log1p large (n + 1) n (.fin p) with hcall
  set η : ℝ := 2 * (ε + (unit F : ℚ)) + 1 / 2 ^ 52 with hη
  set δ := engine.real {ω : ℕ → ℕ | ¬ ∃ N m rest, call ((List.range N).map ω) = some (.ok m, rest)} with hδ
  dsimp only at hk hl hu
  have eq : ∀ j : ℕ, {ω : ℕ → ℕ | ∃ N m rest, call ((List.range N).map ω) = some (.ok m, rest) ∧ (j : ℤ) ≤ m} = Yields call fun o => ∃ m, o = .ok m ∧ (j : ℤ) ≤ m := by
    intro j
    ext ω
    constructor
    · rintro ⟨N, m, rest, h, h2⟩; exact ⟨N, _, rest, h, m, rfl, h2⟩
    · rintro ⟨N, _, rest, h, m, rfl, h2⟩; exact ⟨N, m, rest, h, h2⟩
  rw [eq] at hk hl hu
  have part : ∀ j : ℕ, j ≤ u → engine.real (Yields call fun o => ∃ m, o = .ok m ∧ (j : ℤ) ≤ m) =
      engine.real (Yields call fun o => ∃ m, o = .ok m ∧ (j : ℤ) ≤ m ∧ m < u) + engine.real (Yields call fun o => ∃ m, o = .ok m ∧ (u : ℤ) ≤ m) := by
    intro j hj
    refine split_yields hs (fun o => ?_) fun o => ?_
    · constructor
      · rintro ⟨m, rfl, h⟩
        rcases lt_or_ge m (u : ℤ) with h2 | h2
        · exact .inl ⟨m, rfl, h, h2⟩
        · exact .inr ⟨m, rfl, h2⟩
      · rintro (⟨m, rfl, h, -⟩ | ⟨m, rfl, h⟩)
        · exact ⟨m, rfl, h⟩
        · exact ⟨m, rfl, by omega⟩
    · rintro ⟨m, rfl, -, h⟩ ⟨m', h1, h2⟩
      injection h1 with h1
      omega
  have hkp := part k hku
  have hlp := part l hlu.le
  have errs : engine.real (Yields call fun o => ∃ e, o = .error e) ≤ δ := by
    have h1 := split_yields hs (A := fun o => ∃ m, o = .ok m) (B := fun o => ∃ e, o = .error e) (C := fun _ => True)
      (fun o => ⟨fun _ => by cases o with | ok m => exact .inl ⟨m, rfl⟩ | error e => exact .inr ⟨e, rfl⟩, fun _ => trivial⟩)
      (by rintro _ ⟨m, rfl⟩ ⟨e, h⟩; cases h)
    have h2 : engine.real (Yields call fun _ => True) = 1 := by unfold Measure.real; rw [he, ENNReal.toReal_one]
    have e2 : {ω : ℕ → ℕ | ∃ N m rest, call ((List.range N).map ω) = some (.ok m, rest)} = Yields call fun o => ∃ m, o = .ok m := by
      ext ω
      constructor
      · rintro ⟨N, m, rest, h⟩; exact ⟨N, _, rest, h, m, rfl⟩
      · rintro ⟨N, _, rest, h, m, rfl⟩; exact ⟨N, m, rest, h⟩
    have e3 : δ = 1 - engine.real (Yields call fun o => ∃ m, o = .ok m) := by
      rw [hδ, ← e2, ← probReal_compl_eq_one_sub (by rw [e2]; exact measurable_yields _ _)]
      rfl
    linarith
  have hacc : {ω : ℕ → ℕ | ∃ N o rest, call ((List.range N).map ω) = some (o, rest) ∧ ∀ m, o = .ok m → (l : ℤ) ≤ m ∧ m < u} =
      Yields call fun o => ∀ m, o = .ok m → (l : ℤ) ≤ m ∧ m < u := rfl
  have hacc2 : engine.real (Yields call fun o => ∀ m, o = .ok m → (l : ℤ) ≤ m ∧ m < u) =
      engine.real (Yields call fun o => ∃ m, o = .ok m ∧ (l : ℤ) ≤ m ∧ m < u) + engine.real (Yields call fun o => ∃ e, o = .error e) := by
    refine split_yields hs (fun o => ?_) ?_
    · cases o with
      | ok m =>
        constructor
        · intro h; exact .inl ⟨m, rfl, h m rfl⟩
        · rintro (⟨m', h1, h2⟩ | ⟨e, h⟩)
          · intro m'' h3
            injection h1 with h1
            injection h3 with h3
            subst h1 h3
            exact h2
          · cases h
      | error e => exact ⟨fun _ => .inr ⟨e, rfl⟩, fun _ m h => by cases h⟩
    · rintro _ ⟨m, rfl, -⟩ ⟨e, h⟩; cases h
  have hnum : {ω : ℕ → ℕ | ∃ N m rest, call ((List.range N).map ω) = some (.ok m, rest) ∧ (l : ℤ) ≤ m ∧ m < (u : ℤ) ∧ (k : ℤ) ≤ m} =
      Yields call fun o => ∃ m, o = .ok m ∧ (k : ℤ) ≤ m ∧ m < u := by
    ext ω
    constructor
    · rintro ⟨N, m, rest, h, -, h3, h4⟩; exact ⟨N, _, rest, h, m, rfl, h4, h3⟩
    · rintro ⟨N, _, rest, h, m, rfl, h3, h4⟩; exact ⟨N, m, rest, h, by omega, h4, h3⟩
  rw [hacc] at hpos ⊢
  rw [hnum]
  have hδ0 : 0 ≤ δ := measureReal_nonneg
  have herr0 : 0 ≤ engine.real (Yields call fun o => ∃ e, o = .error e) := measureReal_nonneg
  have hku' : (k : ℝ) * η ≤ u * η := mul_le_mul_of_nonneg_right (by exact_mod_cast hku) hη0
  have hlu' : (l : ℝ) * η ≤ u * η := mul_le_mul_of_nonneg_right (by exact_mod_cast hlu.le) hη0
  have h1 := abs_le.1 hk
  have h2 := abs_le.1 hl
  have h3 := abs_le.1 hu
  have hle : engine.real (Yields call fun o => ∃ m, o = .ok m ∧ (k : ℤ) ≤ m ∧ m < u) ≤
      engine.real (Yields call fun o => ∀ m, o = .ok m → (l : ℤ) ≤ m ∧ m < u) := by
    refine measureReal_mono ?_
    rintro ω ⟨N, _, rest, h, m, rfl, h3, h4⟩
    refine ⟨N, _, rest, h, fun m' hm => ?_⟩
    injection hm with hm
    omega
  refine (ratio_near (α := 2 * (u * η) + 2 * δ) (β := 2 * (u * η) + 3 * δ) measureReal_nonneg hle hpos (by linarith) ?_ ?_).trans
    (div_le_div_of_nonneg_right (by linarith) (by linarith))
  · rw [abs_le]; constructor <;> linarith [h1.1, h1.2, h3.1, h3.2]
  · rw [hacc2, abs_le]; constructor <;> linarith [h2.1, h2.2, h3.1, h3.2]

/-- **C117**: `binomial(n, 0)` is `0` and `binomial(n, 1)` is `n`; no random number is drawn. -/
theorem C117_extreme (F : Format) (log log1p : Flt → Flt) (large : Bool → Flt → List Nat → Option (Out Int × List Nat)) (ε : ℚ) (n : Int)
    (hlog1 : Log1pWithin ε log1p) (hn : 0 ≤ n) (hfin : isfinite (Fp.round F n) = true) (fuel : ℕ) (ws : List ℕ) :
    Fp.binomial F log log1p large fuel n (.fin 0) ws = some (.ok 0, ws) ∧ Fp.binomial F log log1p large fuel n (.fin 1) ws = some (.ok n, ws) := by
  have h0 : Rep F 0 := ⟨0, F.emin, by simp, le_rfl, F.emin_le, by simp⟩
  have hr0 : Fp.round F 0 = .fin 0 := round_same h0 le_rfl
  obtain ⟨y, hy, hy0⟩ := hlog1 0 (by norm_num) le_rfl
  have hy0 : y = 0 := by
    simp only [Rat.cast_zero, add_zero, Real.log_one, sub_zero, abs_zero, mul_zero] at hy0
    exact_mod_cast abs_eq_zero.1 (le_antisymm hy0 (abs_nonneg _))
  subst hy0
  obtain ⟨r, hr⟩ : ∃ r, Fp.round F (n : ℚ) = .fin r := by
    cases h : Fp.round F (n : ℚ) with
    | nan s => rw [h] at hfin; cases hfin
    | inf s => rw [h] at hfin; cases hfin
    | fin q => exact ⟨q, rfl⟩
  have e6 : decide (n ≥ 0) = true := decide_eq_true hn
  have hm : Fp.lt (mul F (.fin 0) (Fp.round F (n : ℚ))) (.fin 10) = true := by
    rw [hr]
    show Fp.lt (Fp.round F (0 * r)) (.fin 10) = true
    rw [zero_mul, hr0, lt_fin]
    norm_num
  have hl : Fp.le (.fin 0) (log1p (neg (.fin 0))) = true := by
    rw [show neg (.fin 0) = .fin 0 by simp [neg], hy]
    exact decide_eq_true (le_refl (0 : ℚ))
  have a1 : Fp.le (.fin 0) (.fin 0) = true := decide_eq_true (le_refl (0 : ℚ))
  have a2 : Fp.le (.fin 0) (.fin 1) = true := decide_eq_true (zero_le_one (α := ℚ))
  have a3 : Fp.le (.fin 1) (.fin 1) = true := decide_eq_true (le_refl (1 : ℚ))
  unfold Fp.binomial
  constructor
  · have b1 : Fp.lt (.fin (1 / 2)) (.fin 0) = false := by rw [lt_fin]; norm_num
    have b2 : Fp.lt (sub F (.fin 1) (.fin 0)) (.fin 0) = false := not_lt_of (le_round h0 (by norm_num)) le_rfl
    simp only [e6, a1, a2, b1, b2, hm, hl, Bool.and_self, Bool.not_true, Bool.false_eq_true, if_false, if_true]
  · have b1 : Fp.lt (.fin (1 / 2)) (.fin 1) = true := by rw [lt_fin]; norm_num
    have b2 : sub F (.fin 1) (.fin 1) = .fin 0 := by
      show Fp.round F (1 - 1) = _
      rw [sub_self, hr0]
    have b3 : Fp.lt (.fin 0) (.fin 1) = true := by rw [lt_fin]; norm_num
    simp only [e6, a2, a3, b1, b2, b3, hm, hl, Bool.and_self, Bool.not_true, Bool.false_eq_true, if_false, if_true]

private def double : Format := ⟨53, -1074, 971, by norm_num, by norm_num⟩

private theorem rep_small (h : ℕ) (hh : h < 2 ^ 53) : Rep double (h : ℚ) :=
  ⟨h, 0, by
    show |(h : ℤ)| < 2 ^ 53
    rw [abs_of_nonneg (by omega)]
    exact_mod_cast hh, by decide, by decide, by norm_num⟩

private theorem rep_half : Rep double (1 / 2) := ⟨1, -1, by norm_num [double], by decide, by decide, by norm_num⟩

/-- `binomial(3, 1/4)` in double precision, with logarithms that are correct up to one unit in the last place, is at least `2` with
probability `10/64`. -/
example (log log1p : Flt → Flt) (large : Bool → Flt → List Nat → Option (Out Int × List Nat)) (hlog : LogWithin (1 / 2 ^ 52) log)
    (hlog1 : Log1pWithin (1 / 2 ^ 52) log1p) :
    |engine.real {ω | ∃ N m rest, Fp.binomial double log log1p large 4 3 (.fin (1 / 4)) ((List.range N).map ω) = some (.ok m, rest) ∧ 2 ≤ m} - 10 / 64| ≤
      1 / 2 ^ 48 := by
  have hs : Fp.lt (Fp.mul double (.fin (1 / 4)) (Fp.round double (3 : ℕ))) (.fin 10) = true := by
    rw [round_same (rep_small 3 (by norm_num)) (by norm_num)]
    show Fp.lt (Fp.round double (1 / 4 * (3 : ℕ))) (.fin 10) = true
    rw [round_same ⟨3, -2, by norm_num [double], by decide, by decide, by norm_num⟩ (by norm_num), lt_fin]
    norm_num
  have h := C117_law_explicit double log log1p large (1 / 2 ^ 52) (1 / 4) 3 2 hlog hlog1 (by norm_num) (by norm_num) (by norm_num) (by norm_num)
    (by norm_num) (fun h hh => rep_small h (by omega)) ⟨1023, 53, by norm_num [double], by decide, by decide, by norm_num⟩ rep_half (by decide) (by decide) hs
  have hu : unit double = 1 / 2 ^ 53 := by
    unfold unit double
    norm_num
  have ha : atLeast ((1 / 4 : ℚ) : ℝ) 2 3 = 10 / 64 := by
    unfold atLeast
    rw [Finset.sum_filter]
    simp only [Finset.sum_range_succ, Finset.sum_range_zero]
    norm_num [Nat.choose]
  rw [hu, ha] at h
  refine h.trans ?_
  norm_num

/-- `binomial(1, 2^-70)` in double precision has undefined behaviour with probability at least `0.49`. -/
example (log log1p : Flt → Flt) (large : Bool → Flt → List Nat → Option (Out Int × List Nat)) (hlog : LogWithin (1 / 2 ^ 52) log)
    (hlog1 : Log1pWithin (1 / 2 ^ 52) log1p) :
    (0.49 : ℝ) ≤ engine.real {ω | ∃ N rest, Fp.binomial double log log1p large 2 1 (.fin (1 / 2 ^ 70)) ((List.range N).map ω) = some (.error .ub, rest)} := by
  have hs : Fp.lt (Fp.mul double (.fin (1 / 2 ^ 70)) (Fp.round double (1 : ℕ))) (.fin 10) = true := by
    rw [round_same (rep_small 1 (by norm_num)) (by norm_num)]
    show Fp.lt (Fp.round double (1 / 2 ^ 70 * (1 : ℕ))) (.fin 10) = true
    rw [round_same ⟨1, -70, by norm_num [double], by decide, by decide, by norm_num⟩ (by norm_num), lt_fin]
    norm_num
  have h := C117_defined_refuted double log log1p large (1 / 2 ^ 52) (1 / 2 ^ 70) 1 hlog hlog1 (by norm_num) (by norm_num) (by norm_num) (by norm_num)
    ⟨1, 63, by norm_num [double], by decide, by decide, by norm_num⟩ rep_half hs 1
  refine le_trans ?_ h
  norm_num

/-- `binomial(-1, 1/2)` and `binomial(5, 3/2)` throw. -/
example (log log1p : Flt → Flt) (large : Bool → Flt → List Nat → Option (Out Int × List Nat)) :
    Fp.binomial double log log1p large 9 (-1) (.fin (1 / 2)) [7] = some (.error .throw, [7]) ∧
      Fp.binomial double log log1p large 9 5 (.fin (3 / 2)) [7] = some (.error .throw, [7]) :=
  ⟨C117_throws _ _ _ _ _ _ _ _ (.inl (by decide)), C117_throws _ _ _ _ _ _ _ _ (.inr (.inr (by show decide _ = false; norm_num)))⟩

/-- If `binomial(3, 1/4)` is `1` on some words, then `binomial(3, 3/4)` is `2` on these. -/
example (log log1p : Flt → Flt) (large : Bool → Flt → List Nat → Option (Out Int × List Nat)) (hlog1 : Log1pWithin (1 / 2 ^ 52) log1p) (ws rest : List ℕ)
    (h : Fp.binomial double log log1p large 4 3 (.fin (1 / 4)) ws = some (.ok 1, rest)) :
    Fp.binomial double log log1p large 4 3 (.fin (3 / 4)) ws = some (.ok 2, rest) := by
  have e : (1 - 3 / 4 : ℚ) = 1 / 4 := by norm_num
  have hs : Fp.lt (Fp.mul double (.fin (1 / 4)) (Fp.round double (3 : ℕ))) (.fin 10) = true := by
    rw [round_same (rep_small 3 (by norm_num)) (by norm_num)]
    show Fp.lt (Fp.round double (1 / 4 * (3 : ℕ))) (.fin 10) = true
    rw [round_same ⟨3, -2, by norm_num [double], by decide, by decide, by norm_num⟩ (by norm_num), lt_fin]
    norm_num
  have h2 := C117_swap double log log1p large (1 / 2 ^ 52) (3 / 4) 3 hlog1 (by norm_num) (by norm_num) (by norm_num)
    (by rw [e]; exact ⟨1, -2, by norm_num [double], by decide, by decide, by norm_num⟩) rep_half (by rw [e]; exact hs) 4 ws
  rw [e] at h2
  refine h2.trans ?_
  rw [show ((3 : ℕ) : ℤ) = 3 from rfl, h]
  rfl

private theorem small_quarter : Fp.lt (Fp.mul double (.fin (1 / 4)) (Fp.round double (3 : ℕ))) (.fin 10) = true := by
  rw [round_same (rep_small 3 (by norm_num)) (by norm_num)]
  show Fp.lt (Fp.round double (1 / 4 * (3 : ℕ))) (.fin 10) = true
  rw [round_same ⟨3, -2, by norm_num [double], by decide, by decide, by norm_num⟩ (by norm_num), lt_fin]
  norm_num

/-- `binomial(1, 3, 3, 1/4)` in double precision returns `2`, and not `1`, with probability one quarter. -/
example (log log1p : Flt → Flt) (hlog : LogWithin (1 / 2 ^ 52) log) (hlog1 : Log1pWithin (1 / 2 ^ 52) log1p) :
    let large : Bool → Flt → List Nat → Option (Out Int × List Nat) := fun _ _ ws => some (.error .throw, ws)
    |engine.real {ω | ∃ fuel N m rest, Fp.binomialIn double log log1p large 4 fuel 1 3 3 (.fin (1 / 4)) ((List.range N).map ω) = some (.ok m, rest) ∧ 2 ≤ m} -
      1 / 4| ≤ 1 / 2 ^ 44 := by
  intro large
  have hlarge : ∀ s q, Sequential (large s q) ∧ engine (Yields (large s q) fun _ => True) = 1 := fun s q => ⟨seq_pure _, ends_pure _⟩
  have hx := fun k => C117_law_explicit double log log1p large (1 / 2 ^ 52) (1 / 4) 3 k hlog hlog1 (by norm_num) (by norm_num) (by norm_num) (by norm_num)
    (by norm_num) (fun h hh => rep_small h (by omega)) ⟨1023, 53, by norm_num [double], by decide, by decide, by norm_num⟩ rep_half (by decide) (by decide)
    small_quarter
  have hd := C117_defined double log log1p large (1 / 2 ^ 52) (1 / 4) 3 hlog hlog1 (by norm_num) (by norm_num) (by norm_num) (by norm_num)
    (by norm_num) ⟨1023, 53, by norm_num [double], by decide, by decide, by norm_num⟩ rep_half small_quarter
  have hu : unit double = 1 / 2 ^ 53 := by
    unfold unit double
    norm_num
  have a1 : atLeast ((1 / 4 : ℚ) : ℝ) 1 3 = 37 / 64 := by
    unfold atLeast
    rw [Finset.sum_filter]
    simp only [Finset.sum_range_succ, Finset.sum_range_zero]
    norm_num [Nat.choose]
  have a2 : atLeast ((1 / 4 : ℚ) : ℝ) 2 3 = 10 / 64 := by
    unfold atLeast
    rw [Finset.sum_filter]
    simp only [Finset.sum_range_succ, Finset.sum_range_zero]
    norm_num [Nat.choose]
  have a3 : atLeast ((1 / 4 : ℚ) : ℝ) 3 3 = 1 / 64 := by
    unfold atLeast
    rw [Finset.sum_filter]
    simp only [Finset.sum_range_succ, Finset.sum_range_zero]
    norm_num [Nat.choose]
  have h1 := abs_le.1 (hx 1)
  have h3 := abs_le.1 (hx 3)
  rw [a1, hu] at h1
  rw [a3, hu] at h3
  have hpos : 0 < engine.real {ω | ∃ N o rest, Fp.binomial double log log1p large (3 + 1) (3 : ℕ) (.fin (1 / 4)) ((List.range N).map ω) = some (o, rest) ∧
      ∀ m, o = .ok m → ((1 : ℕ) : ℤ) ≤ m ∧ m < (3 : ℕ)} := by
    have hle : engine.real {ω | ∃ N m rest, Fp.binomial double log log1p large (3 + 1) (3 : ℕ) (.fin (1 / 4)) ((List.range N).map ω) = some (.ok m, rest) ∧
          ((1 : ℕ) : ℤ) ≤ m} ≤
        engine.real {ω | ∃ N o rest, Fp.binomial double log log1p large (3 + 1) (3 : ℕ) (.fin (1 / 4)) ((List.range N).map ω) = some (o, rest) ∧
          ∀ m, o = .ok m → ((1 : ℕ) : ℤ) ≤ m ∧ m < (3 : ℕ)} +
        engine.real {ω | ∃ N m rest, Fp.binomial double log log1p large (3 + 1) (3 : ℕ) (.fin (1 / 4)) ((List.range N).map ω) = some (.ok m, rest) ∧
          ((3 : ℕ) : ℤ) ≤ m} := by
      refine (measureReal_mono ?_).trans (measureReal_union_le _ _)
      rintro ω ⟨N, m, rest, h, h2⟩
      rcases lt_or_ge m ((3 : ℕ) : ℤ) with h4 | h4
      · refine .inl ⟨N, _, rest, h, fun m' hm => ?_⟩
        injection hm with hm
        exact ⟨by omega, by omega⟩
      · exact .inr ⟨N, m, rest, h, h4⟩
    have q1 := h1.1
    have q3 := h3.2
    norm_num at q1 q3 hle ⊢
    linarith
  have h := C117_bounded_law double log log1p large (1 / 2 ^ 52) (1 / 4) 3 1 3 2 hlog hlog1 (by norm_num) (by norm_num) (by norm_num) (by norm_num)
    (by norm_num) (fun h hh => rep_small h (by omega)) rep_half (by decide) (by decide) small_quarter hlarge (by norm_num) (by norm_num) (by norm_num)
    (by rw [a1, a3]; norm_num) hpos
  rw [a1, a2, a3, hu] at h
  have hb := tiny_le
  have hd' := hd.trans (mul_le_mul_of_nonneg_left hb (by norm_num))
  rw [show (10 / 64 - 1 / 64 : ℝ) / (37 / 64 - 1 / 64) = 1 / 4 by norm_num] at h
  refine h.trans ?_
  norm_num at hd' ⊢
  linarith

/-- `binomial(5, 5, 9, p)` throws. -/
example (log log1p : Flt → Flt) (large : Bool → Flt → List Nat → Option (Out Int × List Nat)) :
    Fp.binomialIn double log log1p large 9 9 5 5 9 (.fin (1 / 2)) [7] = some (.error .throw, [7]) :=
  (C117_bounded_range _ _ _ _ _ _ _ _ _ _ _).1 le_rfl

/-- `binomial(7, 1)` is `7`. -/
example (log log1p : Flt → Flt) (large : Bool → Flt → List Nat → Option (Out Int × List Nat)) (hlog1 : Log1pWithin (1 / 2 ^ 52) log1p) :
    Fp.binomial double log log1p large 9 7 (.fin 1) [5] = some (.ok 7, [5]) :=
  (C117_extreme double log log1p large _ 7 hlog1 (by norm_num) (by
    have h := round_same (rep_small 7 (by norm_num)) (by norm_num)
    norm_num at h ⊢
    rw [h]; rfl) 9 [5]).2

end ICPC.Props
