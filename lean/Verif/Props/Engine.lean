import Verif.Lemmas.Engine
import Verif.Props.RandSeq
import Verif.Props.RealLaw

/-!
# C98: the laws of random programs hold for their executions on independent words
-/

namespace ICPC.Props

open MeasureTheory Spec ICPC.Engine

variable {α β : Type}

/-! ### One outcome -/

theorem integerWords_append (i128 : Bool) {l u : Int} {ws rest t : List Nat} {o : Out Int} (h : integerWords i128 l u ws = some (o, rest)) :
    integerWords i128 l u (ws ++ t) = some (o, rest ++ t) := by
  have loop : ∀ (s m : Nat) (ws : List Nat) (x : Nat) (p : Nat × List Nat), rejectLoop s m x ws = some p → rejectLoop s m x (ws ++ t) = some (p.1, p.2 ++ t) := by
    intro s m ws
    induction ws with
    | nil =>
      intro x p h
      unfold rejectLoop at h
      split at h
      · cases h
      · rename_i hc
        injection h with h
        subst h
        cases t with
        | nil => simp [rejectLoop, hc]
        | cons y t => simp [rejectLoop, hc]
    | cons w ws ih =>
      intro x p h
      unfold rejectLoop at h
      rw [List.cons_append]
      unfold rejectLoop
      split at h
      · rename_i hc
        rw [if_pos hc]
        exact ih w p h
      · rename_i hc
        rw [if_neg hc]
        injection h with h
        subst h
        rfl
  unfold integerWords at h ⊢
  split at h
  · rename_i hlu
    rw [if_pos hlu]
    rw [Option.map_eq_some_iff] at h ⊢
    obtain ⟨p, hp, e⟩ := h
    refine ⟨(p.1, p.2 ++ t), ?_, ?_⟩
    · cases ws with
      | nil => simp [acceptWord] at hp
      | cons x ws =>
        rw [List.cons_append]
        rw [acceptWord] at hp ⊢
        split at hp
        · rename_i hc
          rw [if_pos hc]
          exact loop _ _ ws x p hp
        · rename_i hc
          rw [if_neg hc]
          injection hp with hp
          subst hp
          rfl
    · injection e with e1 e2
      rw [← e1, ← e2]
  · rename_i hlu
    rw [if_neg hlu]
    injection h with h
    injection h with h1 h2
    rw [← h1, ← h2]

theorem engine_run_append (i128 : Bool) {r : Rand α} : ∀ {ws rest t : List Nat} {o : Out α}, r.run i128 ws = some (o, rest) → r.run i128 (ws ++ t) = some (o, rest ++ t) := by
  induction r with
  | done o =>
    intro ws rest t o' h
    rw [Rand.run] at h ⊢
    injection h with h
    injection h with h1 h2
    rw [h1, h2]
  | draw l u k ih =>
    intro ws rest t o h
    rw [Rand.run] at h ⊢
    rcases e : integerWords i128 l u ws with _ | ⟨v | v, ws'⟩
    · rw [e] at h; cases h
    · rw [e] at h
      rw [integerWords_append i128 e]
      dsimp only at h ⊢
      injection h with h
      injection h with h1 h2
      rw [h1, h2]
    · rw [e] at h
      rw [integerWords_append i128 e]
      exact ih v h
  | coin k ih =>
    intro ws rest t o h
    cases ws with
    | nil => rw [Rand.run] at h; cases h
    | cons w ws =>
      rw [List.cons_append]
      rw [Rand.run] at h ⊢
      exact ih _ h

/-- **C98, one outcome.** A sequence of words determines the outcome. -/
theorem C98_unique (i128 : Bool) (r : Rand α) (ω : ℕ → ℕ) (o o' : Out α) (h : Returns i128 r ω o) (h' : Returns i128 r ω o') : o = o' := by
  obtain ⟨n, rest, h⟩ := h
  obtain ⟨m, rest', h'⟩ := h'
  have key : ∀ {n m : ℕ} {o o' : Out α} {rest rest' : List ℕ}, n ≤ m → r.run i128 ((List.range n).map ω) = some (o, rest) →
      r.run i128 ((List.range m).map ω) = some (o', rest') → o = o' := by
    intro n m o o' rest rest' hnm h h'
    obtain ⟨d, rfl⟩ := Nat.exists_eq_add_of_le hnm
    rw [List.range_add, List.map_append, engine_run_append i128 h] at h'
    injection h' with h'
    injection h' with h'
  rcases Nat.le_total n m with hnm | hnm
  · exact key hnm h h'
  · exact (key hnm h' h).symm

/-! ### The first word -/

theorem map_range_cons (w : ℕ) (ω : ℕ → ℕ) (n : ℕ) : (List.range (n + 1)).map (cons (w, ω)) = w :: (List.range n).map ω := by
  rw [List.range_succ_eq_map, List.map_cons, List.map_map]
  rfl

theorem returns_done (i128 : Bool) (o o' : Out α) (ω : ℕ → ℕ) : Returns i128 (.done o) ω o' ↔ o = o' := by
  constructor
  · rintro ⟨n, rest, h⟩
    rw [Rand.run] at h
    injection h with h
    injection h with h
  · rintro rfl
    exact ⟨0, [], by rw [Rand.run]; rfl⟩

theorem returns_coin (i128 : Bool) (k : Bool → Rand α) (o : Out α) (w : ℕ) (ω : ℕ → ℕ) :
    Returns i128 (.coin k) (cons (w, ω)) o ↔ Returns i128 (k (bitWord w)) ω o := by
  constructor
  · rintro ⟨n, rest, h⟩
    cases n with
    | zero => rw [List.range_zero, List.map_nil, Rand.run] at h; cases h
    | succ n =>
      rw [map_range_cons, Rand.run] at h
      exact ⟨n, rest, h⟩
  · rintro ⟨n, rest, h⟩
    refine ⟨n + 1, rest, ?_⟩
    rw [map_range_cons, Rand.run]
    exact h

theorem returns_draw_accepted (i128 : Bool) {l u : Int} (hl : I64 l) (hu : I64 u) (hlu : l < u) (k : Int → Rand α) (o : Out α) {w : ℕ} (ω : ℕ → ℕ)
    (hw : Accepted l u w) :
    Returns i128 (.draw l u k) (cons (w, ω)) o ↔ Returns i128 (k (integerValue i128 (toU64 l) (rangeWidth l u) w)) ω o := by
  have key : ∀ ws, integerWords i128 l u (w :: ws) = some (.ok (integerValue i128 (toU64 l) (rangeWidth l u) w), ws) := by
    intro ws
    rcases integerWords_single i128 hl hu hlu w with ⟨_, h⟩ | ⟨h, _⟩
    · exact absurd hw h
    · exact integerWords_append i128 (t := ws) h
  constructor
  · rintro ⟨n, rest, h⟩
    cases n with
    | zero => rw [List.range_zero, List.map_nil, Rand.run] at h; simp [integerWords, hlu, acceptWord] at h
    | succ n =>
      rw [map_range_cons, Rand.run, key] at h
      exact ⟨n, rest, h⟩
  · rintro ⟨n, rest, h⟩
    refine ⟨n + 1, rest, ?_⟩
    rw [map_range_cons, Rand.run, key]
    exact h

theorem returns_draw_rejected (i128 : Bool) {l u : Int} (hl : I64 l) (hu : I64 u) (hlu : l < u) (k : Int → Rand α) (o : Out α) {w : ℕ} (ω : ℕ → ℕ)
    (hw : ¬ Accepted l u w) :
    Returns i128 (.draw l u k) (cons (w, ω)) o ↔ Returns i128 (.draw l u k) ω o := by
  have key : ∀ ws, integerWords i128 l u (w :: ws) = integerWords i128 l u ws := by
    intro ws
    rcases integerWords_single i128 hl hu hlu w with ⟨h, _⟩ | ⟨_, h⟩
    · exact C02_rejected_words_are_skipped i128 l u hl hu hlu w ws h
    · exact absurd h hw
  constructor
  · rintro ⟨n, rest, h⟩
    cases n with
    | zero => rw [List.range_zero, List.map_nil, Rand.run] at h; simp [integerWords, hlu, acceptWord] at h
    | succ n =>
      rw [map_range_cons, Rand.run, key] at h
      refine ⟨n, rest, ?_⟩
      rw [Rand.run]
      exact h
  · rintro ⟨n, rest, h⟩
    refine ⟨n + 1, rest, ?_⟩
    rw [Rand.run] at h
    rw [map_range_cons, Rand.run, key]
    exact h

/-! ### The probability -/

open Classical in
/-- The probability of the outcomes that satisfy `Q`, when every draw is uniform. -/
noncomputable def weight (Q : Out α → Prop) : Rand α → ℝ
  | .done o => if Q o then 1 else 0
  | .draw l u k => (∑ v ∈ Finset.Ico l u, weight Q (k v)) / ((u - l : Int) : ℝ)
  | .coin k => (weight Q (k false) + weight Q (k true)) / 2

open Classical in
theorem average {N s q : ℕ} {l u : ℤ} {acc : ℕ → Prop} {val : ℕ → ℤ} (hN : 0 < N) (hs : (s : ℤ) = u - l) (h0 : 0 < s) (hq : 0 < q)
    (hcard : ∀ v ∈ Finset.Ico l u, ((Finset.range N).filter fun w => acc w ∧ val w = v).card = q)
    (hrange : ∀ w < N, acc w → val w ∈ Finset.Ico l u) {P : ℤ → ℝ} {p : ℝ}
    (h : p = (∑ w ∈ Finset.range N, if acc w then P (val w) else p) / N) : p = (∑ v ∈ Finset.Ico l u, P v) / ((u - l : Int) : ℝ) := by
  have hN' : (N : ℝ) ≠ 0 := by exact_mod_cast hN.ne'
  have hs' : ((u - l : Int) : ℝ) = s := by rw [← hs]; rfl
  have hmaps : ∀ w ∈ (Finset.range N).filter acc, val w ∈ Finset.Ico l u := fun w hw =>
    hrange w (Finset.mem_range.1 (Finset.mem_filter.1 hw).1) (Finset.mem_filter.1 hw).2
  have hfib : ∀ v ∈ Finset.Ico l u, ((Finset.range N).filter acc |>.filter fun w => val w = v).card = q := fun v hv => by
    rw [Finset.filter_filter]; exact hcard v hv
  have h1 : ∑ w ∈ (Finset.range N).filter acc, P (val w) = q * ∑ v ∈ Finset.Ico l u, P v := by
    rw [← Finset.sum_fiberwise_of_maps_to hmaps, Finset.mul_sum]
    refine Finset.sum_congr rfl fun v hv => ?_
    rw [Finset.sum_congr rfl (g := fun _ => P v) (fun w hw => by rw [(Finset.mem_filter.1 hw).2]), Finset.sum_const, hfib v hv, nsmul_eq_mul]
  have h2 : ((Finset.range N).filter acc).card = s * q := by
    rw [Finset.card_eq_sum_card_fiberwise hmaps, Finset.sum_congr rfl hfib, Finset.sum_const, Int.card_Ico, smul_eq_mul]
    congr 1
    omega
  have h3 : (((Finset.range N).filter fun w => ¬ acc w).card : ℝ) = N - s * q := by
    have := Finset.card_filter_add_card_filter_not (s := Finset.range N) acc
    rw [Finset.card_range, h2] at this
    rw [eq_sub_iff_add_eq]
    exact_mod_cast (by rw [add_comm]; exact this)
  rw [Finset.sum_ite, h1, Finset.sum_const, nsmul_eq_mul, h3, eq_div_iff hN'] at h
  have hs0 : (s : ℝ) ≠ 0 := by exact_mod_cast h0.ne'
  have hq0 : (q : ℝ) ≠ 0 := by exact_mod_cast hq.ne'
  rw [hs', eq_div_iff hs0]
  refine mul_left_cancel₀ hq0 ?_
  linear_combination h

theorem measurable_returns (i128 : Bool) (r : Rand α) (Q : Out α → Prop) : MeasurableSet {ω | ∃ o, Returns i128 r ω o ∧ Q o} := by
  have e : {ω | ∃ o, Returns i128 r ω o ∧ Q o} = {ω : ℕ → ℕ | ∃ n, (fun _ ws => ∃ o rest, r.run i128 ws = some (o, rest) ∧ Q o) n ((List.range n).map ω)} := by
    ext ω
    constructor
    · rintro ⟨o, ⟨n, rest, h⟩, hq⟩; exact ⟨n, o, rest, h, hq⟩
    · rintro ⟨n, o, rest, h, hq⟩; exact ⟨o, ⟨n, rest, h⟩, hq⟩
  rw [e]
  exact measurable_prefix fun _ ws => ∃ o rest, r.run i128 ws = some (o, rest) ∧ Q o

theorem chance_first (i128 : Bool) (r : Rand α) (Q : Out α → Prop) :
    chance i128 r Q = (∑ w ∈ Finset.range (2 ^ 64), engine.real {ω | ∃ o, Returns i128 r (cons (w, ω)) o ∧ Q o}) / ((2 ^ 64 : ℕ) : ℝ) :=
  words_first (N := 2 ^ 64) (Nat.two_pow_pos 64) (measurable_returns i128 r Q)

theorem card_filter_words {N q : ℕ} {p : ℕ → Prop} [DecidablePred p] (h : {w : ℕ | w < N ∧ p w}.ncard = q) : ((Finset.range N).filter p).card = q := by
  rw [← h, ← Set.ncard_coe_finset]
  congr 1
  ext w
  simp

theorem coin_average {N M : ℕ} {b : ℕ → Bool} (hN : N = 2 * M) (hM : 0 < M) (hc : ((Finset.range N).filter fun w => b w = true).card = M)
    {F : ℕ → ℝ} {x y : ℝ} (hF : ∀ w, F w = if b w = true then y else x) : (∑ w ∈ Finset.range N, F w) / (N : ℝ) = (x + y) / 2 := by
  simp only [hF]
  have c2 : ((Finset.range N).filter fun w => ¬ b w = true).card = M := by
    have := Finset.card_filter_add_card_filter_not (s := Finset.range N) fun w => b w = true
    rw [Finset.card_range, hc] at this
    omega
  have : (M : ℝ) ≠ 0 := by exact_mod_cast hM.ne'
  rw [Finset.sum_ite, Finset.sum_const, Finset.sum_const, hc, c2, nsmul_eq_mul, nsmul_eq_mul, hN]
  push_cast
  field_simp
  ring

open Classical in
/-- The probability of outcomes, from the draws. -/
theorem chance_eq_weight (i128 : Bool) (Q : Out α → Prop) {r : Rand α} (h : Sat r fun _ => True) : chance i128 r Q = weight Q r := by
  induction r with
  | done o =>
    unfold chance weight
    simp only [returns_done]
    by_cases hq : Q o
    · have e : {ω : ℕ → ℕ | ∃ o', o = o' ∧ Q o'} = Set.univ := Set.eq_univ_of_forall fun ω => ⟨o, rfl, hq⟩
      have : IsProbabilityMeasure engine := by
        have := uniformBelow_isProb (Nat.two_pow_pos 64)
        unfold engine
        infer_instance
      rw [e, if_pos hq, probReal_univ]
    · have e : {ω : ℕ → ℕ | ∃ o', o = o' ∧ Q o'} = ∅ := by
        ext ω
        simp [hq]
      rw [e, if_neg hq, measureReal_empty]
  | draw l u k ih =>
    obtain ⟨hl, hu, hlu, hk⟩ := h
    have hs : (u - l).toNat < 2 ^ 64 := by have := hl.1; have := hu.2; omega
    rw [weight]
    refine Eq.trans (average (N := 2 ^ 64) (s := (u - l).toNat) (q := 2 ^ 64 / (u - l).toNat) (acc := Accepted l u)
      (val := integerValue i128 (toU64 l) (rangeWidth l u)) (P := fun v => chance i128 (k v) Q) (Nat.two_pow_pos 64) (Int.toNat_of_nonneg (by omega)) (Int.pos_iff_toNat_pos.1 (by omega))
      (Nat.div_pos hs.le (Int.pos_iff_toNat_pos.1 (by omega))) (fun v hv => ?_) (fun w hw _ => ?_) ?_) ?_
    · rw [Finset.mem_Ico] at hv
      refine card_filter_words ((congrArg Set.ncard ?_).trans (C02_uniform i128 l u hl hu v hv.1 hv.2))
      ext w
      refine and_congr_right fun _ => ?_
      rcases integerWords_single i128 hl hu hlu w with ⟨e, ha⟩ | ⟨e, ha⟩
      · rw [e]
        exact ⟨fun h => absurd h.1 ha, fun h => by cases h⟩
      · rw [e]
        exact ⟨fun h => by rw [h.2], fun h => ⟨ha, by injection h with h; injection h with h; injection h⟩⟩
    · have := integerValue_range i128 hl hu hlu hw
      exact Finset.mem_Ico.2 this
    · have hf := chance_first i128 (.draw l u k) Q
      generalize (2 : ℕ) ^ 64 = N at hf ⊢
      refine hf.trans ?_
      congr 1
      refine Finset.sum_congr rfl fun w _ => ?_
      by_cases ha : Accepted l u w
      · rw [if_pos ha]
        simp only [returns_draw_accepted i128 hl hu hlu k _ _ ha]
        rfl
      · rw [if_neg ha]
        simp only [returns_draw_rejected i128 hl hu hlu k _ _ ha]
        rfl
    · congr 1
      refine Finset.sum_congr rfl fun v hv => ?_
      rw [Finset.mem_Ico] at hv
      exact ih v (hk v hv.1 hv.2)
  | coin k ih =>
    rw [weight]
    refine (chance_first i128 _ Q).trans (coin_average (M := 2 ^ 63) (by norm_num) (Nat.two_pow_pos 63) (card_filter_words C02_bit_uniform) fun w => ?_)
    simp only [returns_coin]
    rw [show engine.real {ω | ∃ o, Returns i128 (k (bitWord w)) ω o ∧ Q o} = weight Q (k (bitWord w)) from ih _ (h _)]
    cases bitWord w <;> rfl

open Classical in
theorem weight_ok (S : Set α) (r : Rand α) : weight (fun o => ∃ a ∈ S, o = .ok a) r = ((expect r fun a => if a ∈ S then 1 else 0 : ℚ) : ℝ) := by
  induction r with
  | done o =>
    unfold weight
    cases o with
    | error e =>
      rw [if_neg (by rintro ⟨a, _, h⟩; cases h)]
      simp [expect]
    | ok a =>
      rw [expect_done_ok]
      by_cases ha : a ∈ S
      · rw [if_pos ⟨a, ha, rfl⟩, if_pos ha, Rat.cast_one]
      · rw [if_neg (by rintro ⟨b, hb, h⟩; injection h with h; exact ha (h ▸ hb)), if_neg ha, Rat.cast_zero]
  | draw l u k ih => simp only [weight, expect, ih]; push_cast; rfl
  | coin k ih => simp only [weight, expect, ih]; push_cast; rfl

theorem weight_one {Q : Out α → Prop} {r : Rand α} (h : Sat r Q) : weight Q r = 1 := by
  induction r with
  | done o => unfold weight; exact if_pos h
  | draw l u k ih =>
    obtain ⟨_, _, hlu, hk⟩ := h
    rw [weight, Finset.sum_congr rfl (g := fun _ => (1 : ℝ)) (fun v hv => ih v (hk v (Finset.mem_Ico.1 hv).1 (Finset.mem_Ico.1 hv).2)), Finset.sum_const,
      Int.card_Ico, nsmul_eq_mul, mul_one]
    have e : (((u - l).toNat : ℕ) : ℝ) = ((u - l : ℤ) : ℝ) := by
      rw [← Int.cast_natCast, Int.toNat_of_nonneg (by omega)]
    rw [e, div_self]
    exact_mod_cast (by omega : u - l ≠ 0)
  | coin k ih => rw [weight, ih false (h false), ih true (h true)]; norm_num

open Classical in
/-- **C98.** On independent uniform words a random program returns a value in `S` with the probability `expect` assigns to `S`. -/
theorem C98_law (i128 : Bool) (r : Rand α) (h : Sat r fun _ => True) (S : Set α) :
    chance i128 r (fun o => ∃ a ∈ S, o = .ok a) = ((expect r fun a => if a ∈ S then 1 else 0 : ℚ) : ℝ) := by
  rw [chance_eq_weight i128 _ h, weight_ok]

/-- **C98, single values.** -/
theorem C98_value [DecidableEq α] (i128 : Bool) (r : Rand α) (h : Sat r fun _ => True) (a : α) :
    chance i128 r (fun o => o = .ok a) = (prob r a : ℝ) := by
  have e := C98_law i128 r h {a}
  have e1 : (fun o : Out α => ∃ b ∈ ({a} : Set α), o = .ok b) = fun o => o = .ok a := by funext o; simp
  rw [e1] at e
  rw [e]
  unfold prob
  congr 2
  funext b
  simp

/-- **C98, all outcomes.** What holds for all outcomes of a program holds for its executions with probability one; in particular they end, although
`Random::integer` draws again and again until a word is accepted. -/
theorem C98_almost_surely (i128 : Bool) (r : Rand α) (P : Out α → Prop) (h : Sat r P) : chance i128 r P = 1 := by
  rw [chance_eq_weight i128 P (Sat.mono h fun _ _ => trivial), weight_one h]

/-! ### Examples of what this means -/

/-- `Random::integer` on words: every value has the same probability. -/
theorem C98_integer (i128 : Bool) (l u v : Int) (hl : I64 l) (hu : I64 u) (h1 : l ≤ v) (h2 : v < u) :
    chance i128 (integer l u) (fun o => o = .ok v) = 1 / ((u - l : ℤ) : ℝ) := by
  have hs : Sat (integer l u) fun _ => True := by
    rw [integer_eq hl hu (by omega)]
    exact ⟨hl, hu, by omega, fun _ _ _ => trivial⟩
  rw [C98_value i128 _ hs]
  unfold prob
  rw [expect_integer hl hu (by omega), Finset.sum_ite_eq' , if_pos (Finset.mem_Ico.2 ⟨h1, h2⟩)]
  push_cast
  rfl

/-- `Random::shuffle` on words: every arrangement of different elements has the same probability. -/
theorem C98_shuffle [DecidableEq α] (i128 : Bool) (l l' : List α) (hlen : l.length < 2 ^ 63) (hnd : l.Nodup) (hp : l'.Perm l) :
    chance i128 (shuffle l) (fun o => o = .ok l') = 1 / (l.length.factorial : ℝ) := by
  rw [C98_value i128 _ (Sat.mono (C03_shuffle_perm l hlen) fun _ _ => trivial), C03_shuffle_uniform l l' hlen hnd hp]
  push_cast
  rfl

example : chance false (integer (-3) 4) (fun o => o = .ok 2) = 1 / 7 := by
  rw [C98_integer false (-3) 4 2 (by decide) (by decide) (by decide) (by decide)]
  norm_num

example : chance true (shuffle ['a', 'b', 'c']) (fun o => o = .ok ['c', 'a', 'b']) = 1 / 6 := by
  rw [C98_shuffle true ['a', 'b', 'c'] ['c', 'a', 'b'] (by decide) (by decide) (by decide)]
  norm_num [Nat.factorial]

-- a program that can throw: a coin decides, the exception has probability one half
example : chance true (bit >>= fun b => if b then pure (5 : Int) else Rand.lift (.error .throw)) (fun o => o = .ok 5) = 1 / 2 := by
  have hs : Sat (bit >>= fun b => if b then pure (5 : Int) else Rand.lift (.error .throw)) fun _ => True := by
    intro b
    cases b <;> trivial
  rw [C98_value true _ hs]
  norm_num [prob, bit, expect_bind, expect, Rand.lift]

/-! ### `Random::real` -/

theorem exponentLoop_nonzero {x : ℕ} (h : x ≠ 0) (ws : List ℕ) : exponentLoop (x :: ws) = some (trailingZeros x, ws) := by
  rw [exponentLoop, if_neg h]

/-- The loop of `real()` ends with probability one. -/
theorem words_exponent {N : ℕ} (hN : 1 < N) : (words N).real {ω | ∃ n, ∃ p, exponentLoop ((List.range n).map ω) = some p} = 1 := by
  have := uniformBelow_isProb (show 0 < N by omega)
  have : IsProbabilityMeasure (words N) := by unfold words; infer_instance
  have hm : MeasurableSet {ω : ℕ → ℕ | ∃ n, ∃ p, exponentLoop ((List.range n).map ω) = some p} :=
    measurable_prefix fun _ ws => ∃ p, exponentLoop ws = some p
  have h := words_first (show 0 < N by omega) hm
  set A := {ω : ℕ → ℕ | ∃ n, ∃ p, exponentLoop ((List.range n).map ω) = some p} with hA
  have e : ∀ w, (words N).real {ω | cons (w, ω) ∈ A} = if w = 0 then (words N).real A else 1 := by
    intro w
    by_cases hw : w = 0
    · rw [if_pos hw]
      congr 1
      ext ω
      constructor
      · rintro ⟨n, p, hp⟩
        cases n with
        | zero => simp [exponentLoop] at hp
        | succ n =>
          rw [map_range_cons, exponentLoop, if_pos hw, Option.map_eq_some_iff] at hp
          obtain ⟨q, hq, _⟩ := hp
          exact ⟨n, q, hq⟩
      · rintro ⟨n, p, hp⟩
        refine ⟨n + 1, (trailingZeros 0 + p.1, p.2), ?_⟩
        rw [map_range_cons, exponentLoop, if_pos hw, hp]
        rfl
    · rw [if_neg hw, ← probReal_univ (μ := words N)]
      congr 1
      refine Set.eq_univ_of_forall fun ω => ⟨1, (trailingZeros w, []), ?_⟩
      rw [map_range_cons]
      exact exponentLoop_nonzero hw _
  rw [Finset.sum_congr rfl fun w _ => e w] at h
  obtain ⟨M, rfl⟩ : ∃ M, N = M + 1 := ⟨N - 1, by omega⟩
  rw [Finset.sum_range_succ'] at h
  simp only [Nat.add_eq_zero_iff, one_ne_zero, and_false, if_false, if_true, Finset.sum_const, Finset.card_range, nsmul_eq_mul, mul_one] at h
  have hM : (M : ℝ) ≠ 0 := by exact_mod_cast (by omega : M ≠ 0)
  push_cast at h
  rw [eq_div_iff (by positivity)] at h
  refine mul_left_cancel₀ hM ?_
  linarith

open Classical in
theorem words_real {N : ℕ} (hN : 1 < N) (hN2 : N ≤ 2 ^ 64) {t : ℚ} (ht : 1 / 2 ^ 64 < t) :
    (words N).real {ω | ∃ n v rest, realWords ((List.range n).map ω) = some (v, rest) ∧ v < t} =
      ((((Finset.range N ×ˢ Finset.range N).filter fun p => Below t p.1 p.2).card : ℕ) : ℝ) / ((N : ℝ) * N) := by
  have := uniformBelow_isProb (show 0 < N by omega)
  have : IsProbabilityMeasure (words N) := by unfold words; infer_instance
  have hend := words_exponent hN
  have hm : MeasurableSet {ω : ℕ → ℕ | ∃ n v rest, realWords ((List.range n).map ω) = some (v, rest) ∧ v < t} :=
    measurable_prefix fun _ ws => ∃ v rest, realWords ws = some (v, rest) ∧ v < t
  have h := words_first (show 0 < N by omega) hm
  set A := {ω : ℕ → ℕ | ∃ n v rest, realWords ((List.range n).map ω) = some (v, rest) ∧ v < t} with hA
  have e : ∀ w ∈ Finset.range N, (words N).real {ω | cons (w, ω) ∈ A} = (∑ x ∈ Finset.range N, if Below t w x then (1 : ℝ) else 0) / N := by
    intro w hw
    have hm2 : MeasurableSet {ω | cons (w, ω) ∈ A} := measurable_cons.comp measurable_prodMk_left hm
    rw [words_first (show 0 < N by omega) hm2]
    refine congrArg (· / (N : ℝ)) (Finset.sum_congr rfl fun x _ => ?_)
    have mem : ∀ ω, cons (w, cons (x, ω)) ∈ A ↔ ∃ n v rest, realWords (w :: x :: (List.range n).map ω) = some (v, rest) ∧ v < t := by
      intro ω
      constructor
      · rintro ⟨n, v, rest, hr, hv⟩
        rcases n with _ | _ | n
        · simp [realWords] at hr
        · rw [map_range_cons] at hr
          simp [realWords, exponentLoop] at hr
        · rw [map_range_cons, map_range_cons] at hr
          exact ⟨n, v, rest, hr, hv⟩
      · rintro ⟨n, v, rest, hr, hv⟩
        refine ⟨n + 2, v, rest, ?_, hv⟩
        rw [map_range_cons, map_range_cons]
        exact hr
    by_cases hx : x = 0
    · subst hx
      have hb : Below t w 0 := below_zero (lt_of_lt_of_le (Finset.mem_range.1 hw) hN2) ht
      rw [if_pos hb, ← hend]
      congr 1
      ext ω
      refine (mem ω).trans ⟨?_, ?_⟩
      · rintro ⟨n, v, rest, hr, _⟩
        rw [realWords, Option.map_eq_some_iff] at hr
        obtain ⟨p, hp, _⟩ := hr
        rw [exponentLoop, if_pos rfl, Option.map_eq_some_iff] at hp
        obtain ⟨q, hq, _⟩ := hp
        exact ⟨n, q, hq⟩
      · rintro ⟨n, p, hp⟩
        obtain ⟨v, rest, hr⟩ : ∃ v rest, realWords (w :: 0 :: (List.range n).map ω) = some (v, rest) := by
          rw [realWords, exponentLoop, if_pos rfl, hp]
          exact ⟨_, _, rfl⟩
        exact ⟨n, v, rest, hr, hb _ v rest hr⟩
    · have hr : ∀ ws, realWords (w :: x :: ws) = some ((toDouble (w ||| 2 ^ 63) : ℚ) / 2 ^ (64 + trailingZeros x), ws) := by
        intro ws
        rw [realWords, exponentLoop_nonzero hx]
        rfl
      by_cases hb : Below t w x
      · rw [if_pos hb, ← probReal_univ (μ := words N)]
        congr 1
        refine Set.eq_univ_of_forall fun ω => (mem ω).2 ⟨0, _, [], hr [], hb [] _ _ (hr [])⟩
      · rw [if_neg hb, ← measureReal_empty (μ := words N)]
        congr 1
        refine Set.eq_empty_of_forall_notMem fun ω hω => hb fun ws v rest hv => ?_
        obtain ⟨n, v', rest', hr', hlt⟩ := (mem ω).1 hω
        rw [hr] at hr' hv
        injection hr' with hr'
        injection hr' with e1 _
        injection hv with hv
        injection hv with e2 _
        rw [← e2, e1]
        exact hlt
  rw [Finset.sum_congr rfl e, ← Finset.sum_div, div_div] at h
  rw [h, Finset.card_filter, Finset.sum_product]
  push_cast
  rfl

theorem real_cast {c : ℕ} {t : ℚ} {p N : ℝ} (hN : N * N = 2 ^ 128) (h : |(c : ℚ) / 2 ^ 128 - t| ≤ t / 2 ^ 52) (e : p = c / (N * N)) :
    |p - (t : ℝ)| ≤ (t : ℝ) / 2 ^ 52 := by
  rw [e, hN]
  have h' := (Rat.cast_le (K := ℝ)).2 h
  push_cast at h'
  exact h'

/-- **C98 for `Random::real`**: on independent uniform words `real()` is less than `t` with probability `t`, up to a relative error of `2 ^ -52`. -/
theorem C98_real (t : ℚ) (h1 : 1 / 2 ^ 64 < t) (h2 : t ≤ 1) :
    |engine.real {ω | ∃ n v rest, realWords ((List.range n).map ω) = some (v, rest) ∧ v < t} - (t : ℝ)| ≤ (t : ℝ) / 2 ^ 52 :=
  real_cast (by push_cast; norm_num) (C85_uniform t h1 h2) (words_real (N := 2 ^ 64) (Nat.one_lt_two_pow (by norm_num)) le_rfl h1)

theorem words_real_ends {N : ℕ} (hN : 1 < N) : (words N).real {ω | ∃ n v rest, realWords ((List.range n).map ω) = some (v, rest)} = 1 := by
  have hm : MeasurableSet {ω : ℕ → ℕ | ∃ n v rest, realWords ((List.range n).map ω) = some (v, rest)} :=
    measurable_prefix fun _ ws => ∃ v rest, realWords ws = some (v, rest)
  have hN0 : (N : ℝ) ≠ 0 := by exact_mod_cast (by omega : N ≠ 0)
  rw [words_first (show 0 < N by omega) hm, Finset.sum_congr rfl (g := fun _ => (1 : ℝ)), Finset.sum_const, Finset.card_range, nsmul_eq_mul, mul_one,
    div_self hN0]
  intro w _
  rw [← words_exponent hN]
  congr 1
  ext ω
  constructor
  · rintro ⟨n, v, rest, hr⟩
    cases n with
    | zero => simp [realWords] at hr
    | succ n =>
      rw [map_range_cons, realWords, Option.map_eq_some_iff] at hr
      obtain ⟨p, hp, _⟩ := hr
      exact ⟨n, p, hp⟩
  · rintro ⟨n, p, hp⟩
    refine ⟨n + 1, (toDouble (w ||| 2 ^ 63) : ℚ) / 2 ^ (64 + p.1), p.2, ?_⟩
    rw [map_range_cons, realWords, hp]
    rfl

/-- **C98, `Random::real` ends**, with probability one. -/
theorem C98_real_ends : engine.real {ω | ∃ n v rest, realWords ((List.range n).map ω) = some (v, rest)} = 1 :=
  words_real_ends (Nat.one_lt_two_pow (by norm_num))

end ICPC.Props
