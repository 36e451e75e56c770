import Verif.Lemmas.RandInt

/-!
# C01, C02: `Random::integer` on engine words
-/

namespace ICPC.Props
open ICPC ICPC.Spec

/-- C01: `Random::integer(lower, upper)` returns a value of `[lower, upper)` for all 64-bit bounds with
`lower < upper` and every sequence of engine words (as long as the engine delivers enough words), with and
without 128-bit arithmetic. -/
theorem C01_in_range (i128 : Bool) (lower upper : Int) (hl : I64 lower) (hu : I64 upper) (h : lower < upper)
    (words : List Nat) (hw : ∀ w ∈ words, w < 2 ^ 64) (o : Out Int) (rest : List Nat)
    (hrun : integerWords i128 lower upper words = some (o, rest)) :
    ∃ v, o = .ok v ∧ lower ≤ v ∧ v < upper := by
  rcases integerWords_spec i128 hl hu h words with ⟨h1, _⟩ | ⟨pre, y, rest', h1, e, _, _⟩
  · rw [hrun] at h1; cases h1
  rw [hrun] at h1
  cases h1
  exact ⟨_, rfl, integerValue_range i128 hl hu h (hw y (by rw [e]; simp))⟩

/-- C01: it throws exactly for empty ranges. -/
theorem C01_throws_iff (i128 : Bool) (lower upper : Int) (hl : I64 lower) (hu : I64 upper)
    (words : List Nat) (o : Out Int) (rest : List Nat)
    (hrun : integerWords i128 lower upper words = some (o, rest)) :
    o = .error .throw ↔ upper ≤ lower := by
  by_cases h : lower < upper
  · rcases integerWords_spec i128 hl hu h words with ⟨h1, _⟩ | ⟨pre, y, rest', h1, e, _, _⟩
    · rw [hrun] at h1; cases h1
    rw [hrun] at h1
    cases h1
    constructor
    · intro h; cases h
    · intro h; omega
  · unfold integerWords at hrun
    rw [if_neg h] at hrun
    simp at hrun
    simp [← hrun.1]; omega

/-- C01: if the engine's words contain at least one that is not rejected, a value is returned; a rejected
word only happens when the width does not divide 2^64. -/
theorem C01_returns (i128 : Bool) (lower upper : Int) (hl : I64 lower) (hu : I64 upper) (h : lower < upper)
    (words : List Nat) (hacc : ∃ w ∈ words, 2 ^ 64 % (upper - lower) ≤ (w * (upper - lower)) % 2 ^ 64) :
    ∃ v rest, integerWords i128 lower upper words = some (.ok v, rest) := by
  rcases integerWords_spec i128 hl hu h words with ⟨_, h1⟩ | ⟨pre, y, rest, h1, _⟩
  · obtain ⟨w, hw, hw2⟩ := hacc
    exfalso
    apply h1 w hw
    unfold Accepted
    have e : ((upper - lower).toNat : Int) = upper - lower := by omega
    generalize (upper - lower).toNat = s at e
    rw [← e] at hw2
    have hw3 : 2 ^ 64 % s ≤ w * s % 2 ^ 64 := by exact_mod_cast hw2
    omega
  · exact ⟨_, _, h1⟩

/-- C02: every value of the range is the result of exactly `floor(2^64 / (upper - lower))` of the engine
words that are not rejected, for every range with 64-bit bounds: `Random::integer` is exactly uniform. -/
theorem C02_uniform (i128 : Bool) (lower upper : Int) (hl : I64 lower) (hu : I64 upper) (v : Int)
    (h1 : lower ≤ v) (h2 : v < upper) :
    {w : Nat | w < 2 ^ 64 ∧ integerWords i128 lower upper [w] = some (.ok v, [])}.ncard =
      2 ^ 64 / (upper - lower).toNat := by
  have h : lower < upper := by omega
  rw [← card_window (W := 2 ^ 64) (s := (upper - lower).toNat) (v := (v - lower).toNat) (by omega) (by omega)]
  have key : ∀ w : Nat, w < 2 ^ 64 → (integerWords i128 lower upper [w] = some (.ok v, []) ↔
      ¬ w * (upper - lower).toNat % 2 ^ 64 < 2 ^ 64 % (upper - lower).toNat ∧
        w * (upper - lower).toNat / 2 ^ 64 = (v - lower).toNat) := by
    intro w hw
    have hval := integerValue_eq i128 hl hu h hw
    rcases integerWords_single i128 hl hu h w with ⟨hr, ha⟩ | ⟨hr, ha⟩
    · rw [hr]
      unfold Accepted at ha
      constructor
      · intro h; cases h
      · intro h; exact absurd h.1 ha
    · rw [hr, hval]
      unfold Accepted at ha
      simp only [Option.some.injEq, Prod.mk.injEq, Except.ok.injEq, and_true]
      generalize w * (upper - lower).toNat / 2 ^ 64 = q
      constructor
      · intro h; exact ⟨ha, by omega⟩
      · rintro ⟨_, h⟩; omega
  have : {w : Nat | w < 2 ^ 64 ∧ integerWords i128 lower upper [w] = some (.ok v, [])} =
     {x : Nat | x < 2 ^ 64 ∧ ¬ x * (upper - lower).toNat % 2 ^ 64 < 2 ^ 64 % (upper - lower).toNat ∧
        x * (upper - lower).toNat / 2 ^ 64 = (v - lower).toNat} := by
    ext w
    simp only [Set.mem_ofPred_eq]
    exact and_congr_right (key w)
  rw [this]

/-- C02: a rejected word is skipped without influence on the result, which is the value of the first word
that is not rejected. -/
theorem C02_rejected_words_are_skipped (i128 : Bool) (lower upper : Int) (hl : I64 lower) (hu : I64 upper)
    (h : lower < upper) (w : Nat) (ws : List Nat) (hrej : integerWords i128 lower upper [w] = none) :
    integerWords i128 lower upper (w :: ws) = integerWords i128 lower upper ws := by
  have hs0 : 0 < (upper - lower).toNat := by omega
  have hs : (upper - lower).toNat < 2 ^ 64 := by have := hl.1; have := hu.2; omega
  have hw := rangeWidth_eq hl hu h
  have hrej' : ¬ Accepted lower upper w := by
    rcases integerWords_single i128 hl hu h w with ⟨_, ha⟩ | ⟨hr, _⟩
    · exact ha
    · rw [hrej] at hr; cases hr
  have hacc := acceptWord_skip (ws := ws) hs0 hs (not_not.1 hrej')
  unfold integerWords
  rw [if_pos h, if_pos h, hw, hacc]

/-- C02: fewer than half of the engine words are rejected. -/
theorem C02_few_rejections (i128 : Bool) (lower upper : Int) (hl : I64 lower) (hu : I64 upper) (h : lower < upper) :
    2 * {w : Nat | w < 2 ^ 64 ∧ integerWords i128 lower upper [w] = none}.ncard < 2 ^ 64 := by
  have hs0 : 0 < (upper - lower).toNat := by omega
  have hs : (upper - lower).toNat < 2 ^ 64 := by have := hl.1; have := hu.2; omega
  have e : {w : Nat | w < 2 ^ 64 ∧ integerWords i128 lower upper [w] = none} =
      {x : Nat | x < 2 ^ 64 ∧ x * (upper - lower).toNat % 2 ^ 64 < 2 ^ 64 % (upper - lower).toNat} := by
    ext w
    simp only [Set.mem_ofPred_eq]
    refine and_congr_right fun hw => ?_
    rcases integerWords_single i128 hl hu h w with ⟨hr, ha⟩ | ⟨hr, ha⟩
    · unfold Accepted at ha
      rw [hr]
      exact ⟨fun _ => not_not.1 ha, fun _ => rfl⟩
    · unfold Accepted at ha
      rw [hr]
      constructor
      · intro h; cases h
      · intro h; exact absurd h ha
  rw [e, card_rejected hs0 (by omega)]
  generalize (upper - lower).toNat = s at *
  by_cases hbig : 2 * s ≤ 2 ^ 64
  · have := Nat.mod_lt (2 ^ 64) hs0; omega
  · have : 2 ^ 64 % s = 2 ^ 64 - s := by
      rw [Nat.mod_eq_sub_mod (by omega), Nat.mod_eq_of_lt (by omega)]
    omega

/-- Every execution on engine words is one of the executions that `Sat` quantifies over: a property shown
for all draws holds for whatever the program does on any sequence of 64-bit engine words. -/
theorem C01_executions_are_covered {α : Type} (i128 : Bool) {r : Rand α} {P : Out α → Prop} (h : Sat r P) :
    ∀ (words rest : List Nat) (o : Out α), (∀ w ∈ words, w < 2 ^ 64) → r.run i128 words = some (o, rest) → P o := by
  induction r with
  | done o =>
    intro words rest o' _ hr
    rw [Rand.run] at hr
    cases hr
    exact h
  | draw l u k ih =>
    intro words rest o hw hr
    rw [Rand.run] at hr
    obtain ⟨hl, hu, hlu, hk⟩ := h
    rcases integerWords_spec i128 hl hu hlu words with ⟨h1, _⟩ | ⟨pre, y, rest', h1, e, _, _⟩
    · rw [h1] at hr; cases hr
    · rw [h1] at hr
      have hy : y < 2 ^ 64 := hw y (by rw [e]; simp)
      have hrange := integerValue_range i128 hl hu hlu hy
      exact ih _ (hk _ hrange.1 hrange.2) rest' rest o (fun w hwr => hw w (by rw [e]; simp [hwr])) hr
  | coin k ih =>
    intro words rest o hw hr
    cases words with
    | nil => rw [Rand.run] at hr; cases hr
    | cons w ws =>
      rw [Rand.run] at hr
      exact ih _ (h _) ws rest o (fun w hwr => hw w (by simp [hwr])) hr

/-- C02 for `Random::bit`: exactly half of the engine words give `true`. -/
theorem C02_bit_uniform : {w : Nat | w < 2 ^ 64 ∧ bitWord w = true}.ncard = 2 ^ 63 := by
  have h := card_thueMorse (2 ^ 63)
  rw [show 2 * 2 ^ 63 = 2 ^ 64 by norm_num] at h
  rw [← h]
  congr 1
  ext w
  simp only [Set.mem_ofPred_eq]
  refine and_congr_right fun hw => ?_
  unfold bitWord
  rw [Nat.and_one_is_mod, decide_eq_true_eq, popcount64_parity w hw]

example : bitWord 7 = true ∧ bitWord (2 ^ 63 + 1) = false := by decide +kernel

example : integerWords true 3 10 [0, 2 ^ 63, 5] = some (.ok 6, [5]) := by decide +kernel

example : integerWords false (-(2 ^ 63)) (2 ^ 63 - 1) [2 ^ 64 - 1] = some (.ok (2 ^ 63 - 2), []) := by decide +kernel

example : integerWords true 5 5 [1] = some (.error .throw, [1]) := by decide +kernel

end ICPC.Props
