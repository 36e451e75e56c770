import Verif.Lemmas.RandomGraph
import Mathlib.Algebra.Ring.Int.Parity
import Mathlib.Tactic.LinearCombination

/-!
# The edges of the indices
-/

namespace ICPC.Gen

open ICPC Spec.EdgeMap

variable {dir : Bool} {n m : Nat} {x y : Int}

theorem quot_nat (hn : 0 < n) (hx0 : 0 ≤ x) (hx : I64 x) : quot x n = .ok (x / n) := by
  have h1 : 0 ≤ x / n := Int.ediv_nonneg hx0 (by omega)
  have h2 : x / n ≤ x := Int.ediv_le_self _ hx0
  unfold quot
  rw [if_neg (by omega), Int.tdiv_eq_ediv_of_nonneg hx0, chk_ok]
  exact i64_of_le i64_zero hx h1 h2

theorem rmd_nat (hn : 0 < n) (hx0 : 0 ≤ x) : rmd x n = .ok (x % n) := by
  unfold rmd
  rw [if_neg (by omega), Int.tmod_eq_emod_of_nonneg hx0]

/-- Quotient and remainder. -/
theorem divmod (hn : 0 < n) (hx0 : 0 ≤ x) : x = n * (x / n) + x % n ∧ 0 ≤ x / n ∧ 0 ≤ x % n ∧ x % n < n := by
  refine ⟨(Int.mul_ediv_add_emod x n).symm, Int.ediv_nonneg hx0 (by omega), Int.emod_nonneg _ (by omega), Int.emod_lt_of_pos _ (by omega)⟩

theorem divmod_unique {q r : Int} (hr0 : 0 ≤ r) (hr : r < n) (h : x = n * q + r) : x / n = q ∧ x % n = r := by
  have hn : (0 : Int) < n := by omega
  subst h
  constructor
  · rw [add_comm, Int.add_mul_ediv_left _ _ (by omega), Int.ediv_eq_zero_of_lt hr0 hr, zero_add]
  · rw [add_comm, Int.add_mul_emod_self_left, Int.emod_eq_of_lt hr0 hr]

/-! ## `randomGraph` -/

/-- The pair of an index. -/
def gp (dir : Bool) (n x : Int) : Int × Int :=
  if dir then (if x / n = x % n then (n - 1, x % n) else (x / n, x % n))
  else if x % n ≤ x / n then (n - 2 - x / n, n - 1 - x % n) else (x / n, x % n)

/-- The number of indices. -/
def gl (dir : Bool) (n : Nat) : Int := if dir then n * (n - 1) else (n * (n - 1) : Int) / 2

theorem two_gl : 2 * gl false n = n * (n - 1) := by
  unfold gl
  rw [if_neg (by simp)]
  exact Int.mul_ediv_cancel' (Int.even_mul_pred_self n).two_dvd

theorem gl_nonneg : 0 ≤ gl dir n := by
  have h : (0 : Int) ≤ n * (n - 1) := by
    rcases Nat.eq_zero_or_pos n with h | h
    · subst h; simp
    · exact mul_nonneg (by omega) (by omega)
  cases dir with
  | true => exact h
  | false => have := two_gl (n := n); omega

/-- In both cases the index is below `n * (n - 1)`. -/
theorem gl_le : gl dir n ≤ n * (n - 1) := by
  cases dir with
  | true => exact le_refl _
  | false => have := two_gl (n := n); have := gl_nonneg (dir := false) (n := n); omega

theorem graphLim_eq (hn : I64 n) (h : I64 (n * (n - 1) : Int)) : graphLim dir (n : Int) = .ok (gl dir n) := by
  unfold graphLim
  have h1 : I64 ((n : Int) - 1) := by
    unfold I64 at *; omega
  rw [chk_ok h1, ok_bind, chk_ok h, ok_bind]
  cases dir with
  | true => rfl
  | false =>
    show Except.ok _ = _
    unfold gl
    rw [if_neg (by simp), Int.tdiv_eq_ediv_of_nonneg (le_trans gl_nonneg (gl_le (dir := true)))]

theorem gl_pos (hx0 : 0 ≤ x) (hx : x < gl dir n) : 2 ≤ n ∧ x / n ≤ n - 2 := by
  have h1 : x < n * (n - 1) := lt_of_lt_of_le hx gl_le
  have hn : 2 ≤ n := by
    by_contra hc
    have : n = 0 ∨ n = 1 := by omega
    rcases this with h | h <;> subst h <;> simp at h1 <;> omega
  refine ⟨hn, ?_⟩
  have : x / n < n - 1 := Int.ediv_lt_of_lt_mul (by omega) (by rw [mul_comm]; exact h1)
  omega

theorem graphPair_eq (hn : I64 n) (hl : I64 (n * (n - 1) : Int)) (hx0 : 0 ≤ x) (hx : x < gl dir n) : graphPair dir n x = .ok (gp dir n x) := by
  obtain ⟨h2, hq⟩ := gl_pos hx0 hx
  have hxl : I64 x := i64_of_le i64_zero hl hx0 (le_of_lt (lt_of_lt_of_le hx gl_le))
  obtain ⟨-, d2, d3, d4⟩ := divmod (n := n) (x := x) (by omega) hx0
  unfold graphPair gp
  rw [quot_nat (by omega) hx0 hxl, ok_bind, rmd_nat (by omega) hx0, ok_bind]
  have hn' : ∀ z : Int, 0 ≤ z → z ≤ n → I64 z := fun z => i64_of_le i64_zero hn
  cases dir with
  | true =>
    simp only [if_true]
    by_cases h : x / (n : Int) = x % n
    · rw [if_pos h, if_pos h, chk_ok (hn' _ (by omega) (by omega))]
      rfl
    · rw [if_neg h, if_neg h]
      rfl
  | false =>
    simp only [Bool.false_eq_true, if_false]
    by_cases h : x % (n : Int) ≤ x / n
    · rw [if_pos h, if_pos h, chk_ok (hn' _ (by omega) (by omega)), ok_bind, chk_ok (hn' _ (by omega) (by omega))]
      rfl
    · rw [if_neg h, if_neg h]
      rfl

theorem gp_mem (hx0 : 0 ≤ x) (hx : x < gl dir n) : gp dir n x ∈ allPairs dir n := by
  obtain ⟨h2, hq⟩ := gl_pos hx0 hx
  obtain ⟨-, d2, d3, d4⟩ := divmod (n := n) (x := x) (by omega) hx0
  rw [mem_allPairs]
  unfold gp In
  cases dir with
  | true =>
    simp only [if_true, Bool.true_eq_false, false_implies, and_true]
    split <;> simp only <;> omega
  | false =>
    simp only [Bool.false_eq_true, if_false, true_implies]
    split <;> simp only <;> omega

theorem gp_inj (hx0 : 0 ≤ x) (hx : x < gl dir n) (hy0 : 0 ≤ y) (hy : y < gl dir n) (h : gp dir n x = gp dir n y) : x = y := by
  obtain ⟨h2, hq⟩ := gl_pos hx0 hx
  obtain ⟨-, hq'⟩ := gl_pos hy0 hy
  obtain ⟨d1, d2, d3, d4⟩ := divmod (n := n) (x := x) (by omega) hx0
  obtain ⟨e1, e2, e3, e4⟩ := divmod (n := n) (x := y) (by omega) hy0
  have same : x / n = y / n → x % n = y % n → x = y := by
    intro h1 h2
    rw [d1, e1, h1, h2]
  unfold gp at h
  cases dir with
  | true =>
    simp only [if_true] at h
    split at h <;> split at h <;> rw [Prod.mk.injEq] at h
    · exact same (by omega) (by omega)
    · omega
    · omega
    · exact same (by omega) (by omega)
  | false =>
    simp only [Bool.false_eq_true, if_false] at h
    have hg := two_gl (n := n)
    -- two indices whose pairs are mirrored have too large a sum
    have mirror : ∀ {x y : Int}, x = n * (x / n) + x % n → y = n * (y / n) + y % n → x < gl false n → y < gl false n →
        x / n = n - 2 - y / n → x % n = n - 1 - y % n → False := by
      intro x y d1 e1 hx hy h1 h2
      rw [h1, h2] at d1
      have : x + y = n * (n - 2) + (n - 1) := by linear_combination d1 + e1
      have : (n : Int) * (n - 2) + (n - 1) = n * (n - 1) - 1 := by ring
      omega
    split at h <;> split at h <;> rw [Prod.mk.injEq] at h
    · exact same (by omega) (by omega)
    · exact (mirror e1 d1 hy hx h.1.symm h.2.symm).elim
    · exact (mirror d1 e1 hx hy h.1 h.2).elim
    · exact same (by omega) (by omega)

theorem gp_surj {p : Int × Int} (hp : p ∈ allPairs dir n) : ∃ x, 0 ≤ x ∧ x < gl dir n ∧ gp dir n x = p := by
  obtain ⟨i, j⟩ := p
  rw [mem_allPairs] at hp
  unfold In at hp
  simp only at hp
  obtain ⟨hi, hj, hne, hlt⟩ := hp
  cases dir with
  | true =>
    by_cases hi' : i = n - 1
    · obtain ⟨q1, q2⟩ := divmod_unique (n := n) (x := n * j + j) (q := j) (r := j) (by omega) (by omega) rfl
      refine ⟨n * j + j, add_nonneg (mul_nonneg (by omega) (by omega)) (by omega), ?_, ?_⟩
      · have : (n : Int) * j ≤ n * (n - 2) := mul_le_mul_of_nonneg_left (by omega) (by omega)
        have : (n : Int) * (n - 1) = n * (n - 2) + n := by ring
        show _ < (n : Int) * (n - 1)
        omega
      · unfold gp
        rw [if_pos rfl, q1, q2, if_pos rfl, hi']
    · obtain ⟨q1, q2⟩ := divmod_unique (n := n) (x := n * i + j) (q := i) (r := j) (by omega) (by omega) rfl
      refine ⟨n * i + j, add_nonneg (mul_nonneg (by omega) (by omega)) (by omega), ?_, ?_⟩
      · have : (n : Int) * i ≤ n * (n - 2) := mul_le_mul_of_nonneg_left (by omega) (by omega)
        have : (n : Int) * (n - 1) = n * (n - 2) + n := by ring
        show _ < (n : Int) * (n - 1)
        omega
      · unfold gp
        rw [if_pos rfl, q1, q2, if_neg hne]
  | false =>
    have hlt := hlt rfl
    have hg := two_gl (n := n)
    by_cases hc : (n : Int) * i + j < gl false n
    · obtain ⟨q1, q2⟩ := divmod_unique (n := n) (x := n * i + j) (q := i) (r := j) (by omega) (by omega) rfl
      refine ⟨n * i + j, add_nonneg (mul_nonneg (by omega) (by omega)) (by omega), hc, ?_⟩
      unfold gp
      rw [if_neg (by simp), q1, q2, if_neg (by omega)]
    · obtain ⟨q1, q2⟩ := divmod_unique (n := n) (x := n * (n - 2 - i) + (n - 1 - j)) (q := n - 2 - i) (r := n - 1 - j) (by omega) (by omega) rfl
      refine ⟨n * (n - 2 - i) + (n - 1 - j), add_nonneg (mul_nonneg (by omega) (by omega)) (by omega), ?_, ?_⟩
      · have : (n : Int) * (n - 2 - i) + (n - 1 - j) = n * (n - 1) - 1 - (n * i + j) := by ring
        omega
      · unfold gp
        rw [if_neg (by simp), q1, q2, if_pos (by omega), Prod.mk.injEq]
        exact ⟨by omega, by omega⟩

/-! ## `randomBipartite` -/

/-- The pair of an index. -/
def bp (dir : Bool) (n m x : Int) : Int × Int :=
  if dir ∧ x ≥ n * m then (x / n + n - m, x % n) else (x % n, x / n + n)

/-- The number of indices. -/
def bl (dir : Bool) (n m : Nat) : Int := if dir then n * m * 2 else n * m

theorem bipLim_eq (h : I64 (bl dir n m)) : bipLim dir (n : Int) m = .ok (bl dir n m) := by
  unfold bipLim
  have h0 : (0 : Int) ≤ n * m := by positivity
  cases dir with
  | true =>
    have h : I64 ((n * m * 2 : Int)) := h
    rw [chk_ok (i64_of_le i64_zero h h0 (by omega)), ok_bind, if_pos rfl, chk_ok h]
    rfl
  | false =>
    have h : I64 ((n * m : Int)) := h
    rw [chk_ok h, ok_bind]
    rfl

theorem bl_pos (hx0 : 0 ≤ x) (hx : x < bl dir n m) : 0 < n ∧ (x < n * m → x / n < m) ∧ (x ≥ n * m → m ≤ x / n) ∧
    (dir = true → x / n < 2 * m) ∧ (dir = false → x < n * m) := by
  have hn : 0 < n := by
    rcases Nat.eq_zero_or_pos n with h | h
    · subst h
      unfold bl at hx
      split at hx <;> simp at hx <;> omega
    · exact h
  refine ⟨hn, ?_, ?_, ?_, ?_⟩
  · intro h
    exact Int.ediv_lt_of_lt_mul (by omega) (by rw [mul_comm]; exact h)
  · intro h
    exact (Int.le_ediv_iff_mul_le (by omega)).2 (by rw [mul_comm]; exact h)
  · rintro rfl
    refine Int.ediv_lt_of_lt_mul (by omega) ?_
    unfold bl at hx
    rw [if_pos rfl] at hx
    have : (2 * m * n : Int) = n * m * 2 := by ring
    omega
  · rintro rfl
    exact hx

theorem bipPair_eq (hn : I64 (n + m : Int)) (hl : I64 (bl dir n m)) (hx0 : 0 ≤ x) (hx : x < bl dir n m) :
    bipPair dir n m x = .ok (bp dir n m x) := by
  obtain ⟨h1, h2, h3, h4, h5⟩ := bl_pos hx0 hx
  have hxl : I64 x := i64_of_le i64_zero hl hx0 hx.le
  obtain ⟨d1, d2, d3, d4⟩ := divmod (n := n) (x := x) (by omega) hx0
  have h0 : (0 : Int) ≤ n * m := by positivity
  have hle : (n * m : Int) ≤ bl dir n m := by unfold bl; split <;> omega
  have hjI : I64 (x / n + n) := by
    by_cases hc : x < n * m
    · have := h2 hc
      exact i64_of_le i64_zero hn (by omega) (by omega)
    · -- the quotient is at most `x / 1`, and `n ≤ n * m`
      cases dir with
      | false => exact absurd (h5 rfl) hc
      | true =>
        have hlt := h4 rfl
        have hm : 1 ≤ m := by omega
        by_cases hn1 : n = 1
        · subst hn1
          have hx' : x < (1 : Nat) * m * 2 := hx
          have hl' : I64 ((1 : Nat) * m * 2 : Int) := hl
          refine i64_of_le i64_zero hl' (by omega) ?_
          have : x / (1 : Nat) = x := by simp
          push_cast at *
          omega
        · by_cases hm1 : m = 1
          · subst hm1
            refine i64_of_le i64_zero hn (by omega) (by push_cast at *; omega)
          · have : (2 : Int) * m - 1 + n ≤ n * m * 2 := by
              have : (0 : Int) ≤ (n - 2) * (m - 1) := mul_nonneg (by omega) (by omega)
              have e : (n * m * 2 : Int) = 2 * ((n - 2) * (m - 1)) + 2 * n + 4 * m - 4 := by ring
              omega
            refine i64_of_le i64_zero hl (by omega) ?_
            show _ ≤ (n * m * 2 : Int)
            omega
  unfold bipPair bp
  rw [rmd_nat h1 hx0, ok_bind, quot_nat h1 hx0 hxl, ok_bind, chk_ok hjI, ok_bind, chk_ok (i64_of_le i64_zero hl h0 hle), ok_bind]
  by_cases hc : dir = true ∧ x ≥ (n * m : Int)
  · rw [if_pos hc, if_pos hc, chk_ok]
    · rfl
    · have := h3 hc.2
      exact i64_of_le i64_zero hjI (by omega) (by omega)
  · rw [if_neg hc, if_neg hc]
    rfl

theorem mem_crossPairs {p : Int × Int} : p ∈ crossPairs dir n m ↔
    (0 ≤ p.1 ∧ p.1 < n ∧ n ≤ p.2 ∧ p.2 < n + m) ∨ (dir = true ∧ 0 ≤ p.2 ∧ p.2 < n ∧ n ≤ p.1 ∧ p.1 < n + m) := by
  unfold crossPairs
  rw [Finset.mem_filter, mem_allPairs]
  unfold In
  cases dir <;> simp <;> omega

theorem crossPairs_sub : crossPairs dir n m ⊆ allPairs dir (n + m) := Finset.filter_subset _ _

theorem bp_mem (hx0 : 0 ≤ x) (hx : x < bl dir n m) : bp dir n m x ∈ crossPairs dir n m := by
  obtain ⟨h1, h2, h3, h4, h5⟩ := bl_pos hx0 hx
  obtain ⟨d1, d2, d3, d4⟩ := divmod (n := n) (x := x) (by omega) hx0
  rw [mem_crossPairs]
  unfold bp
  by_cases hc : dir = true ∧ x ≥ (n * m : Int)
  · rw [if_pos hc]
    have := h3 hc.2
    have := h4 hc.1
    exact Or.inr ⟨hc.1, by dsimp only; omega, by dsimp only; omega, by dsimp only; omega, by dsimp only; omega⟩
  · rw [if_neg hc]
    have hlt : x < n * m := by
      cases dir with
      | false => exact h5 rfl
      | true => by_contra hh; exact hc ⟨rfl, by omega⟩
    have := h2 hlt
    exact Or.inl ⟨by dsimp only; omega, by dsimp only; omega, by dsimp only; omega, by dsimp only; omega⟩

theorem bp_inj (hx0 : 0 ≤ x) (hx : x < bl dir n m) (hy0 : 0 ≤ y) (hy : y < bl dir n m) (h : bp dir n m x = bp dir n m y) : x = y := by
  obtain ⟨h1, h2, h3, h4, h5⟩ := bl_pos hx0 hx
  obtain ⟨-, h2', h3', h4', h5'⟩ := bl_pos hy0 hy
  obtain ⟨d1, d2, d3, d4⟩ := divmod (n := n) (x := x) (by omega) hx0
  obtain ⟨e1, e2, e3, e4⟩ := divmod (n := n) (x := y) (by omega) hy0
  have same : x / n = y / n → x % n = y % n → x = y := by
    intro h1 h2
    rw [d1, e1, h1, h2]
  unfold bp at h
  by_cases hc : dir = true ∧ x ≥ (n * m : Int) <;> by_cases hc' : dir = true ∧ y ≥ (n * m : Int)
  · rw [if_pos hc, if_pos hc', Prod.mk.injEq] at h
    exact same (by omega) (by omega)
  · rw [if_pos hc, if_neg hc', Prod.mk.injEq] at h
    have := h3 hc.2
    omega
  · rw [if_neg hc, if_pos hc', Prod.mk.injEq] at h
    have := h3' hc'.2
    omega
  · rw [if_neg hc, if_neg hc', Prod.mk.injEq] at h
    exact same (by omega) (by omega)

theorem bp_surj {p : Int × Int} (hp : p ∈ crossPairs dir n m) : ∃ x, 0 ≤ x ∧ x < bl dir n m ∧ bp dir n m x = p := by
  obtain ⟨i, j⟩ := p
  rw [mem_crossPairs] at hp
  simp only at hp
  rcases hp with ⟨h1, h2, h3, h4⟩ | ⟨rfl, h1, h2, h3, h4⟩
  · obtain ⟨q1, q2⟩ := divmod_unique (n := n) (x := n * (j - n) + i) (q := j - n) (r := i) (by omega) (by omega) rfl
    have hlt : (n : Int) * (j - n) + i < n * m := by
      have : (n : Int) * (j - n) ≤ n * (m - 1) := mul_le_mul_of_nonneg_left (by omega) (by omega)
      have : (n : Int) * (m - 1) = n * m - n := by ring
      omega
    have h0 : (0 : Int) ≤ n * m := by positivity
    refine ⟨n * (j - n) + i, add_nonneg (mul_nonneg (by omega) (by omega)) (by omega), ?_, ?_⟩
    · unfold bl; split <;> omega
    · unfold bp
      rw [if_neg (by omega), q1, q2, Prod.mk.injEq]
      exact ⟨rfl, by omega⟩
  · obtain ⟨q1, q2⟩ := divmod_unique (n := n) (x := n * (i - n + m) + j) (q := i - n + m) (r := j) (by omega) (by omega) rfl
    have e : (n : Int) * (i - n + m) = n * m + n * (i - n) := by ring
    have hge : (0 : Int) ≤ n * (i - n) := mul_nonneg (by omega) (by omega)
    have : (n : Int) * (i - n) ≤ n * (m - 1) := mul_le_mul_of_nonneg_left (by omega) (by omega)
    have : (n : Int) * (m - 1) = n * m - n := by ring
    have h0 : (0 : Int) ≤ n * m := by positivity
    refine ⟨n * (i - n + m) + j, by omega, ?_, ?_⟩
    · unfold bl; rw [if_pos rfl]; omega
    · unfold bp
      rw [if_pos ⟨rfl, by omega⟩, q1, q2, Prod.mk.injEq]
      exact ⟨by omega, rfl⟩

end ICPC.Gen
