import Verif.Props.GraphReal
import Verif.Props.Btrs

/-!
# C74: random graphs with real parameters, composed with the law of the rejection method of `binomial`
-/

namespace ICPC.Props

open ICPC ICPC.Gen ICPC.Ideal ICPC.Spec ICPC.Spec.EdgeMap MeasureTheory

variable {E : Type} [Inhabited E]

private theorem btrs_real {N : ℕ} (hN : N + 1 < 2 ^ 63) {p : ℝ} (hp : 0 < p) (hp1 : p < 1) (hs : 10 ≤ min p (1 - p) * N)
    (hat : BtrsHat N (min p (1 - p))) (squeeze : BtrsSqueeze N (min p (1 - p))) (k : ℕ) (hk : k ≤ N) :
    probIn (fun f => binomial f N p) {(k : ℤ)} =
      ENNReal.ofReal (N.choose k * p ^ k * (1 - p) ^ (N - k) * (1 - probUndefined fun f => binomial f N p).toReal) := by
  have hq : 0 < 1 - p := by linarith
  rw [C73_btrs_partial hN hp hp1 hs hat squeeze hk, ENNReal.ofReal_mul (p := N.choose k * p ^ k * (1 - p) ^ (N - k)) (by positivity),
    ENNReal.ofReal_toReal]
  exact (tsub_le_self.trans_lt ENNReal.one_lt_top).ne

private theorem product_real {P : Finset (Int × Int)} (S : Finset (Int × Int)) {p : ℝ} (hp : 0 < p) (hp1 : p < 1) (x : ENNReal) :
    ENNReal.ofReal ((∏ e ∈ P, if e ∈ S then p else 1 - p) * (1 - x).toReal) = ENNReal.ofReal (∏ e ∈ P, if e ∈ S then p else 1 - p) * (1 - x) := by
  rw [ENNReal.ofReal_mul, ENNReal.ofReal_toReal]
  · exact (tsub_le_self.trans_lt ENNReal.one_lt_top).ne
  · refine Finset.prod_nonneg fun e _ => ?_
    split <;> linarith

section

attribute [local irreducible] randomGraph randomBipartite SatOk

/-- **C74**: `C74_composed_partial` for the parameters for which `binomial` uses rejection.  (Partial: exact arithmetic, and given the hat and the
squeeze of C73.) -/
theorem C74_composed_large_partial (n : ℕ) (hl : I64 (n * (n - 1) : Int)) {p : ℝ} (hp : 0 < p) (hp1 : p < 1)
    (hs : 10 ≤ min p (1 - p) * n.choose 2) (hat : BtrsHat (n.choose 2) (min p (1 - p))) (squeeze : BtrsSqueeze (n.choose 2) (min p (1 - p)))
    (S : Finset (Int × Int)) (hS : S ⊆ allPairs false n) :
    probThen (fun f => binomial f (n.choose 2 : ℕ) p) (fun m => (randomGraph false n m : Rand (Graph E))) (fun g => HasExactly g false n S)
      = ENNReal.ofReal (∏ e ∈ allPairs false n, if e ∈ S then p else 1 - p) * (1 - probUndefined fun f => binomial f (n.choose 2 : ℕ) p) := by
  have hn : I64 (n : Int) := by
    unfold I64 at *
    rcases Nat.eq_zero_or_pos n with rfl | h
    · simp
    · rcases Nat.lt_or_ge n 3 with h | h
      · omega
      · constructor
        · omega
        · nlinarith [hl.2]
  have hpos : n.choose 2 ≠ 0 := by
    intro h
    rw [h] at hs
    norm_num at hs
  have hN : n.choose 2 + 1 < 2 ^ 63 := by
    have h2 : 2 * n.choose 2 = n * (n - 1) := by
      rw [Nat.choose_two_right]
      exact Nat.mul_div_cancel' (Nat.even_mul_pred_self n).two_dvd
    have e : ((n * (n - 1) : Nat) : Int) = n * (n - 1) := by
      cases n with
      | zero => simp
      | succ n => push_cast; simp
    unfold I64 at hl
    omega
  rw [← product_real S hp hp1]
  exact drawn_real (C49_number n).2.symm (Finset.Subset.refl _)
    (fun k hk => SatOk.mono (C49_randomGraph n k hn hl hk) fun g ⟨_, T, h1, h2, h3, _⟩ => ⟨T, h1, h2, h3⟩)
    (fun S hS => C49_randomGraph_uniform n S.card hn hl S hS rfl) hp hp1 ENNReal.toReal_nonneg (btrs_real hN hp hp1 hs hat squeeze) hS

/-- **C74**: the same for `randomBipartite(n, m, p)`. -/
theorem C74_bipartite_composed_large_partial (n m : ℕ) (hn : I64 (n + m : Int)) (hl : I64 ((n * m : ℕ) + 1 : Int)) {p : ℝ} (hp : 0 < p)
    (hp1 : p < 1) (hs : 10 ≤ min p (1 - p) * (n * m : ℕ)) (hat : BtrsHat (n * m) (min p (1 - p))) (squeeze : BtrsSqueeze (n * m) (min p (1 - p)))
    (S : Finset (Int × Int)) (hS : S ⊆ crossPairs false n m) :
    probThen (fun f => binomial f (n * m : ℕ) p) (fun k => (randomBipartite false n m k : Rand (Graph E))) (fun g => HasExactly g false (n + m) S)
      = ENNReal.ofReal (∏ e ∈ crossPairs false n m, if e ∈ S then p else 1 - p) * (1 - probUndefined fun f => binomial f (n * m : ℕ) p) := by
  have hl' : I64 ((crossPairs false n m).card : Int) := by
    rw [(C56_number n m).2]
    unfold I64 at *
    omega
  rw [← product_real S hp hp1]
  refine drawn_real (C56_number n m).2.symm crossPairs_sub
    (fun k hk => SatOk.mono (C56_randomBipartite n m k hn hl' hk) fun g ⟨_, T, h1, h2, h3, _⟩ => ⟨T, h1, h2, h3⟩)
    (fun S hS => C56_randomBipartite_uniform n m S.card hn hl' S hS rfl) hp hp1 ENNReal.toReal_nonneg (btrs_real ?_ hp hp1 hs hat squeeze) hS
  unfold I64 at hl
  omega

end

/-- The hypotheses hold for five vertices of one side and four of the other: 20 coins. -/
example (S : Finset (Int × Int)) (hS : S ⊆ crossPairs false 5 4) :
    probThen (fun f => binomial f (5 * 4 : ℕ) (1 / 2)) (fun k => (randomBipartite false (5 : ℕ) (4 : ℕ) k : Rand (Graph Unit)))
      (fun g => HasExactly g false ((5 : ℕ) + (4 : ℕ)) S)
      = ENNReal.ofReal (∏ e ∈ crossPairs false 5 4, if e ∈ S then 1 / 2 else 1 - 1 / 2) * (1 - probUndefined fun f => binomial f (5 * 4 : ℕ) (1 / 2)) := by
  have hmin : min (1 / 2 : ℝ) (1 - 1 / 2) = 1 / 2 := by norm_num
  exact C74_bipartite_composed_large_partial 5 4 (by unfold I64; omega) (by unfold I64; omega) (by norm_num) (by norm_num)
    (by rw [hmin]; norm_num) (by rw [hmin]; exact hat_twenty) (by rw [hmin]; exact squeeze_twenty) S hS

end ICPC.Props
