import Verif.Props.Convex
import Verif.Lemmas.RandMono
import Mathlib.Algebra.Order.Ring.Pow
import Mathlib.Tactic.GCongr

/-!
# C71: when the loop of `Random::convex` ends
-/

namespace ICPC.Props
open ICPC ICPC.Spec ICPC.Cyc

/-! ### One iteration -/

/-- One if the differences are accepted. -/
def accepted (n : Int) (xy : List Int × List Int) : ℚ := if (zeros xy.1 + zeros xy.2 : Int) ≤ n then 1 else 0

theorem accepted_nonneg (n : Int) (xy : List Int × List Int) : 0 ≤ accepted n xy := by
  unfold accepted; split <;> norm_num

theorem accepted_le (n : Int) (xy : List Int × List Int) : accepted n xy ≤ 1 := by
  unfold accepted; split <;> norm_num

/-- The probability that one iteration accepts. -/
def acceptProb (binom : Int → Rand Int) (n dim : Int) : ℚ := expect (convexDraw binom n dim) (accepted n)

theorem convexLoop_value {part : (Int → Bool) → List Int → List Int} (hp : PartitionContract part)
    {sort : (Pt → Pt → Bool) → List Pt → List Pt} (hsort : SortContract sort)
    {binom : Int → Rand Int} (hb : ∀ m, 0 ≤ m → SatOk (binom m) fun v => 0 ≤ v ∧ v ≤ m) {n dim : Int}
    (h3 : 3 ≤ n) (h1 : n ≤ 8 * dim - 8) (hd : dim ≤ 0x3FFFFFFF) : ∀ fuel,
    expect (convexLoop part sort binom n dim fuel) (fun _ => 1) = 1 - (1 - acceptProb binom n dim) ^ fuel
  | 0 => by
    show (0 : ℚ) = _
    rw [pow_zero, sub_self]
  | fuel + 1 => by
    have ih := convexLoop_value hp hsort hb h3 h1 hd fuel
    unfold convexLoop
    rw [expect_bind]
    refine (expect_congr_ok (convexDraw_sat hb h3 h1 hd) (h := fun xy =>
      (1 - expect (convexLoop part sort binom n dim fuel) (fun _ => 1)) * accepted n xy +
        expect (convexLoop part sort binom n dim fuel) (fun _ => 1)) ?_).trans ?_
    · intro xy hxy
      have hs := convexDirs_sat hp (n := n) (by omega) (by omega) hxy.1.1 hxy.2.1
      by_cases hc : (zeros xy.1 + zeros xy.2 : Int) ≤ n
      · have ha : accepted n xy = 1 := if_pos hc
        rw [ha, mul_one, sub_add_cancel]
        refine expect_const (P := fun _ => True) ?_ 1
        refine SatOk.bind hs fun r hr => ?_
        rcases hr with ⟨rfl, hlt⟩ | ⟨ds, rfl, _, hl, hz, hx, hy⟩
        · omega
        · obtain ⟨pts, e, _⟩ := convexPlace_ok hsort h3 (by omega) hd hl hz ⟨hxy.1.2.perm hx, hxy.2.2.perm hy⟩
          exact ⟨pts, e, trivial⟩
      · have ha : accepted n xy = 0 := if_neg hc
        rw [ha, mul_zero, zero_add, expect_bind]
        refine (expect_congr_ok hs (h := fun _ => expect (convexLoop part sort binom n dim fuel) (fun _ => 1)) ?_).trans (expect_const hs _)
        intro r hr
        rcases hr with ⟨rfl, hlt⟩ | ⟨ds, rfl, h, _⟩
        · rfl
        · exact absurd h hc
    · rw [expect_add, expect_smul, expect_const (convexDraw_sat hb h3 h1 hd), ih]
      unfold acceptProb
      ring

/-! ### An accepted result -/

/-- A partition with as few zeros as possible. -/
def fewZeros (N k : Nat) : List Int := if k ≤ N then ((N - k + 1 : Nat) : Int) :: List.replicate (k - 1) 1 else List.replicate N 1 ++ List.replicate (k - N) 0

theorem zeros_append (a b : List Int) : zeros (a ++ b) = zeros a + zeros b := List.countP_append

theorem zeros_neg (a : List Int) : zeros (a.map fun z => -z) = zeros a := by
  unfold zeros
  rw [List.countP_map]
  congr 1
  funext z
  simp

theorem fewZeros_spec {N k : Nat} (hk : 0 < k) : (fewZeros N k).length = k ∧ (fewZeros N k).sum = N ∧ (∀ y ∈ fewZeros N k, 0 ≤ y) ∧
    zeros (fewZeros N k) = k - N := by
  unfold fewZeros
  split
  · rename_i h
    refine ⟨by simp; omega, by simp; omega, ?_, ?_⟩
    · intro y hy
      rcases List.mem_cons.1 hy with rfl | hy
      · omega
      · rw [List.eq_of_mem_replicate hy]; norm_num
    · unfold zeros
      rw [List.countP_cons, List.countP_replicate]
      simp
      rw [if_neg (by omega)]
      omega
  · rename_i h
    refine ⟨by simp; omega, by simp, ?_, ?_⟩
    · intro y hy
      rcases List.mem_append.1 hy with hy | hy <;> (rw [List.eq_of_mem_replicate hy]; try norm_num)
    · unfold zeros
      rw [List.countP_append, List.countP_replicate, List.countP_replicate]
      simp

theorem partition_pos {N k : Int} (hN : 0 < N) (hN' : N < 2 ^ 40) (hk : 0 < k) (hk' : k < 2 ^ 40) :
    0 < prob (partition N k 0) (fewZeros N.toNat k.toNat) := by
  obtain ⟨l, s, p, _⟩ := fewZeros_spec (N := N.toNat) (k := k.toNat) (by omega)
  rw [C08_partition_uniform N k 0 (i64_mk (by omega) (by omega)) hN hk (by omega) (by decide) (i64_mk (by omega) (by omega))
    (i64_mk (by omega) (by omega)) _ l (by rw [s]; omega) p]
  have : 0 < (N - (0 - 1) * k - 1).toNat.choose (k - 1).toNat := Nat.choose_pos (by omega)
  have : (0 : ℚ) < ((N - (0 - 1) * k - 1).toNat.choose (k - 1).toNat : Nat) := by exact_mod_cast this
  positivity

theorem acceptProb_pos {binom : Int → Rand Int} {n dim : Int} (h3 : 3 ≤ n) (h1 : n ≤ 8 * dim - 8) (hd : dim ≤ 0x3FFFFFFF)
    (hpos : 0 < prob (binom (n - 2)) ((n - 2) / 2)) : 0 < acceptProb binom n dim := by
  unfold acceptProb convexDraw
  have nn := accepted_nonneg n
  refine expect_bind_pos ((n - 2) / 2) hpos nn ?_
  refine expect_bind_pos ((n - 2) / 2) hpos nn ?_
  dsimp only
  refine expect_bind_pos _ (partition_pos (by omega) (by omega) (by omega) (by omega)) nn ?_
  refine expect_bind_pos _ (partition_pos (by omega) (by omega) (by omega) (by omega)) nn ?_
  refine expect_bind_pos _ (partition_pos (by omega) (by omega) (by omega) (by omega)) nn ?_
  refine expect_bind_pos _ (partition_pos (by omega) (by omega) (by omega) (by omega)) nn ?_
  obtain ⟨_, _, _, z1⟩ := fewZeros_spec (N := (2 * dim - 2).toNat) (k := (1 + (n - 2) / 2).toNat) (by omega)
  obtain ⟨_, _, _, z2⟩ := fewZeros_spec (N := (2 * dim - 2).toNat) (k := (n - (1 + (n - 2) / 2)).toNat) (by omega)
  show 0 < accepted n _
  unfold accepted
  rw [if_pos]
  · norm_num
  · dsimp only
    rw [zeros_append, zeros_neg, z1, z2]
    omega

/-- **C71.** The loop of `Random::convex` ends with probability one, whenever `Random::binomial(n - 2)` returns `(n - 2) / 2`
with a positive probability: there is one positive probability `a`, the same for all ways to sort and to partition, such
that after `fuel` iterations the call has returned with probability `1 - (1 - a) ^ fuel`. -/
theorem C71_ends (binom : Int → Rand Int) (hb : ∀ m, 0 ≤ m → SatOk (binom m) fun v => 0 ≤ v ∧ v ≤ m) (n dim : Int)
    (h3 : 3 ≤ n) (h1 : n ≤ 8 * dim - 8) (hd : dim ≤ 0x3FFFFFFF) (hpos : 0 < prob (binom (n - 2)) ((n - 2) / 2)) :
    ∃ a : ℚ, 0 < a ∧ a ≤ 1 ∧ ∀ part, PartitionContract part → ∀ sort, SortContract sort → ∀ fuel,
      expect (convex part sort binom fuel n dim) (fun _ => 1) = 1 - (1 - a) ^ fuel := by
  refine ⟨acceptProb binom n dim, acceptProb_pos h3 h1 hd hpos, ?_, fun part hp sort hsort fuel => ?_⟩
  · exact expect_le_const (convexDraw_sat hb h3 h1 hd) fun xy _ => accepted_le n xy
  · rw [convex_unfold h3 h1 hd]
    exact convexLoop_value hp hsort hb h3 h1 hd fuel

/-! ### How long it takes -/

/-- The lists of `k` zeros and ones with `m` ones. -/
def bins : Nat → Nat → List (List Int)
  | 0, 0 => [[]]
  | 0, _ + 1 => []
  | k + 1, 0 => (bins k 0).map (0 :: ·)
  | k + 1, m + 1 => (bins k (m + 1)).map (0 :: ·) ++ (bins k m).map (1 :: ·)

theorem bins_length : ∀ k m, (bins k m).length = k.choose m
  | 0, 0 => rfl
  | 0, _ + 1 => rfl
  | k + 1, 0 => by unfold bins; rw [List.length_map, bins_length k 0]; simp
  | k + 1, m + 1 => by
    unfold bins
    rw [List.length_append, List.length_map, List.length_map, bins_length k m, bins_length k (m + 1), Nat.choose_succ_succ, add_comm]

theorem bins_spec : ∀ k m t, t ∈ bins k m → t.length = k ∧ t.sum = m ∧ ∀ y ∈ t, 0 ≤ y
  | 0, 0, t, h => by simp [bins] at h; subst h; simp
  | 0, _ + 1, t, h => by simp [bins] at h
  | k + 1, 0, t, h => by
    unfold bins at h
    obtain ⟨u, hu, rfl⟩ := List.mem_map.1 h
    obtain ⟨a, b, c⟩ := bins_spec k 0 u hu
    refine ⟨by simp [a], by simp [b], ?_⟩
    intro y hy
    rcases List.mem_cons.1 hy with rfl | hy
    · exact le_refl _
    · exact c y hy
  | k + 1, m + 1, t, h => by
    unfold bins at h
    rcases List.mem_append.1 h with h | h
    · obtain ⟨u, hu, rfl⟩ := List.mem_map.1 h
      obtain ⟨a, b, c⟩ := bins_spec k (m + 1) u hu
      refine ⟨by simp [a], by simp [b], ?_⟩
      intro y hy
      rcases List.mem_cons.1 hy with rfl | hy
      · exact le_refl _
      · exact c y hy
    · obtain ⟨u, hu, rfl⟩ := List.mem_map.1 h
      obtain ⟨a, b, c⟩ := bins_spec k m u hu
      refine ⟨by simp [a], by simp [b]; omega, ?_⟩
      intro y hy
      rcases List.mem_cons.1 hy with rfl | hy
      · norm_num
      · exact c y hy

theorem mem_bins : ∀ (t : List Int) (m : Nat), (∀ y ∈ t, 0 ≤ y ∧ y ≤ 1) → t.sum = m → t ∈ bins t.length m
  | [], m, _, h => by
    have : m = 0 := by simpa using h.symm
    subst this; simp [bins]
  | y :: t, m, h, hs => by
    have hy := h y (by simp)
    have ht : ∀ z ∈ t, 0 ≤ z ∧ z ≤ 1 := fun z hz => h z (by simp [hz])
    have hnn : 0 ≤ t.sum := List.sum_nonneg fun z hz => (ht z hz).1
    rw [List.sum_cons] at hs
    have : y = 0 ∨ y = 1 := by omega
    rw [List.length_cons]
    rcases this with rfl | rfl
    · have := mem_bins t m ht (by omega)
      cases m with
      | zero => unfold bins; exact List.mem_map.2 ⟨t, this, rfl⟩
      | succ m => unfold bins; exact List.mem_append_left _ (List.mem_map.2 ⟨t, this, rfl⟩)
    · cases m with
      | zero => omega
      | succ m =>
        unfold bins
        exact List.mem_append_right _ (List.mem_map.2 ⟨t, mem_bins t m ht (by push_cast at hs; omega), rfl⟩)

/-- One if no element is greater than one. -/
def small (t : List Int) : ℚ := if ∀ y ∈ t, y ≤ 1 then 1 else 0

theorem desc_le {k N : Nat} (hN : 2 ≤ N) (hk : k ≤ 2 * N) : ∀ j, 5 ^ j * k.descFactorial j ≤ 4 ^ j * (k + N - 1).descFactorial j
  | 0 => by simp
  | j + 1 => by
    have ih := desc_le hN hk j
    rw [Nat.descFactorial_succ, Nat.descFactorial_succ, pow_succ, pow_succ]
    have h : 5 * (k - j) ≤ 4 * (k + N - 1 - j) := by omega
    calc 5 ^ j * 5 * ((k - j) * k.descFactorial j) = (5 * (k - j)) * (5 ^ j * k.descFactorial j) := by ring
      _ ≤ (4 * (k + N - 1 - j)) * (4 ^ j * (k + N - 1).descFactorial j) := Nat.mul_le_mul h ih
      _ = _ := by ring

theorem choose_le {k N : Nat} (hN : 2 ≤ N) (hk : k ≤ 2 * N) : 5 ^ N * k.choose N ≤ 4 ^ N * (k + N - 1).choose N := by
  have h := desc_le hN hk N
  rw [Nat.descFactorial_eq_factorial_mul_choose, Nat.descFactorial_eq_factorial_mul_choose] at h
  have hp := Nat.factorial_pos N
  refine Nat.le_of_mul_le_mul_left (c := N.factorial) ?_ hp
  linarith [h, mul_comm (5 ^ N) (N.factorial)]

theorem small_le {N k : Int} (hN : 2 ≤ N) (hN' : N < 2 ^ 40) (hk : 0 < k) (hk' : k ≤ 2 * N) :
    expect (partition N k 0) small ≤ (4 / 5) ^ N.toNat := by
  have o2 : I64 ((0 - 1) * k) := i64_mk (by omega) (by omega)
  have o3 : I64 (N - (0 - 1) * k) := i64_mk (by omega) (by omega)
  have hs := C08_partition_partial N k 0 (i64_mk (by omega) (by omega)) (by omega) hk (by omega) (Or.inr ⟨by decide, o2, o3⟩)
  have hu := C08_partition_uniform N k 0 (i64_mk (by omega) (by omega)) (by omega) hk (by omega) (by decide) o2 o3
  have hC : (N - (0 - 1) * k - 1).toNat.choose (k - 1).toNat = (k.toNat + N.toNat - 1).choose N.toNat := by
    rw [show (N - (0 - 1) * k - 1).toNat = k.toNat + N.toNat - 1 by omega, ← Nat.choose_symm (show N.toNat ≤ k.toNat + N.toNat - 1 by omega)]
    congr 1
    omega
  rw [hC] at hu
  set S := (bins k.toNat N.toNat).toFinset with hS
  have step : expect (partition N k 0) small ≤ ∑ s ∈ S, prob (partition N k 0) s := by
    unfold prob
    rw [← expect_sum]
    refine expect_le_of hs fun t ht => ?_
    unfold small
    split
    · rename_i h
      have hm : t ∈ S := by
        rw [hS, List.mem_toFinset, ← ht.1]
        exact mem_bins t _ (fun y hy => ⟨ht.2.2 y hy, h y hy⟩) (by rw [ht.2.1]; omega)
      rw [Finset.sum_ite_eq, if_pos hm]
    · exact Finset.sum_nonneg fun s _ => by split <;> norm_num
  refine step.trans ?_
  rw [Finset.sum_congr rfl fun s hs' => by
    obtain ⟨a, b, c⟩ := bins_spec _ _ s (List.mem_toFinset.1 hs')
    exact hu s a (by rw [b]; omega) c, Finset.sum_const, nsmul_eq_mul]
  have hcard : (S.card : ℚ) ≤ (k.toNat.choose N.toNat : ℚ) := by
    rw [← bins_length]; exact_mod_cast List.toFinset_card_le _
  have hpos : (0 : ℚ) < ((k.toNat + N.toNat - 1).choose N.toNat : Nat) := by
    exact_mod_cast Nat.choose_pos (by omega)
  have hle : (5 : ℚ) ^ N.toNat * (k.toNat.choose N.toNat : Nat) ≤ 4 ^ N.toNat * ((k.toNat + N.toNat - 1).choose N.toNat : Nat) := by
    exact_mod_cast choose_le (k := k.toNat) (N := N.toNat) (by omega) (by omega)
  rw [mul_one_div, div_le_iff₀ hpos, div_pow, div_mul_eq_mul_div, le_div_iff₀ (by positivity)]
  nlinarith [hcard, hle, pow_pos (show (0 : ℚ) < 5 by norm_num) N.toNat]

/-- A list that is not small has more zeros than the difference. -/
theorem zeros_ge : ∀ (t : List Int), (∀ y ∈ t, 0 ≤ y) → (t.length : Int) ≤ zeros t + t.sum ∧
    ((∃ y ∈ t, 1 < y) → (t.length : Int) + 1 ≤ zeros t + t.sum)
  | [], _ => by simp [zeros]
  | y :: t, h => by
    have hy := h y (by simp)
    obtain ⟨a, b⟩ := zeros_ge t fun z hz => h z (by simp [hz])
    have e : (zeros (y :: t) : Int) = zeros t + if y = 0 then 1 else 0 := by
      unfold zeros; rw [List.countP_cons]; simp
    rw [e, List.length_cons, List.sum_cons]
    refine ⟨by split <;> push_cast <;> omega, fun ⟨z, hz, hlt⟩ => ?_⟩
    rcases List.mem_cons.1 hz with rfl | hz
    · split <;> push_cast <;> omega
    · have := b ⟨z, hz, hlt⟩
      split <;> push_cast <;> omega

theorem acceptProb_le {binom : Int → Rand Int} (hb : ∀ m, 0 ≤ m → SatOk (binom m) fun v => 0 ≤ v ∧ v ≤ m) {dim : Int}
    (h2 : 2 ≤ dim) (hd : dim ≤ 0x3FFFFFFF) : acceptProb binom (8 * dim - 8) dim ≤ (4 / 5) ^ (2 * dim - 2).toNat := by
  have part : ∀ k, 0 < k → k < 8 * dim - 8 → SatOk (partition (2 * dim - 2) k 0) fun res => res.length = k.toNat ∧ res.sum = 2 * dim - 2 ∧ ∀ y ∈ res, 0 ≤ y := by
    intro k hk hkn
    exact C08_partition_partial (2 * dim - 2) k 0 (i64_mk (by omega) (by omega)) (by omega) hk (by omega)
      (Or.inr ⟨by decide, i64_mk (by omega) (by omega), i64_mk (by omega) (by omega)⟩)
  have sm : ∀ k, 0 < k → k ≤ 2 * (2 * dim - 2) → expect (partition (2 * dim - 2) k 0) small ≤ (4 / 5) ^ (2 * dim - 2).toNat :=
    fun k h h' => small_le (by omega) (by omega) h h'
  unfold acceptProb convexDraw
  rw [expect_bind]
  refine expect_le_const (hb _ (by omega)) fun l hl => ?_
  rw [expect_bind]
  refine expect_le_const (hb _ (by omega)) fun d hd' => ?_
  dsimp only
  -- what is accepted is small
  have acc : ∀ x y x' y' : List Int, (x.length = (1 + l).toNat ∧ x.sum = 2 * dim - 2 ∧ ∀ z ∈ x, (0 : Int) ≤ z) →
      (y.length = (1 + d).toNat ∧ y.sum = 2 * dim - 2 ∧ ∀ z ∈ y, (0 : Int) ≤ z) →
      (x'.length = (8 * dim - 8 - (1 + l)).toNat ∧ x'.sum = 2 * dim - 2 ∧ ∀ z ∈ x', (0 : Int) ≤ z) →
      (y'.length = (8 * dim - 8 - (1 + d)).toNat ∧ y'.sum = 2 * dim - 2 ∧ ∀ z ∈ y', (0 : Int) ≤ z) →
      accepted (8 * dim - 8) (x.map (fun z => -z) ++ x', y.map (fun z => -z) ++ y') ≤ small x ∧
      accepted (8 * dim - 8) (x.map (fun z => -z) ++ x', y.map (fun z => -z) ++ y') ≤ small x' := by
    intro x y x' y' hx hy hx' hy'
    have zx := zeros_ge x hx.2.2
    have zy := zeros_ge y hy.2.2
    have zx' := zeros_ge x' hx'.2.2
    have zy' := zeros_ge y' hy'.2.2
    have e : ((zeros (x.map (fun z => -z) ++ x') + zeros (y.map (fun z => -z) ++ y') : Nat) : Int) = zeros x + zeros x' + zeros y + zeros y' := by
      rw [zeros_append, zeros_append, zeros_neg, zeros_neg]; push_cast; ring
    push_cast at e
    unfold accepted
    dsimp only
    rw [e]
    constructor
    · unfold small
      split
      · rw [if_pos]
        by_contra hc
        push Not at hc
        have := zx.2 hc
        omega
      · split <;> norm_num
    · unfold small
      split
      · rw [if_pos]
        by_contra hc
        push Not at hc
        have := zx'.2 hc
        omega
      · split <;> norm_num
  by_cases hlow : 1 + l ≤ 2 * (2 * dim - 2)
  · rw [expect_bind]
    refine (expect_le_of (part (1 + l) (by omega) (by omega)) fun x hx => ?_).trans (sm _ (by omega) hlow)
    rw [expect_bind]
    refine expect_le_const (part (1 + d) (by omega) (by omega)) fun y hy => ?_
    rw [expect_bind]
    refine expect_le_const (part _ (by omega) (by omega)) fun x' hx' => ?_
    rw [expect_bind]
    exact expect_le_const (part _ (by omega) (by omega)) fun y' hy' => (acc x y x' y' hx hy hx' hy').1
  · rw [expect_bind]
    refine expect_le_const (part (1 + l) (by omega) (by omega)) fun x hx => ?_
    rw [expect_bind]
    refine expect_le_const (part (1 + d) (by omega) (by omega)) fun y hy => ?_
    rw [expect_bind]
    refine (expect_le_of (part _ (by omega) (by omega)) fun x' hx' => ?_).trans (sm (8 * dim - 8 - (1 + l)) (by omega) (by omega))
    rw [expect_bind]
    exact expect_le_const (part _ (by omega) (by omega)) fun y' hy' => (acc x y x' y' hx hy hx' hy').2

/-- **C71.** At the asserted limit `n = 8 * dim - 8` the loop of `Random::convex` is hopeless: whatever
`Random::binomial` does, the probability to have returned after `fuel` iterations is at most `fuel * (4 / 5) ^ (2 * dim - 2)`. -/
theorem C71_limit (part : (Int → Bool) → List Int → List Int) (hp : PartitionContract part)
    (sort : (Pt → Pt → Bool) → List Pt → List Pt) (hsort : SortContract sort)
    (binom : Int → Rand Int) (hb : ∀ m, 0 ≤ m → SatOk (binom m) fun v => 0 ≤ v ∧ v ≤ m) (dim : Int) (h2 : 2 ≤ dim)
    (hd : dim ≤ 0x3FFFFFFF) (fuel : Nat) :
    expect (convex part sort binom fuel (8 * dim - 8) dim) (fun _ => 1) ≤ fuel * (4 / 5) ^ (2 * dim - 2).toNat := by
  rw [convex_unfold (by omega) (by omega) hd, convexLoop_value hp hsort hb (by omega) (by omega) hd]
  have h1 := acceptProb_le hb h2 hd
  have h0 : 0 ≤ acceptProb binom (8 * dim - 8) dim := expect_nonneg _ (accepted_nonneg _)
  have hb1 : acceptProb binom (8 * dim - 8) dim ≤ 1 :=
    expect_le_const (convexDraw_sat hb (by omega) (by omega) hd) fun xy _ => accepted_le _ xy
  have := one_add_mul_le_pow (a := - acceptProb binom (8 * dim - 8) dim) (by linarith) fuel
  have hf : (0 : ℚ) ≤ fuel := Nat.cast_nonneg _
  have := mul_le_mul_of_nonneg_left h1 hf
  rw [sub_eq_add_neg 1 (acceptProb _ _ _)]
  linarith

/-! ### Examples -/

/-- A fair coin for `Random::binomial(1)`, the middle otherwise. -/
def someBinom (m : Int) : Rand Int := if m = 1 then .coin fun b => .done (.ok (if b then 1 else 0)) else pure (m / 2)

theorem someBinom_sat : ∀ m, 0 ≤ m → SatOk (someBinom m) fun v => 0 ≤ v ∧ v ≤ m := by
  intro m hm
  unfold someBinom
  split
  · intro b
    exact ⟨_, rfl, by cases b <;> simp <;> omega⟩
  · exact ⟨_, rfl, by omega, by omega⟩

-- triangles in (-5, 5)² are returned in the end
example : ∃ a : ℚ, 0 < a ∧ a ≤ 1 ∧ ∀ fuel, expect (convex stablePartition sortBy someBinom fuel 3 5) (fun _ => 1) = 1 - (1 - a) ^ fuel := by
  obtain ⟨a, h0, h1, h⟩ := C71_ends someBinom someBinom_sat 3 5 (by norm_num) (by norm_num) (by norm_num) (by
    show 0 < expect (someBinom 1) _
    unfold someBinom
    simp [expect])
  exact ⟨a, h0, h1, h _ stablePartition_contract _ sortBy_contract⟩
-- 792 points in (-100, 100)²: a billion iterations return with a probability of at most 10⁻⁹
example : expect (convex stablePartition sortBy someBinom 1000000000 792 100) (fun _ => 1) ≤ 1 / 10 ^ 9 := by
  refine (C71_limit _ stablePartition_contract _ sortBy_contract _ someBinom_sat 100 (by norm_num) (by norm_num) _).trans ?_
  rw [show (2 * (100 : Int) - 2).toNat = 198 from rfl]
  norm_num

end ICPC.Props
