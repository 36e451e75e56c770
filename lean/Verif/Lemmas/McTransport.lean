import Verif.Props.Flow2
import Verif.Lemmas.MinCost

/-!
# The network of `mcmfWorstcase` as a transport problem

`x i j` is what flows from the `i`-th vertex after the source to the `j`-th vertex before the sink.
-/

namespace ICPC.Mc

open ICPC.Spec.Flow ICPC.Props

/-- What can be transported. -/
structure Plan (n : Nat) (x : Nat → Nat → Int) : Prop where
  nonneg : ∀ i < n, ∀ j < n, 0 ≤ x i j
  diag : ∀ i < n, i ≠ 0 → x i i = 0
  row : ∀ i < n, ∑ j ∈ Finset.range n, x i j ≤ sup i
  col : ∀ j < n, ∑ i ∈ Finset.range n, x i j ≤ dem j

def total (n : Nat) (x : Nat → Nat → Int) : Int := ∑ i ∈ Finset.range n, ∑ j ∈ Finset.range n, x i j

def price (n : Nat) (x : Nat → Nat → Int) : Int := ∑ i ∈ Finset.range n, ∑ j ∈ Finset.range n, x i j * (2 ^ max i j - 1)

/-- The values of the flow at which the smallest cost bends. -/
def bend (l : Nat) : Int := (l + l / 4 : Nat)

def level (l : Nat) : Int := ∑ i ∈ Finset.range (l + 1), bend i

theorem level_succ (l : Nat) : level (l + 1) = level l + bend (l + 1) := by
  unfold level
  rw [Finset.sum_range_succ]

theorem bend_lt (l : Nat) : bend l < bend (l + 1) := by
  unfold bend
  omega

/-- Taking the last vertices of both sides away. -/
theorem Plan.split {n : Nat} {x : Nat → Nat → Int} (h : Plan (n + 1) x) (hn : n ≠ 0) :
    Plan n x ∧ total (n + 1) x = total n x + ∑ i ∈ Finset.range n, x i n + ∑ j ∈ Finset.range n, x n j ∧
      price (n + 1) x = price n x + (2 ^ n - 1) * (∑ i ∈ Finset.range n, x i n + ∑ j ∈ Finset.range n, x n j) ∧
      0 ≤ ∑ i ∈ Finset.range n, x i n ∧ 0 ≤ ∑ j ∈ Finset.range n, x n j ∧
      total n x + ∑ i ∈ Finset.range n, x i n ≤ ∑ i ∈ Finset.range n, sup i ∧ total n x + ∑ j ∈ Finset.range n, x n j ≤ ∑ j ∈ Finset.range n, dem j := by
  have hd := h.diag n (by omega) hn
  have hr : ∀ i < n, 0 ≤ x i n := fun i hi => h.nonneg i (by omega) n (by omega)
  have hc : ∀ i < n, 0 ≤ x n i := fun i hi => h.nonneg n (by omega) i (by omega)
  refine ⟨⟨fun i hi j hj => h.nonneg i (by omega) j (by omega), fun i hi => h.diag i (by omega), fun i hi => ?_, fun j hj => ?_⟩, ?_, ?_, ?_, ?_, ?_, ?_⟩
  · have := h.row i (by omega)
    rw [Finset.sum_range_succ] at this
    have := hr i hi
    omega
  · have := h.col j (by omega)
    rw [Finset.sum_range_succ] at this
    have := hc j hj
    omega
  · unfold total
    rw [Finset.sum_range_succ, Finset.sum_range_succ _ n, hd]
    simp only [Finset.sum_range_succ _ n, Finset.sum_add_distrib]
    ring
  · unfold price
    rw [Finset.sum_range_succ, Finset.sum_range_succ _ n, hd]
    simp only [Finset.sum_range_succ _ n, Finset.sum_add_distrib]
    have e1 : ∑ i ∈ Finset.range n, x i n * (2 ^ max i n - 1) = (2 ^ n - 1) * ∑ i ∈ Finset.range n, x i n := by
      rw [Finset.mul_sum]
      refine Finset.sum_congr rfl fun i hi => ?_
      rw [max_eq_right (Finset.mem_range.1 hi).le, mul_comm]
    have e2 : ∑ j ∈ Finset.range n, x n j * (2 ^ max n j - 1) = (2 ^ n - 1) * ∑ j ∈ Finset.range n, x n j := by
      rw [Finset.mul_sum]
      refine Finset.sum_congr rfl fun i hi => ?_
      rw [max_eq_left (Finset.mem_range.1 hi).le, mul_comm]
    rw [e1, e2]
    ring
  · exact Finset.sum_nonneg fun i hi => hr i (Finset.mem_range.1 hi)
  · exact Finset.sum_nonneg fun i hi => hc i (Finset.mem_range.1 hi)
  · unfold total
    rw [← Finset.sum_add_distrib]
    refine Finset.sum_le_sum fun i hi => ?_
    have := h.row i (by have := Finset.mem_range.1 hi; omega)
    rwa [Finset.sum_range_succ] at this
  · unfold total
    rw [Finset.sum_comm, ← Finset.sum_add_distrib]
    refine Finset.sum_le_sum fun i hi => ?_
    have := h.col i (by have := Finset.mem_range.1 hi; omega)
    rwa [Finset.sum_range_succ] at this

theorem sum_sup (k : Nat) : ∑ i ∈ Finset.range (k + 2), sup i = 5 * 2 ^ k - 1 := by
  induction k with
  | zero => simp [Finset.sum_range_succ, sup]
  | succ k ih =>
    rw [Finset.sum_range_succ, ih, sup, if_neg (by push_cast; omega), show (((k + 2 : Nat) : Int) - 2).toNat = k by omega, pow_succ]
    ring

theorem sum_dem (k : Nat) : ∑ i ∈ Finset.range (k + 2), dem i = 5 * 2 ^ k - 1 := by
  induction k with
  | zero => simp [Finset.sum_range_succ, dem]
  | succ k ih =>
    rw [Finset.sum_range_succ, ih, dem, if_neg (by push_cast; omega), show (((k + 2 : Nat) : Int) - 2).toNat = k by omega, pow_succ]
    ring

/-- The bends are symmetric. -/
theorem bend_symm (k l : Nat) (hl : l < 2 ^ (k + 2)) : bend l + bend (2 ^ (k + 2) - 1 - l) = 5 * 2 ^ k - 2 := by
  have h : bend l + bend (2 ^ (k + 2) - 1 - l) = ((l + l / 4 + (2 ^ (k + 2) - 1 - l + (2 ^ (k + 2) - 1 - l) / 4) : Nat) : Int) := by
    unfold bend; push_cast; rfl
  rw [h, show (5 * 2 ^ k - 2 : Int) = ((5 * 2 ^ k - 2 : Nat) : Int) by
    have : 1 ≤ 2 ^ k := Nat.one_le_two_pow
    push_cast [show 2 ≤ 5 * 2 ^ k by omega]; rfl]
  congr 1
  rw [pow_add] at *
  have : 1 ≤ 2 ^ k := Nat.one_le_two_pow
  generalize 2 ^ k = N at *
  omega

/-- So are the levels. -/
theorem level_symm (k d : Nat) (hd : d ≤ 2 ^ (k + 2) - 1) :
    level (2 ^ (k + 2) - 1 + d) = 2 * d * (5 * 2 ^ k - 1) + level (2 ^ (k + 2) - 1 - d) := by
  induction d with
  | zero => simp
  | succ d ih =>
    rw [← add_assoc, level_succ, ih (by omega)]
    have h1 := level_succ (2 ^ (k + 2) - 1 - (d + 1))
    rw [show 2 ^ (k + 2) - 1 - (d + 1) + 1 = 2 ^ (k + 2) - 1 - d by omega] at h1
    have hp : 2 ^ (k + 1 + 2) = 2 * 2 ^ (k + 2) := by rw [pow_succ _ (k + 2)]; ring
    have h2 := bend_symm (k + 1) (2 ^ (k + 2) - 1 + d + 1) (by omega)
    rw [show 2 ^ (k + 1 + 2) - 1 - (2 ^ (k + 2) - 1 + d + 1) = 2 ^ (k + 2) - 1 - d by omega, pow_succ (2 : Int)] at h2
    rw [h1]
    push_cast
    linarith

/-- The last level. -/
theorem level_last (k : Nat) : level (2 ^ (k + 2) - 1) = 2 ^ (k + 1) * (5 * 2 ^ k - 2) := by
  cases k with
  | zero => decide
  | succ k =>
    have hp : 2 ^ (k + 1 + 2) = 2 * 2 ^ (k + 2) := by rw [pow_succ _ (k + 2)]; ring
    have hpos : 1 ≤ 2 ^ (k + 2) := Nat.one_le_two_pow
    have h2 := bend_symm (k + 1) 0 (by positivity)
    rw [show bend 0 = 0 from rfl, zero_add, Nat.sub_zero] at h2
    have h3 := level_symm k (2 ^ (k + 2) - 1) (le_refl _)
    rw [Nat.sub_self, show level 0 = 0 from rfl] at h3
    rw [show 2 ^ (k + 1 + 2) - 1 = 2 ^ (k + 2) - 1 + (2 ^ (k + 2) - 1) + 1 by omega] at h2 ⊢
    rw [level_succ, h3, h2]
    push_cast [hpos]
    ring

theorem Plan.total_le {k : Nat} {x : Nat → Nat → Int} (h : Plan (k + 2) x) : total (k + 2) x ≤ 5 * 2 ^ k - 2 := by
  obtain ⟨h1, h2, -, h4, h5, h6, h7⟩ := Plan.split (n := k + 1) h (by omega)
  rcases k with _ | k
  · -- one vertex on each side is left
    have h8 := h.row 0 (by omega)
    have h9 := h.col 0 (by omega)
    have ha := h.nonneg 0 (by omega) 0 (by omega)
    rw [h2]
    simp [total, Finset.sum_range_succ, sup, dem] at h8 h9 ⊢
    omega
  · have h8 := sum_sup k
    have h9 := sum_dem k
    have h0 : 0 ≤ total (k + 2) x := Finset.sum_nonneg fun i hi => Finset.sum_nonneg fun j hj => h1.nonneg i (Finset.mem_range.1 hi) j (Finset.mem_range.1 hj)
    rw [show k + 1 + 1 = k + 2 by ring] at *
    rw [h2, pow_succ]
    omega

/-- No plan is cheaper. -/
theorem dual (k : Nat) : ∀ (x : Nat → Nat → Int), Plan (k + 2) x → ∀ l < 2 ^ (k + 2), l * total (k + 2) x - level l ≤ price (k + 2) x := by
  induction k with
  | zero =>
    intro x h l hl
    have r0 := h.row 0 (by omega)
    have r1 := h.row 1 (by omega)
    have c0 := h.col 0 (by omega)
    have c1 := h.col 1 (by omega)
    have d1 := h.diag 1 (by omega) (by omega)
    have n0 := h.nonneg 0 (by omega) 0 (by omega)
    have n1 := h.nonneg 0 (by omega) 1 (by omega)
    have n2 := h.nonneg 1 (by omega) 0 (by omega)
    simp only [total, price, Finset.sum_range_succ, Finset.sum_range_zero, sup, dem, d1] at *
    simp at r0 r1 c0 c1
    have hl4 : l = 0 ∨ l = 1 ∨ l = 2 ∨ l = 3 := by omega
    rcases hl4 with rfl | rfl | rfl | rfl <;> simp [level, bend, Finset.sum_range_succ] <;> omega
  | succ k ih =>
    intro x h l hl
    have hT := Plan.total_le (k := k + 1) h
    have hp : 2 ^ (k + 1 + 2) = 2 * 2 ^ (k + 2) := by rw [pow_succ _ (k + 2)]; ring
    have hpos : 1 ≤ 2 ^ (k + 2) := Nat.one_le_two_pow
    have main : ∀ l < 2 ^ (k + 1 + 2) - 1, l * total (k + 1 + 2) x - level l ≤ price (k + 1 + 2) x := by
      intro l hl
      obtain ⟨h1, h2, h3, h4, h5, h6, h7⟩ := Plan.split (n := k + 2) h (by omega)
      rw [show k + 1 + 2 = k + 2 + 1 by ring, h2, h3]
      rw [sum_sup] at h6
      rw [sum_dem] at h7
      generalize ∑ i ∈ Finset.range (k + 2), x i (k + 2) = a at *
      generalize ∑ i ∈ Finset.range (k + 2), x (k + 2) i = b at *
      by_cases hlt : l < 2 ^ (k + 2)
      · have h8 := ih x h1 l hlt
        have h9 : (l : Int) ≤ 2 ^ (k + 2) - 1 := by
          have : (l : Int) < (2 ^ (k + 2) : Nat) := by exact_mod_cast hlt
          push_cast at this
          omega
        nlinarith
      · obtain ⟨d, rfl⟩ : ∃ d, l = 2 ^ (k + 2) - 1 + d := ⟨l - (2 ^ (k + 2) - 1), by omega⟩
        rw [level_symm k d (by omega)]
        have h8 := ih x h1 (2 ^ (k + 2) - 1 - d) (by omega)
        rw [Nat.cast_sub (by omega), Nat.cast_sub (by omega)] at h8
        push_cast [hpos] at h8 ⊢
        have hd : (0 : Int) ≤ d := by positivity
        generalize (2 : Int) ^ (k + 2) = N at *
        generalize (5 : Int) * 2 ^ k - 1 = S at *
        have m1 := mul_le_mul_of_nonneg_left h6 hd
        have m2 := mul_le_mul_of_nonneg_left h7 hd
        nlinarith
    by_cases hlt : l < 2 ^ (k + 1 + 2) - 1
    · exact main l hlt
    · have hl' : l = 2 ^ (k + 1 + 2) - 2 + 1 := by omega
      have h1 := main (2 ^ (k + 1 + 2) - 2) (by omega)
      have h2 := bend_symm (k + 1) 0 (by omega)
      rw [show bend 0 = 0 from rfl, zero_add, Nat.sub_zero, show 2 ^ (k + 1 + 2) - 1 = 2 ^ (k + 1 + 2) - 2 + 1 by omega] at h2
      rw [hl', level_succ, h2]
      push_cast
      linarith

/-- The plan with the last vertices taking what the others leave. -/
def fill (n : Nat) (x : Nat → Nat → Int) (i j : Nat) : Int :=
  if i < n then if j < n then x i j else if j = n then sup i - ∑ j ∈ Finset.range n, x i j else 0
  else if i = n then if j < n then dem j - ∑ i ∈ Finset.range n, x i j else 0 else 0

theorem fill_plan {k : Nat} {x : Nat → Nat → Int} (h : Plan (k + 2) x) : Plan (k + 3) (fill (k + 2) x) ∧
    total (k + 3) (fill (k + 2) x) = 2 * (5 * 2 ^ k - 1) - total (k + 2) x ∧
    price (k + 3) (fill (k + 2) x) = price (k + 2) x + (2 ^ (k + 2) - 1) * (2 * (5 * 2 ^ k - 1) - 2 * total (k + 2) x) := by
  generalize hn : k + 2 = n at *
  rw [show k + 3 = n + 1 by omega]
  have inner : ∀ i < n, ∀ j < n, fill n x i j = x i j := fun i hi j hj => by unfold fill; rw [if_pos hi, if_pos hj]
  have right : ∀ i < n, fill n x i n = sup i - ∑ j ∈ Finset.range n, x i j := fun i hi => by
    unfold fill; rw [if_pos hi, if_neg (lt_irrefl _), if_pos rfl]
  have bottom : ∀ j < n, fill n x n j = dem j - ∑ i ∈ Finset.range n, x i j := fun j hj => by
    unfold fill; rw [if_neg (lt_irrefl _), if_pos rfl, if_pos hj]
  have corner : fill n x n n = 0 := by unfold fill; rw [if_neg (lt_irrefl _), if_pos rfl, if_neg (lt_irrefl _)]
  have rowsum : ∀ i < n, ∑ j ∈ Finset.range n, fill n x i j = ∑ j ∈ Finset.range n, x i j := fun i hi =>
    Finset.sum_congr rfl fun j hj => inner i hi j (Finset.mem_range.1 hj)
  have colsum : ∀ j < n, ∑ i ∈ Finset.range n, fill n x i j = ∑ i ∈ Finset.range n, x i j := fun j hj =>
    Finset.sum_congr rfl fun i hi => inner i (Finset.mem_range.1 hi) j hj
  have hright : ∑ i ∈ Finset.range n, fill n x i n = 5 * 2 ^ k - 1 - total n x := by
    rw [Finset.sum_congr rfl fun i hi => right i (Finset.mem_range.1 hi), Finset.sum_sub_distrib, ← hn, sum_sup]
    rfl
  have hbottom : ∑ j ∈ Finset.range n, fill n x n j = 5 * 2 ^ k - 1 - total n x := by
    rw [Finset.sum_congr rfl fun i hi => bottom i (Finset.mem_range.1 hi), Finset.sum_sub_distrib, Finset.sum_comm, ← hn, sum_dem]
    rfl
  have h0 : 0 ≤ total n x := Finset.sum_nonneg fun i hi => Finset.sum_nonneg fun j hj => h.nonneg i (Finset.mem_range.1 hi) j (Finset.mem_range.1 hj)
  have hsup : sup n = 5 * 2 ^ k := by
    rw [sup, if_neg (by omega), show ((n : Int) - 2).toNat = k by omega]
  have hdem : dem n = 5 * 2 ^ k := by
    rw [dem, if_neg (by omega), show ((n : Int) - 2).toNat = k by omega]
  have hP : Plan (n + 1) (fill n x) := by
    refine ⟨fun i hi j hj => ?_, fun i hi h1 => ?_, fun i hi => ?_, fun j hj => ?_⟩
    · rcases (show i < n ∨ i = n by omega) with h1 | h1 <;> rcases (show j < n ∨ j = n by omega) with h2 | h2
      · rw [inner i h1 j h2]; exact h.nonneg i h1 j h2
      · rw [h2, right i h1]; have := h.row i h1; omega
      · rw [h1, bottom j h2]; have := h.col j h2; omega
      · rw [h1, h2, corner]
    · rcases (show i < n ∨ i = n by omega) with h2 | rfl
      · rw [inner i h2 i h2]; exact h.diag i h2 h1
      · exact corner
    · rw [Finset.sum_range_succ]
      rcases (show i < n ∨ i = n by omega) with h2 | rfl
      · rw [rowsum i h2, right i h2]; omega
      · rw [hbottom, corner, hsup]; omega
    · rw [Finset.sum_range_succ]
      rcases (show j < n ∨ j = n by omega) with h2 | rfl
      · rw [colsum j h2, bottom j h2]; omega
      · rw [hright, corner, hdem]; omega
  have ht : total n (fill n x) = total n x := Finset.sum_congr rfl fun i hi => rowsum i (Finset.mem_range.1 hi)
  have hp : price n (fill n x) = price n x :=
    Finset.sum_congr rfl fun i hi => Finset.sum_congr rfl fun j hj => by rw [inner i (Finset.mem_range.1 hi) j (Finset.mem_range.1 hj)]
  obtain ⟨-, h2, h3, -⟩ := Plan.split hP (by omega)
  refine ⟨hP, ?_, ?_⟩
  · rw [h2, ht, hright, hbottom]; ring
  · rw [h3, hp, hright, hbottom]; ring

/-- With nothing at the last vertices. -/
def widen (n : Nat) (x : Nat → Nat → Int) (i j : Nat) : Int := if i < n ∧ j < n then x i j else 0

theorem widen_plan {n : Nat} {x : Nat → Nat → Int} (hn : n ≠ 0) (h : Plan n x) : Plan (n + 1) (widen n x) ∧
    total (n + 1) (widen n x) = total n x ∧ price (n + 1) (widen n x) = price n x := by
  have inner : ∀ i < n, ∀ j < n, widen n x i j = x i j := fun i hi j hj => by unfold widen; rw [if_pos ⟨hi, hj⟩]
  have right : ∀ i, widen n x i n = 0 := fun i => by unfold widen; rw [if_neg (by omega)]
  have bottom : ∀ j, widen n x n j = 0 := fun j => by unfold widen; rw [if_neg (by omega)]
  have hP : Plan (n + 1) (widen n x) := by
    refine ⟨fun i hi j hj => ?_, fun i hi h1 => ?_, fun i hi => ?_, fun j hj => ?_⟩
    · unfold widen; split
      · exact h.nonneg i (by omega) j (by omega)
      · exact le_refl _
    · unfold widen; split
      · exact h.diag i (by omega) h1
      · rfl
    · rw [Finset.sum_range_succ, right, add_zero]
      rcases (show i < n ∨ i = n by omega) with h2 | rfl
      · rw [Finset.sum_congr rfl fun j hj => inner i h2 j (Finset.mem_range.1 hj)]; exact h.row i h2
      · rw [Finset.sum_congr rfl fun j hj => bottom j]; simpa using sup_nonneg (by omega)
    · rw [Finset.sum_range_succ, bottom, add_zero]
      rcases (show j < n ∨ j = n by omega) with h2 | rfl
      · rw [Finset.sum_congr rfl fun i hi => inner i (Finset.mem_range.1 hi) j h2]; exact h.col j h2
      · rw [Finset.sum_congr rfl fun j hj => right j]; simpa using dem_nonneg _
  obtain ⟨-, h2, h3, -⟩ := Plan.split hP hn
  have ht : total n (widen n x) = total n x :=
    Finset.sum_congr rfl fun i hi => Finset.sum_congr rfl fun j hj => inner i (Finset.mem_range.1 hi) j (Finset.mem_range.1 hj)
  have hp : price n (widen n x) = price n x :=
    Finset.sum_congr rfl fun i hi => Finset.sum_congr rfl fun j hj => by rw [inner i (Finset.mem_range.1 hi) j (Finset.mem_range.1 hj)]
  simp only [right, bottom, Finset.sum_const_zero, add_zero, mul_zero] at h2 h3
  exact ⟨hP, by rw [h2, ht], by rw [h3, hp]⟩

/-- Two vertices on each side. -/
def small (a b c : Int) (i j : Nat) : Int := if i = 0 then if j = 0 then a else if j = 1 then b else 0 else if i = 1 ∧ j = 0 then c else 0

theorem small_plan {a b c : Int} (ha : 0 ≤ a) (hb : 0 ≤ b) (hc : 0 ≤ c) (h1 : a + b ≤ 1) (h2 : a + c ≤ 2) : Plan 2 (small a b c) ∧
    total 2 (small a b c) = a + b + c ∧ price 2 (small a b c) = b + c := by
  refine ⟨⟨fun i hi j hj => ?_, fun i hi h => ?_, fun i hi => ?_, fun j hj => ?_⟩, ?_, ?_⟩
  · rcases (show i = 0 ∨ i = 1 by omega) with rfl | rfl <;> rcases (show j = 0 ∨ j = 1 by omega) with rfl | rfl <;> simp [small] <;> omega
  · obtain rfl : i = 1 := by omega
    rfl
  · rcases (show i = 0 ∨ i = 1 by omega) with rfl | rfl <;> simp [Finset.sum_range_succ, small, sup] <;> omega
  · rcases (show j = 0 ∨ j = 1 by omega) with rfl | rfl <;> simp [Finset.sum_range_succ, small, dem] <;> omega
  · simp [total, Finset.sum_range_succ, small]
  · simp [price, Finset.sum_range_succ, small]

/-- Some plan is as cheap as that. -/
theorem primal (k : Nat) : ∀ l < 2 ^ (k + 2), ∃ x, Plan (k + 2) x ∧ total (k + 2) x = bend l ∧ price (k + 2) x = l * bend l - level l := by
  induction k with
  | zero =>
    intro l hl
    have hl4 : l = 0 ∨ l = 1 ∨ l = 2 ∨ l = 3 := by omega
    rcases hl4 with rfl | rfl | rfl | rfl
    · obtain ⟨h1, h2, h3⟩ := small_plan (a := 0) (b := 0) (c := 0) (by norm_num) (by norm_num) (by norm_num) (by norm_num) (by norm_num)
      exact ⟨_, h1, h2, by rw [h3]; simp [level, bend]⟩
    · obtain ⟨h1, h2, h3⟩ := small_plan (a := 1) (b := 0) (c := 0) (by norm_num) (by norm_num) (by norm_num) (by norm_num) (by norm_num)
      exact ⟨_, h1, h2, by rw [h3]; simp [level, bend, Finset.sum_range_succ]⟩
    · obtain ⟨h1, h2, h3⟩ := small_plan (a := 1) (b := 0) (c := 1) (by norm_num) (by norm_num) (by norm_num) (by norm_num) (by norm_num)
      exact ⟨_, h1, h2, by rw [h3]; simp [level, bend, Finset.sum_range_succ]⟩
    · obtain ⟨h1, h2, h3⟩ := small_plan (a := 0) (b := 1) (c := 2) (by norm_num) (by norm_num) (by norm_num) (by norm_num) (by norm_num)
      exact ⟨_, h1, h2, by rw [h3]; simp [level, bend, Finset.sum_range_succ]⟩
  | succ k ih =>
    intro l hl
    have hp : 2 ^ (k + 1 + 2) = 2 * 2 ^ (k + 2) := by rw [pow_succ _ (k + 2)]; ring
    have hpos : 1 ≤ 2 ^ (k + 2) := Nat.one_le_two_pow
    by_cases hlt : l < 2 ^ (k + 2)
    · obtain ⟨x, h1, h2, h3⟩ := ih l hlt
      obtain ⟨h4, h5, h6⟩ := widen_plan (by omega) h1
      exact ⟨_, h4, h5.trans h2, h6.trans h3⟩
    · obtain ⟨d, rfl⟩ : ∃ d, l = 2 ^ (k + 2) - 1 + (d + 1) := ⟨l - 2 ^ (k + 2), by omega⟩
      obtain ⟨x, h1, h2, h3⟩ := ih (2 ^ (k + 2) - 1 - d) (by omega)
      obtain ⟨h4, h5, h6⟩ := fill_plan h1
      have hb := bend_symm (k + 1) (2 ^ (k + 2) - 1 + (d + 1)) (by omega)
      rw [show 2 ^ (k + 1 + 2) - 1 - (2 ^ (k + 2) - 1 + (d + 1)) = 2 ^ (k + 2) - 1 - d by omega, pow_succ (2 : Int)] at hb
      refine ⟨_, h4, by rw [h5, h2]; linarith, ?_⟩
      rw [← add_assoc] at hb ⊢
      rw [h6, h3, h2, level_succ, level_symm k d (by omega),
        show bend (2 ^ (k + 2) - 1 + d + 1) = 2 * (5 * 2 ^ k - 1) - bend (2 ^ (k + 2) - 1 - d) by linarith, Nat.cast_sub (by omega)]
      push_cast [hpos]
      ring

end ICPC.Mc
