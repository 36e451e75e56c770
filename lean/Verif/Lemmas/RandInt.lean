import Verif.Lemmas.Rand
import Verif.Lemmas.Num
import Mathlib.Data.Set.Card
import Mathlib.Order.Interval.Finset.Nat

namespace ICPC
open ICPC.Spec

theorem rangeWidth_eq {l u : Int} (hl : I64 l) (hu : I64 u) (h : l < u) : rangeWidth l u = (u - l).toNat := by
  obtain ⟨h1, h2⟩ := hl
  obtain ⟨h3, h4⟩ := hu
  unfold rangeWidth toU64
  omega

theorem toI64_toU64_add {l : Int} {k : Nat} (hl : I64 l) (hk : l + k < 2 ^ 63) :
    toI64 ((k + toU64 l) % 2 ^ 128) = l + k ∧ toI64 ((k + toU64 l) % 2 ^ 64) = l + k := by
  obtain ⟨h1, h2⟩ := hl
  unfold toI64 toU64
  constructor <;> dsimp only <;> split <;> omega

theorem mulHigh_arith {p11 p01 p10 p00 : Nat} (b11 : p11 ≤ 18446744065119617025) (b01 : p01 ≤ 18446744065119617025)
    (b10 : p10 ≤ 18446744065119617025) (b00 : p00 ≤ 18446744065119617025) :
    ((p11 % 2 ^ 64 + ((p10 % 2 ^ 64 + p00 % 2 ^ 64 / 2 ^ 32) % 2 ^ 64 + p01 % 2 ^ 64 % 2 ^ 32) % 2 ^ 64 / 2 ^ 32) % 2 ^ 64 +
      p01 % 2 ^ 64 / 2 ^ 32) % 2 ^ 64 = (2 ^ 64 * p11 + 2 ^ 32 * p01 + 2 ^ 32 * p10 + p00) / 2 ^ 64 := by
  rw [Nat.mod_eq_of_lt (show p11 < 2 ^ 64 by omega), Nat.mod_eq_of_lt (show p01 < 2 ^ 64 by omega),
    Nat.mod_eq_of_lt (show p10 < 2 ^ 64 by omega), Nat.mod_eq_of_lt (show p00 < 2 ^ 64 by omega)]
  have e0 := Nat.div_add_mod p00 (2 ^ 32)
  have e1 := Nat.div_add_mod p01 (2 ^ 32)
  have m0 := Nat.mod_lt p00 (show 0 < 2 ^ 32 by norm_num)
  have m1 := Nat.mod_lt p01 (show 0 < 2 ^ 32 by norm_num)
  generalize p00 / 2 ^ 32 = a at *
  generalize p01 / 2 ^ 32 = c at *
  generalize p00 % 2 ^ 32 = a' at *
  generalize p01 % 2 ^ 32 = c' at *
  rw [Nat.mod_eq_of_lt (show p10 + a < 2 ^ 64 by omega), Nat.mod_eq_of_lt (show p10 + a + c' < 2 ^ 64 by omega)]
  have e2 := Nat.div_add_mod (p10 + a + c') (2 ^ 32)
  have m2 := Nat.mod_lt (p10 + a + c') (show 0 < 2 ^ 32 by norm_num)
  generalize (p10 + a + c') / 2 ^ 32 = d at *
  generalize (p10 + a + c') % 2 ^ 32 = d' at *
  have e : 2 ^ 64 * p11 + 2 ^ 32 * p01 + 2 ^ 32 * p10 + p00 = 2 ^ 64 * (p11 + d + c) + (2 ^ 32 * d' + a') := by omega
  rw [e, Nat.mul_add_div (by norm_num), Nat.div_eq_of_lt (show 2 ^ 32 * d' + a' < 2 ^ 64 by omega), Nat.add_zero]
  clear e
  rw [Nat.mod_eq_of_lt (show p11 + d < 2 ^ 64 by omega)]
  rw [Nat.mod_eq_of_lt (show p11 + d + c < 2 ^ 64 by omega)]

theorem mulHigh32_eq {x s : Nat} (hx : x < 2 ^ 64) (hs : s < 2 ^ 64) : mulHigh32 x s = x * s / 2 ^ 64 := by
  unfold mulHigh32
  have hx' := Nat.div_add_mod x (2 ^ 32)
  have hs' := Nat.div_add_mod s (2 ^ 32)
  have hx0 := Nat.mod_lt x (show 0 < 2 ^ 32 by norm_num)
  have hs0 := Nat.mod_lt s (show 0 < 2 ^ 32 by norm_num)
  have hx1 : x / 2 ^ 32 < 2 ^ 32 := by omega
  have hs1 : s / 2 ^ 32 < 2 ^ 32 := by omega
  dsimp only
  generalize x % 2 ^ 32 = x0 at *
  generalize x / 2 ^ 32 = x1 at *
  generalize s % 2 ^ 32 = y0 at *
  generalize s / 2 ^ 32 = y1 at *
  have hprod : x * s = 2 ^ 64 * (x1 * y1) + 2 ^ 32 * (x0 * y1) + 2 ^ 32 * (x1 * y0) + x0 * y0 := by
    rw [← hx', ← hs']; ring
  have b : ∀ a b : Nat, a < 2 ^ 32 → b < 2 ^ 32 → a * b ≤ 18446744065119617025 :=
    fun a b ha hb => le_trans (Nat.mul_le_mul (show a ≤ 2 ^ 32 - 1 by omega) (show b ≤ 2 ^ 32 - 1 by omega)) (by norm_num)
  rw [hprod]
  exact mulHigh_arith (b _ _ hx1 hs1) (b _ _ hx0 hs1) (b _ _ hx1 hs0) (b _ _ hx0 hs0)

/-- the value returned for an accepted word -/
theorem integerValue_eq (i128 : Bool) {l u : Int} {x : Nat} (hl : I64 l) (hu : I64 u) (h : l < u) (hx : x < 2 ^ 64) :
    integerValue i128 (toU64 l) (rangeWidth l u) x = l + (x * (u - l).toNat / 2 ^ 64 : Nat) := by
  rw [rangeWidth_eq hl hu h]
  have hs : (u - l).toNat < 2 ^ 64 := by have := hl.1; have := hu.2; omega
  have hlt : x * (u - l).toNat / 2 ^ 64 < (u - l).toNat := by
    rw [Nat.div_lt_iff_lt_mul (by norm_num), mul_comm]
    exact Nat.mul_lt_mul_of_pos_left hx (by omega)
  have hadd := toI64_toU64_add (l := l) (k := x * (u - l).toNat / 2 ^ 64) hl (by have := hu.2; omega)
  unfold integerValue
  cases i128 with
  | true => rw [if_pos rfl]; exact hadd.1
  | false => rw [if_neg (by simp), mulHigh32_eq hx hs]; exact hadd.2

theorem integerValue_range (i128 : Bool) {l u : Int} {x : Nat} (hl : I64 l) (hu : I64 u) (h : l < u) (hx : x < 2 ^ 64) :
    l ≤ integerValue i128 (toU64 l) (rangeWidth l u) x ∧ integerValue i128 (toU64 l) (rangeWidth l u) x < u := by
  rw [integerValue_eq i128 hl hu h hx]
  have hlt : x * (u - l).toNat / 2 ^ 64 < (u - l).toNat := by
    rw [Nat.div_lt_iff_lt_mul (by norm_num), mul_comm]
    exact Nat.mul_lt_mul_of_pos_left hx (by omega)
  omega

/-- the rejection test of the code, for every word: the shortcut `x * s < s` does not change it -/
def Accepted (l u : Int) (x : Nat) : Prop := ¬ x * (u - l).toNat % 2 ^ 64 < 2 ^ 64 % (u - l).toNat

theorem threshold_eq {s : Nat} (h0 : 0 < s) (hs : s < 2 ^ 64) : rejectThreshold s = 2 ^ 64 % s := by
  unfold rejectThreshold
  rw [Nat.mod_eq_of_lt (show 2 ^ 64 - s < 2 ^ 64 by omega)]
  conv_rhs => rw [show 2 ^ 64 = (2 ^ 64 - s) + s by omega]
  rw [Nat.add_mod_right]

theorem rejectLoop_spec (s t : Nat) : ∀ (ws : List Nat) (x : Nat),
    match rejectLoop s t x ws with
    | none => ∀ w ∈ x :: ws, w * s % 2 ^ 64 < t
    | some (y, rest) => ∃ pre, x :: ws = pre ++ y :: rest ∧ (∀ w ∈ pre, w * s % 2 ^ 64 < t) ∧ ¬ y * s % 2 ^ 64 < t := by
  intro ws
  induction ws with
  | nil =>
    intro x
    unfold rejectLoop
    by_cases h : x * s % 2 ^ 64 < t
    · rw [if_pos h]; simpa using h
    · rw [if_neg h]; exact ⟨[], rfl, by simp, h⟩
  | cons w ws ih =>
    intro x
    unfold rejectLoop
    by_cases h : x * s % 2 ^ 64 < t
    · rw [if_pos h]
      have := ih w
      cases hr : rejectLoop s t w ws with
      | none =>
        rw [hr] at this
        intro y hy
        rcases List.mem_cons.1 hy with rfl | hy
        · exact h
        · exact this y hy
      | some p =>
        rw [hr] at this
        obtain ⟨pre, e, h1, h2⟩ := this
        refine ⟨x :: pre, by rw [e]; rfl, fun y hy => ?_, h2⟩
        rcases List.mem_cons.1 hy with rfl | hy
        · exact h
        · exact h1 y hy
    · rw [if_neg h]
      exact ⟨[], rfl, by simp, h⟩

theorem acceptWord_spec {s : Nat} (h0 : 0 < s) (hs : s < 2 ^ 64) (words : List Nat) :
    match acceptWord s words with
    | none => ∀ w ∈ words, w * s % 2 ^ 64 < 2 ^ 64 % s
    | some (y, rest) => ∃ pre, words = pre ++ y :: rest ∧ (∀ w ∈ pre, w * s % 2 ^ 64 < 2 ^ 64 % s) ∧
        ¬ y * s % 2 ^ 64 < 2 ^ 64 % s := by
  have hmod := Nat.mod_lt (2 ^ 64) h0
  have hth := threshold_eq h0 hs
  cases words with
  | nil => unfold acceptWord; intro w hw; cases hw
  | cons x ws =>
    rw [acceptWord, hth]
    generalize 2 ^ 64 % s = t at hmod ⊢
    by_cases hx : x * s % 2 ^ 64 < s
    · rw [if_pos hx]
      exact rejectLoop_spec s t ws x
    · rw [if_neg hx]
      exact ⟨[], rfl, by simp, by omega⟩

/-- `Random::integer` uses up rejected words and returns the value of the first accepted one -/
theorem integerWords_spec (i128 : Bool) {l u : Int} (hl : I64 l) (hu : I64 u) (h : l < u) (words : List Nat) :
    (integerWords i128 l u words = none ∧ ∀ w ∈ words, ¬ Accepted l u w) ∨
    ∃ pre y rest, integerWords i128 l u words = some (.ok (integerValue i128 (toU64 l) (rangeWidth l u) y), rest) ∧
       words = pre ++ y :: rest ∧ (∀ w ∈ pre, ¬ Accepted l u w) ∧ Accepted l u y := by
  have hs0 : 0 < (u - l).toNat := by omega
  have hs : (u - l).toNat < 2 ^ 64 := by have := hl.1; have := hu.2; omega
  have hw := rangeWidth_eq hl hu h
  have hsp := acceptWord_spec hs0 hs words
  unfold integerWords Accepted
  rw [if_pos h, hw]
  cases hr : acceptWord (u - l).toNat words with
  | none =>
    rw [hr] at hsp
    left
    exact ⟨rfl, fun w hw => not_not.2 (hsp w hw)⟩
  | some p =>
    obtain ⟨y, rest⟩ := p
    rw [hr] at hsp
    obtain ⟨pre, e, h1, h2⟩ := hsp
    right
    exact ⟨pre, y, rest, rfl, e, fun w hw => not_not.2 (h1 w hw), h2⟩

/-- one word alone -/
theorem integerWords_single (i128 : Bool) {l u : Int} (hl : I64 l) (hu : I64 u) (h : l < u) (w : Nat) :
    (integerWords i128 l u [w] = none ∧ ¬ Accepted l u w) ∨
    (integerWords i128 l u [w] = some (.ok (integerValue i128 (toU64 l) (rangeWidth l u) w), []) ∧ Accepted l u w) := by
  rcases integerWords_spec i128 hl hu h [w] with ⟨h1, h2⟩ | ⟨pre, y, rest, h1, e, _, h3⟩
  · exact Or.inl ⟨h1, h2 w (by simp)⟩
  · cases pre with
    | cons a pre => simp at e
    | nil =>
      simp only [List.nil_append, List.cons.injEq] at e
      obtain ⟨rfl, rfl⟩ := e
      exact Or.inr ⟨h1, h3⟩

/-- counting the multiples of `s` in a window of length `s * q` -/
theorem card_window {W s v : Nat} (h0 : 0 < s) (hv : v < s) :
    {x : Nat | x < W ∧ ¬ x * s % W < W % s ∧ x * s / W = v}.ncard = W / s := by
  rcases Nat.eq_zero_or_pos W with hW | hW
  · subst hW; simp
  have hdm := Nat.div_add_mod W s
  have key : {x : Nat | x < W ∧ ¬ x * s % W < W % s ∧ x * s / W = v} =
      (Finset.Ico ((v * W + W % s + s - 1) / s) ((v * W + W % s + s - 1) / s + W / s) : Finset Nat) := by
    ext x
    rw [Set.mem_ofPred_eq, Finset.mem_coe, Finset.mem_Ico]
    have hxd := Nat.div_add_mod (x * s) W
    have hxm := Nat.mod_lt (x * s) hW
    have hlow : (v * W + W % s + s - 1) / s ≤ x ↔ v * W + W % s ≤ x * s := by
      constructor
      · intro h
        have h1 := Nat.lt_mul_div_succ (v * W + W % s + s - 1) h0
        have h2 := Nat.mul_le_mul_left s h
        rw [Nat.mul_add] at h1
        rw [mul_comm x s]; omega
      · intro h
        apply Nat.le_of_lt_succ
        rw [Nat.div_lt_iff_lt_mul h0, Nat.succ_mul]; omega
    have hhigh : x < (v * W + W % s + s - 1) / s + W / s ↔ x * s < v * W + W := by
      rw [← Nat.add_mul_div_left _ _ h0, ← not_le, ← not_le, not_iff_not]
      have e : v * W + W % s + s - 1 + s * (W / s) = v * W + W + s - 1 := by omega
      rw [e]
      constructor
      · intro h
        have h1 := Nat.lt_mul_div_succ (v * W + W + s - 1) h0
        have h2 := Nat.mul_le_mul_left s h
        rw [Nat.mul_add] at h1
        rw [mul_comm x s]; omega
      · intro h
        apply Nat.le_of_lt_succ
        rw [Nat.div_lt_iff_lt_mul h0, Nat.succ_mul]; omega
    rw [hlow, hhigh]
    constructor
    · rintro ⟨h1, h2, h3⟩
      rw [h3, mul_comm W v] at hxd
      omega
    · rintro ⟨h1, h2⟩
      have hdiv : x * s / W = v := by
        apply Nat.div_eq_of_lt_le
        · omega
        · rw [Nat.succ_mul]; omega
      rw [hdiv, mul_comm W v] at hxd
      refine ⟨?_, by omega, hdiv⟩
      have : x * s < W * s := by
        have h3 : (v + 1) * W ≤ s * W := Nat.mul_le_mul_right _ hv
        rw [Nat.succ_mul, mul_comm s W] at h3
        omega
      exact Nat.lt_of_mul_lt_mul_right this
  rw [key, Set.ncard_coe_finset, Nat.card_Ico, Nat.add_sub_cancel_left]

theorem rejectLoop_skip {s t x w : Nat} {ws : List Nat} (h : x * s % 2 ^ 64 < t) :
    rejectLoop s t x (w :: ws) = rejectLoop s t w ws := by
  rw [rejectLoop, if_pos h]

theorem acceptWord_skip {s w : Nat} {ws : List Nat} (h0 : 0 < s) (hs : s < 2 ^ 64)
    (hrej : w * s % 2 ^ 64 < 2 ^ 64 % s) : acceptWord s (w :: ws) = acceptWord s ws := by
  have hmod := Nat.mod_lt (2 ^ 64) h0
  have hth := threshold_eq h0 hs
  rw [acceptWord, hth]
  generalize 2 ^ 64 % s = t at hmod hrej hth ⊢
  rw [if_pos (by omega)]
  cases ws with
  | nil => rw [rejectLoop, if_pos hrej]; rfl
  | cons y ws =>
    rw [rejectLoop_skip hrej, acceptWord, hth]
    by_cases hy : y * s % 2 ^ 64 < s
    · rw [if_pos hy]
    · rw [if_neg hy]
      cases ws <;> rw [rejectLoop, if_neg (by omega)]

theorem card_rejected {W s : Nat} (h0 : 0 < s) (hs : s ≤ W) :
    {x : Nat | x < W ∧ x * s % W < W % s}.ncard = W % s := by
  have hW : 0 < W := by omega
  have hfin : ∀ P : Nat → Prop, {x : Nat | x < W ∧ P x}.Finite := fun P =>
    (Set.finite_lt_nat W).subset fun x hx => hx.1
  have hsplit : ∀ m, m ≤ s → {x : Nat | x < W ∧ ¬ x * s % W < W % s ∧ x * s / W < m}.ncard = m * (W / s) := by
    intro m
    induction m with
    | zero => intro _; simp
    | succ m ih =>
      intro hm
      have e : {x : Nat | x < W ∧ ¬ x * s % W < W % s ∧ x * s / W < m + 1} =
          {x : Nat | x < W ∧ ¬ x * s % W < W % s ∧ x * s / W < m} ∪
          {x : Nat | x < W ∧ ¬ x * s % W < W % s ∧ x * s / W = m} := by
        ext x
        simp only [Set.mem_ofPred_eq, Set.mem_union]
        omega
      rw [e, Set.ncard_union_eq ?_ (hfin _) (hfin _), ih (by omega), card_window h0 (by omega)]
      · ring
      · rw [Set.disjoint_left]
        intro x h1 h2
        simp only [Set.mem_ofPred_eq] at h1 h2
        omega
  have hall : {x : Nat | x < W ∧ ¬ x * s % W < W % s ∧ x * s / W < s} = {x : Nat | x < W ∧ ¬ x * s % W < W % s} := by
    ext x
    simp only [Set.mem_ofPred_eq]
    constructor
    · rintro ⟨h1, h2, _⟩; exact ⟨h1, h2⟩
    · rintro ⟨h1, h2⟩
      refine ⟨h1, h2, ?_⟩
      rw [Nat.div_lt_iff_lt_mul hW, mul_comm s W]
      exact Nat.mul_lt_mul_of_pos_right h1 h0
  have hacc := hsplit s (le_refl _)
  rw [hall] at hacc
  have htot : {x : Nat | x < W}.ncard = W := by
    have : {x : Nat | x < W} = (Finset.range W : Finset Nat) := by ext x; simp
    rw [this, Set.ncard_coe_finset, Finset.card_range]
  have hu : {x : Nat | x < W} = {x : Nat | x < W ∧ x * s % W < W % s} ∪ {x : Nat | x < W ∧ ¬ x * s % W < W % s} := by
    ext x
    simp only [Set.mem_ofPred_eq, Set.mem_union]
    omega
  rw [hu, Set.ncard_union_eq ?_ (hfin _) (hfin _), hacc] at htot
  · have := Nat.div_add_mod W s
    omega
  · rw [Set.disjoint_left]
    intro x h1 h2
    simp only [Set.mem_ofPred_eq] at h1 h2
    omega

theorem thueMorseBit_pair (m : Nat) : thueMorseBit (2 * m) = thueMorseBit m ∧
    thueMorseBit (2 * m + 1) = 1 - thueMorseBit m ∧ thueMorseBit m ≤ 1 := by
  induction m using Nat.strong_induction_on with
  | _ m ih =>
    have h1 : thueMorseBit (2 * m) = thueMorseBit m := by
      by_cases h : m = 0
      · subst h; rfl
      · rw [thueMorseBit, if_neg (by omega), if_pos (by omega)]; congr 1; omega
    have h2 : thueMorseBit (2 * m + 1) = 1 - thueMorseBit m := by
      rw [thueMorseBit, if_neg (by omega), if_neg (by omega)]; congr 2; omega
    refine ⟨h1, h2, ?_⟩
    by_cases h : m = 0
    · subst h; rw [thueMorseBit]; simp
    · have := ih (m / 2) (by omega)
      rcases Nat.mod_two_eq_zero_or_one m with h3 | h3
      · rw [show m = 2 * (m / 2) by omega, this.1]; exact this.2.2
      · rw [show m = 2 * (m / 2) + 1 by omega, this.2.1]; omega

theorem card_thueMorse (m : Nat) : {w : Nat | w < 2 * m ∧ thueMorseBit w = 1}.ncard = m := by
  induction m with
  | zero => simp
  | succ m ih =>
    have hp := thueMorseBit_pair m
    obtain ⟨c, hc1, hc2, hc3⟩ : ∃ c, (c = 2 * m ∨ c = 2 * m + 1) ∧ thueMorseBit c = 1 ∧
        ∀ w, (w = 2 * m ∨ w = 2 * m + 1) → thueMorseBit w = 1 → w = c := by
      by_cases h : thueMorseBit m = 1
      · refine ⟨2 * m, Or.inl rfl, by omega, ?_⟩
        rintro w (rfl | rfl) hw <;> omega
      · refine ⟨2 * m + 1, Or.inr rfl, by omega, ?_⟩
        rintro w (rfl | rfl) hw <;> omega
    have e : {w : Nat | w < 2 * (m + 1) ∧ thueMorseBit w = 1} = insert c {w : Nat | w < 2 * m ∧ thueMorseBit w = 1} := by
      ext w
      simp only [Set.mem_ofPred_eq, Set.mem_insert_iff]
      constructor
      · rintro ⟨h1, h2⟩
        by_cases h : w < 2 * m
        · exact Or.inr ⟨h, h2⟩
        · exact Or.inl (hc3 w (by omega) h2)
      · rintro (rfl | ⟨h1, h2⟩)
        · exact ⟨by omega, hc2⟩
        · exact ⟨by omega, h2⟩
    rw [e, Set.ncard_insert_of_notMem ?_ ((Set.finite_lt_nat (2 * m)).subset fun x hx => hx.1), ih]
    simp only [Set.mem_ofPred_eq]; omega

end ICPC
