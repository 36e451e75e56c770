import Verif.Model.RandGeo
import Verif.Spec.Geo
import Verif.Props.RandSeq
import Verif.Props.Distinct
import Verif.Props.Prime
import Mathlib.Data.ZMod.Basic
import Mathlib.Tactic.LinearCombination
import Mathlib.Tactic.Positivity
import Mathlib.Tactic.NormNum
import Mathlib.Tactic.FieldSimp

/-!
# C12, C14
-/

namespace ICPC.Props
open ICPC ICPC.Spec

/-! ### C12 -/

theorem toDouble_bounds {m : Nat} (h1 : 2 ^ 63 ≤ m) (h2 : m < 2 ^ 64) : 2 ^ 63 ≤ toDouble m ∧ toDouble m ≤ 2 ^ 64 := by
  unfold toDouble
  dsimp only
  split <;> omega

theorem toDouble_top {m : Nat} (h1 : 2 ^ 63 ≤ m) (h2 : m < 2 ^ 64) : toDouble m = 2 ^ 64 ↔ 2 ^ 64 - 2 ^ 10 ≤ m := by
  unfold toDouble
  dsimp only
  split <;> constructor <;> intro h <;> omega

theorem or_top {w : Nat} (h : w < 2 ^ 64) : 2 ^ 63 ≤ w ||| 2 ^ 63 ∧ w ||| 2 ^ 63 < 2 ^ 64 :=
  ⟨Nat.right_le_or, Nat.or_lt_two_pow h (by norm_num)⟩

theorem low_bits_and {x k : Nat} (h : x < 2 ^ (k + 1)) :
    (∀ i, ((2 ^ (k + 1) - (x + 1)) &&& ((x + (2 ^ (k + 1) - 1)) % 2 ^ (k + 1))).testBit i = false) ↔ x % 2 = 1 := by
  have hpos := Nat.two_pow_pos k
  constructor
  · intro hall
    by_contra hx
    have h0 := hall 0
    rw [Nat.testBit_and, Nat.testBit_zero, Nat.testBit_zero, Bool.and_eq_false_iff] at h0
    rcases h0 with h0 | h0
    · have := of_decide_eq_false h0
      omega
    · have := of_decide_eq_false h0
      rcases Nat.eq_zero_or_pos x with rfl | hp
      · rw [Nat.zero_add, Nat.mod_eq_of_lt (b := 2 ^ (k + 1)) (by omega)] at this
        omega
      · rw [show x + (2 ^ (k + 1) - 1) = x - 1 + 2 ^ (k + 1) by omega, Nat.add_mod_right, Nat.mod_eq_of_lt (b := 2 ^ (k + 1)) (by omega)] at this
        omega
  · intro hx i
    rw [Nat.testBit_and, show x + (2 ^ (k + 1) - 1) = x - 1 + 2 ^ (k + 1) by omega, Nat.add_mod_right, Nat.mod_eq_of_lt (by omega)]
    rcases Nat.eq_zero_or_pos i with rfl | hpos
    · rw [Nat.testBit_zero (x - 1), decide_eq_false (by omega), Bool.and_false]
    · obtain ⟨j, rfl⟩ : ∃ j, i = j + 1 := ⟨i - 1, by omega⟩
      rw [Nat.testBit_succ, Nat.testBit_succ, show (x - 1) / 2 = x / 2 by omega,
        show (2 ^ (k + 1) - (x + 1)) / 2 = 2 ^ k - (x / 2 + 1) by omega, Nat.testBit_two_pow_sub_succ (by omega)]
      cases (x / 2).testBit j <;> simp

/-- A word has no trailing zero bits iff it is odd. -/
theorem trailingZeros_eq_zero {x : Nat} (h : x < 2 ^ 64) : trailingZeros x = 0 ↔ x % 2 = 1 := by
  rw [← low_bits_and (k := 63) h]
  unfold trailingZeros popcount64
  rw [show 2 ^ 64 - 1 - x = 2 ^ (63 + 1) - (x + 1) by omega, show x + 2 ^ 64 - 1 = x + (2 ^ (63 + 1) - 1) by omega,
    List.countP_eq_zero]
  constructor
  · intro hall i
    by_cases hi : i < 64
    · exact Bool.eq_false_iff.2 (hall i (List.mem_range.2 hi))
    · refine Nat.testBit_lt_two_pow (Nat.lt_of_le_of_lt Nat.and_le_left (Nat.lt_of_lt_of_le (m := 2 ^ (63 + 1)) ?_ ?_))
      · omega
      · exact Nat.pow_le_pow_right (by norm_num) (by omega)
  · intro hall i _
    exact Bool.eq_false_iff.1 (hall i)

/-- Number of binary digits after the point contributed by the exponent loop: a run of zero words counts 64 each. -/
theorem exponentLoop_zero {ws ws' : List Nat} {e : Nat} (hw : ∀ w ∈ ws, w < 2 ^ 64) (h : exponentLoop ws = some (e, ws')) :
    e = 0 ↔ ∃ x, ws = x :: ws' ∧ x % 2 = 1 := by
  cases ws with
  | nil => simp [exponentLoop] at h
  | cons x t =>
    unfold exponentLoop at h
    split at h
    · rename_i hx
      rw [Option.map_eq_some_iff] at h
      obtain ⟨p, _, hp⟩ := h
      have h64 : trailingZeros 0 = 64 := by decide +kernel
      rw [h64] at hp
      injection hp with hp1 hp2
      constructor
      · intro h; omega
      · rintro ⟨y, hy, hodd⟩
        injection hy with hy1 _
        subst hy1; omega
    · injection h with h
      injection h with h1 h2
      subst h1 h2
      rw [trailingZeros_eq_zero (hw x (by simp))]
      constructor
      · intro h; exact ⟨x, rfl, h⟩
      · rintro ⟨y, hy, hodd⟩
        injection hy with hy1 _
        subst hy1; exact hodd

/-- **C12.** Whatever words the engine delivers, the value is positive and at most 1, and it is 1 exactly if
the second word is odd and the first one has its low 63 bits at least `2^63 - 1024`.  The documented claim is
that the value is below 1. -/
theorem C12_real_partial (w : Nat) (ws rest : List Nat) (v : ℚ) (hw : ∀ x ∈ w :: ws, x < 2 ^ 64)
    (h : realWords (w :: ws) = some (v, rest)) :
    0 < v ∧ v ≤ 1 ∧ (v = 1 ↔ 2 ^ 63 - 1024 ≤ w % 2 ^ 63 ∧ ∃ x, ws = x :: rest ∧ x % 2 = 1) := by
  unfold realWords at h
  rw [Option.map_eq_some_iff] at h
  obtain ⟨⟨e, r⟩, he, hv⟩ := h
  injection hv with hv hr
  dsimp only at hv hr
  subst hr
  have hwl : w < 2 ^ 64 := hw w (by simp)
  obtain ⟨m1, m2⟩ := or_top hwl
  obtain ⟨b1, b2⟩ := toDouble_bounds m1 m2
  have hz := exponentLoop_zero (fun x hx => hw x (by simp [hx])) he
  have hmod : 2 ^ 64 - 2 ^ 10 ≤ w ||| 2 ^ 63 ↔ 2 ^ 63 - 1024 ≤ w % 2 ^ 63 := by
    have hor : w ||| 2 ^ 63 = 2 ^ 63 + w % 2 ^ 63 := by
      by_cases hlt : w < 2 ^ 63
      · rw [Nat.or_two_pow_eq_add_of_lt hlt, Nat.mod_eq_of_lt hlt, Nat.add_comm]
      · have hw' : w = 2 ^ 63 * 1 + w % 2 ^ 63 := by omega
        have h2 := Nat.two_pow_add_eq_or_of_lt (b := w % 2 ^ 63) (i := 63) (by omega) 1
        rw [← hw', Nat.mul_one] at h2
        conv_lhs => rw [h2]
        rw [Nat.or_comm, ← Nat.or_assoc, Nat.or_self, ← h2]
        omega
    rw [hor]; omega
  have htop := toDouble_top m1 m2
  rw [← hmod, ← htop, ← hz, ← hv]
  generalize toDouble (w ||| 2 ^ 63) = d at *
  have hd1 : (0 : ℚ) < d := by
    have : 0 < d := by omega
    exact_mod_cast this
  have hd2 : (d : ℚ) ≤ 2 ^ 64 := by exact_mod_cast b2
  have hp : (1 : ℚ) ≤ 2 ^ e := one_le_pow₀ (by norm_num)
  have hpos : (0 : ℚ) < 2 ^ (64 + e) := by positivity
  refine ⟨div_pos hd1 hpos, ?_, ?_⟩
  · rw [div_le_one hpos, pow_add]
    nlinarith
  · rw [div_eq_one_iff_eq hpos.ne']
    constructor
    · intro h
      have h' : d = 2 ^ (64 + e) := by exact_mod_cast h
      have : e = 0 := by
        by_contra hne
        have : 2 ^ 65 ≤ 2 ^ (64 + e) := Nat.pow_le_pow_right (by norm_num) (by omega)
        omega
      subst this
      exact ⟨h', rfl⟩
    · rintro ⟨rfl, rfl⟩
      norm_num

/-- The documented strict bound fails: a first word of all ones followed by an odd word gives exactly 1. -/
theorem C12_one_refuted : realWords [2 ^ 64 - 1, 1] = some (1, []) := by decide +kernel

example : realWords [0, 0, 4] = some (1 / 2 ^ 67, []) := by decide +kernel

/-! ### C14 -/

theorem chk_mk {x : Int} (h1 : -9223372036854775808 ≤ x) (h2 : x < 9223372036854775808) : chk x = .ok x :=
  chk_ok (i64_mk h1 h2)

theorem hornerStep_ok {p x y add : Int} (hp : p < 2 ^ 31) (hx : 0 ≤ x ∧ x < p) (hy : 0 ≤ y ∧ y < p) (ha : 0 ≤ add ∧ add < p) :
    hornerStep p x y add = .ok ((y * x + add) % p) := by
  have h1 : 0 ≤ y * x := Int.mul_nonneg hy.1 hx.1
  have h2 : y * x ≤ (2 ^ 31) * (2 ^ 31) := Int.mul_le_mul (by omega) (by omega) hx.1 (by norm_num)
  unfold hornerStep
  rw [chk_mk (by omega) (by omega), ok_bind, chk_mk (by omega) (by omega), ok_bind, if_neg (by omega),
    Int.tmod_eq_emod_of_nonneg (by omega)]

/-- The drawn values are in their ranges. -/
structure NCValid (dim : Int) (q : NCParams) : Prop where
  hp1 : 1 < q.p
  hp2 : q.p < 2 ^ 31
  hA : 0 ≤ q.rotA ∧ q.rotA < q.p
  hB : 0 ≤ q.rotB ∧ q.rotB < q.p
  ha : 1 ≤ q.a ∧ q.a < q.p
  hb : 0 ≤ q.b ∧ q.b < q.p
  hc : 0 ≤ q.c ∧ q.c < q.p
  hdim : dim < 2 ^ 31
  hdx : -dim + 1 ≤ q.dx ∧ q.dx < dim - q.p
  hdy : -dim + 1 ≤ q.dy ∧ q.dy < dim - q.p

/-- The ordinate computed by the three Horner steps. -/
def ncY (q : NCParams) (x : Int) : Int := ((((0 * x + q.a) % q.p) * x + q.b) % q.p * x + q.c) % q.p

theorem ncPoint_ok {dim : Int} {q : NCParams} (v : NCValid dim q) {x : Int} (hx : 0 ≤ x ∧ x < q.p) :
    ncPoint q x = .ok ((x * q.rotA - ncY q x * q.rotB) % q.p + q.dx, (x * q.rotB + ncY q x * q.rotA) % q.p + q.dy) := by
  obtain ⟨hp1, hp2, hA, hB, ha, hb, hc, hdim, hdx, hdy⟩ := v
  have hmod : ∀ z : Int, 0 ≤ z % q.p ∧ z % q.p < q.p := fun z => ⟨Int.emod_nonneg _ (by omega), Int.emod_lt_of_pos _ (by omega)⟩
  unfold ncPoint
  rw [hornerStep_ok hp2 hx ⟨by omega, by omega⟩ ⟨by omega, ha.2⟩, ok_bind, hornerStep_ok hp2 hx (hmod _) hb, ok_bind,
    hornerStep_ok hp2 hx (hmod _) hc, ok_bind]
  change (chk (x * q.rotA) >>= _) = _
  have hy : 0 ≤ ncY q x ∧ ncY q x < q.p := hmod _
  change _ = Except.ok ((x * q.rotA - ncY q x * q.rotB) % q.p + q.dx, (x * q.rotB + ncY q x * q.rotA) % q.p + q.dy)
  have hfold : ((((0 * x + q.a) % q.p) * x + q.b) % q.p * x + q.c) % q.p = ncY q x := rfl
  rw [hfold]
  generalize ncY q x = y at *
  have prod : ∀ u w : Int, 0 ≤ u ∧ u < q.p → 0 ≤ w ∧ w < q.p → 0 ≤ u * w ∧ u * w ≤ 4611686018427387904 / 2 * 2 := by
    intro u w hu hw
    refine ⟨Int.mul_nonneg hu.1 hw.1, ?_⟩
    have : u * w ≤ (2 ^ 31) * (2 ^ 31) := Int.mul_le_mul (by omega) (by omega) hw.1 (by norm_num)
    omega
  have p1 := prod _ _ hx hA
  have p2 := prod _ _ hy hB
  have p3 := prod _ _ hx hB
  have p4 := prod _ _ hy hA
  have m1 := hmod (x * q.rotA - y * q.rotB)
  have m2 := hmod (x * q.rotB + y * q.rotA)
  have hlt : x * q.rotB + y * q.rotA < 9223372036854775808 := by
    have : x * q.rotB ≤ (2 ^ 31 - 1) * (2 ^ 31 - 1) := Int.mul_le_mul (by omega) (by omega) hB.1 (by norm_num)
    omega
  rw [chk_mk (by omega) (by omega), ok_bind, chk_mk (by omega) (by omega), ok_bind, chk_mk (by omega) (by omega), ok_bind,
    chk_mk (by omega) (by omega), ok_bind, chk_mk (by omega) (by omega), ok_bind, chk_mk (by omega) hlt, ok_bind,
    applyMod_eq _ _ (by omega), applyMod_eq _ _ (by omega), chk_mk (by omega) (by omega), ok_bind,
    chk_mk (by omega) (by omega), ok_bind]

/-- The point of an abscissa. -/
def ncPt (q : NCParams) (x : Int) : Int × Int :=
  ((x * q.rotA - ncY q x * q.rotB) % q.p + q.dx, (x * q.rotB + ncY q x * q.rotA) % q.p + q.dy)

theorem ncPoints_ok {dim : Int} {q : NCParams} (v : NCValid dim q) : ∀ xs : List Int, (∀ x ∈ xs, 0 ≤ x ∧ x < q.p) →
    ncPoints q xs = .ok (xs.map (ncPt q)) := by
  intro xs
  induction xs with
  | nil => intro _; rfl
  | cons x xs ih =>
    intro h
    unfold ncPoints
    rw [ncPoint_ok v (h x (by simp)), ok_bind, ih (fun y hy => h y (by simp [hy])), ok_bind]
    rfl

theorem ncPt_box {dim : Int} {q : NCParams} (v : NCValid dim q) (x : Int) :
    (-dim < (ncPt q x).1 ∧ (ncPt q x).1 < dim) ∧ -dim < (ncPt q x).2 ∧ (ncPt q x).2 < dim := by
  obtain ⟨hp1, hp2, hA, hB, ha, hb, hc, hdim, hdx, hdy⟩ := v
  have hmod : ∀ z : Int, 0 ≤ z % q.p ∧ z % q.p < q.p := fun z => ⟨Int.emod_nonneg _ (by omega), Int.emod_lt_of_pos _ (by omega)⟩
  have m1 := hmod (x * q.rotA - ncY q x * q.rotB)
  have m2 := hmod (x * q.rotB + ncY q x * q.rotA)
  unfold ncPt
  dsimp only
  omega

section
variable {q : NCParams} {P : Nat} (hP : q.p = P)
include hP

theorem cast_mod (z : Int) : ((z % q.p : Int) : ZMod P) = (z : ZMod P) := by
  rw [hP]
  exact ZMod.intCast_mod z P

theorem cast_ncY (x : Int) : ((ncY q x : Int) : ZMod P) = q.a * x * x + q.b * x + q.c := by
  unfold ncY
  rw [cast_mod hP]
  push_cast
  rw [cast_mod hP]
  push_cast
  rw [cast_mod hP]
  push_cast
  ring

theorem cast_ncPt1 (x : Int) : (((ncPt q x).1 : Int) : ZMod P) = x * q.rotA - (q.a * x * x + q.b * x + q.c) * q.rotB + q.dx := by
  unfold ncPt
  push_cast
  rw [cast_mod hP]
  push_cast
  rw [cast_ncY hP]

theorem cast_ncPt2 (x : Int) : (((ncPt q x).2 : Int) : ZMod P) = x * q.rotB + (q.a * x * x + q.b * x + q.c) * q.rotA + q.dy := by
  unfold ncPt
  push_cast
  rw [cast_mod hP]
  push_cast
  rw [cast_ncY hP]

theorem cast_ne {x y : Int} (hx : 0 ≤ x ∧ x < q.p) (hy : 0 ≤ y ∧ y < q.p) (hne : x ≠ y) : (x : ZMod P) - y ≠ 0 := by
  intro h
  rw [← Int.cast_sub, ZMod.intCast_zmod_eq_zero_iff_dvd, ← hP] at h
  rcases lt_trichotomy x y with h1 | h1 | h1
  · have := Int.le_of_dvd (by omega) ((Int.dvd_neg).2 h); omega
  · exact hne h1
  · have := Int.le_of_dvd (by omega) h; omega

theorem ncPt_turn (x y z : Int) : ((turn (ncPt q x) (ncPt q y) (ncPt q z) : Int) : ZMod P) =
    (q.rotA * q.rotA + q.rotB * q.rotB) * q.a * (((y : ZMod P) - x) * (z - x) * (z - y)) := by
  unfold turn
  push_cast
  rw [cast_ncPt1 hP, cast_ncPt1 hP, cast_ncPt1 hP, cast_ncPt2 hP, cast_ncPt2 hP, cast_ncPt2 hP]
  ring
end

/-- The general position of the points of a regular rotation. -/
theorem nc_general {dim : Int} {q : NCParams} (v : NCValid dim q) (hprime : Nat.Prime q.p.toNat)
    (hreg : ¬ q.p ∣ q.rotA * q.rotA + q.rotB * q.rotB) (xs : List Int) (hx : ∀ x ∈ xs, 0 ≤ x ∧ x < q.p)
    (hd : AllDifferent xs) : GeneralPosition (xs.map (ncPt q)) := by
  have hP : q.p = (q.p.toNat : Nat) := by have := v.hp1; omega
  generalize hPn : q.p.toNat = P at *
  have : Fact P.Prime := ⟨hprime⟩
  have hreg' : (q.rotA * q.rotA + q.rotB * q.rotB : ZMod P) ≠ 0 := by
    intro h
    apply hreg
    rw [hP, ← ZMod.intCast_zmod_eq_zero_iff_dvd]
    push_cast
    exact h
  have ha' : (q.a : ZMod P) ≠ 0 := by
    have := cast_ne hP (x := q.a) (y := 0) ⟨by have := v.ha; omega, v.ha.2⟩ ⟨le_rfl, by have := v.hp1; omega⟩ (by have := v.ha; omega)
    simpa using this
  have hnd := nodup_of_allDifferent hd
  have hne : ∀ i j (hi : i < xs.length) (hj : j < xs.length), i < j → (xs[j] : ZMod P) - xs[i] ≠ 0 := by
    intro i j hi hj hij
    apply cast_ne hP (hx _ (List.getElem_mem _)) (hx _ (List.getElem_mem _))
    intro h
    have := (hnd.getElem_inj_iff).1 h
    omega
  constructor
  · intro i j hi hj hij h
    rw [List.length_map] at hi hj
    rw [List.getElem_map, List.getElem_map] at h
    have h1 := congrArg (fun t : Int × Int => (t.1 : ZMod P)) h
    have h2 := congrArg (fun t : Int × Int => (t.2 : ZMod P)) h
    rw [cast_ncPt1 hP, cast_ncPt1 hP] at h1
    rw [cast_ncPt2 hP, cast_ncPt2 hP] at h2
    apply mul_ne_zero hreg' (hne i j hi hj hij)
    linear_combination (-(q.rotA : ZMod P)) * h1 - (q.rotB : ZMod P) * h2
  · intro i j k hi hj hk hij hjk h
    rw [List.length_map] at hi hj hk
    rw [List.getElem_map, List.getElem_map, List.getElem_map] at h
    have h1 := congrArg (fun t : Int => (t : ZMod P)) h
    rw [ncPt_turn hP] at h1
    push_cast at h1
    exact mul_ne_zero (mul_ne_zero hreg' ha') (mul_ne_zero (mul_ne_zero (hne i j hi hj hij) (hne i k hi hk (by omega))) (hne j k hj hk hjk)) h1

theorem rotLoop_sat {p : Int} (hp : 0 < p) (hp64 : I64 p) : ∀ n, Sat (rotLoop p n) fun o => o = .error .fuel ∨
    ∃ r, o = .ok r ∧ (0 ≤ r.1 ∧ r.1 < p) ∧ (0 ≤ r.2 ∧ r.2 < p) ∧ ¬ (r.1 = 0 ∧ r.2 = 0) := by
  intro n
  induction n with
  | zero => exact Or.inl rfl
  | succ n ih =>
    unfold rotLoop
    apply sat_integer_bind i64_zero hp64 hp
    intro a h1 h2
    apply sat_integer_bind i64_zero hp64 hp
    intro b h3 h4
    split
    · exact ih
    · rename_i h
      exact Or.inr ⟨(a, b), rfl, ⟨h1, h2⟩, ⟨h3, h4⟩, h⟩

theorem isPrime_gt_one (i128 : Bool) {p : Int} (h : isPrime i128 p = true) : 1 < p := by
  by_contra hc
  have := ((isPrime_small i128 p (by omega)).1 h).2.two_le
  omega

/-- What the random part delivers, and in which ways it can stop without a value. -/
theorem ncDraw_sat (i128 : Bool) (fuel : Nat) (n dim : Int) (h0 : 0 ≤ n) (hn : n < dim) (hd : dim ≤ 0x1FFFFFFF) :
    Sat (ncDraw i128 fuel n dim) fun o => o = .error .throw ∨ o = .error .fuel ∨
      ∃ q, o = .ok q ∧ NCValid dim q ∧ isPrime i128 q.p = true ∧ q.p < 2 * dim - 1 ∧ q.xs.length = n.toNat ∧
        AllDifferent q.xs ∧ ∀ x ∈ q.xs, 0 ≤ x ∧ x < q.p := by
  unfold ncDraw
  rw [decide_eq_true hd, decide_eq_true (show n ≥ 0 from h0), decide_eq_true (show dim > n from hn), judgeAssert_true,
    Rand.lift_ok, Rand.bind_done_ok, Rand.bind_done_ok, Rand.bind_done_ok]
  refine Sat.bind (C13_prime_partial i128 (dim - 1) (2 * dim + 2) (i64_mk (by omega) (by omega)) (i64_mk (by omega) (by omega))
    (by omega) (i64_mk (by omega) (by omega)) (by omega)) ?_ ?_
  · intro p hp
    rcases hp with hp | ⟨p', e, hp1, hp2, hpr⟩
    · cases hp
    cases e
    have hgt := isPrime_gt_one i128 hpr
    have hp64 : I64 p := i64_mk (by omega) (by omega)
    refine Sat.bind (rotLoop_sat (p := p) (by omega) hp64 fuel) ?_ ?_
    · intro r hr
      rcases hr with hr | ⟨r', e, hA, hB, hne⟩
      · cases hr
      cases e
      apply sat_integer_bind i64_one hp64 hgt
      intro a ha1 ha2
      apply sat_integer_bind i64_zero hp64 (by omega)
      intro b hb1 hb2
      apply sat_integer_bind i64_zero hp64 (by omega)
      intro c hc1 hc2
      by_cases hlt : -dim + 1 < dim - p
      · have h64a : I64 (-dim + 1) := i64_mk (by omega) (by omega)
        have h64b : I64 (dim - p) := i64_mk (by omega) (by omega)
        apply sat_integer_bind h64a h64b hlt
        intro dx hx1 hx2
        apply sat_integer_bind h64a h64b hlt
        intro dy hy1 hy2
        refine SatOk.bind (C04_distinct n 0 p i64_zero hp64 h0 (by omega)) ?_
        rintro xs ⟨l1, l2, l3⟩
        exact Or.inr (Or.inr ⟨_, rfl, ⟨hgt, by dsimp only; omega, hA, hB, ⟨ha1, ha2⟩, ⟨hb1, hb2⟩, ⟨hc1, hc2⟩, by omega, ⟨hx1, hx2⟩, ⟨hy1, hy2⟩⟩, hpr,
          by dsimp only; omega, l1, l2, l3⟩)
      · rw [integer_throw (i64_mk (by omega) (by omega)) (i64_mk (by omega) (by omega)) hlt]
        exact Or.inl rfl
    · intro e he
      rcases he with he | ⟨_, he, _⟩
      · cases he; exact Or.inr (Or.inl rfl)
      · cases he
  · intro e he
    rcases he with he | ⟨_, he, _⟩
    · cases he; exact Or.inl rfl
    · cases he

/-- **C14.** For all documented arguments a call throws, keeps drawing the zero rotation, or returns `n` points
with coordinates strictly between `-dim` and `dim`; no computation overflows. -/
theorem C14_box (i128 : Bool) (fuel : Nat) (n dim : Int) (h0 : 0 ≤ n) (hn : n < dim) (hd : dim ≤ 0x1FFFFFFF) :
    Sat (nonCollinearPoints i128 fuel n dim) fun o => o = .error .throw ∨ o = .error .fuel ∨
      ∃ pts, o = .ok pts ∧ pts.length = n.toNat ∧ ∀ pt ∈ pts, (-dim < pt.1 ∧ pt.1 < dim) ∧ -dim < pt.2 ∧ pt.2 < dim := by
  unfold nonCollinearPoints
  refine Sat.bind (ncDraw_sat i128 fuel n dim h0 hn hd) ?_ ?_
  · intro q hq
    rcases hq with hq | hq | ⟨q', e, v, _, _, hl, _, hx⟩
    · cases hq
    · cases hq
    cases e
    rw [ncPoints_ok v q.xs hx]
    refine Or.inr (Or.inr ⟨_, rfl, by rw [List.length_map, hl], ?_⟩)
    intro pt hpt
    obtain ⟨x, _, rfl⟩ := List.mem_map.1 hpt
    exact ncPt_box v x
  · intro e he
    rcases he with he | he | ⟨_, he, _⟩
    · cases he; exact Or.inl rfl
    · cases he; exact Or.inr (Or.inl rfl)
    · cases he

/-- **C14.** For all documented arguments, whenever the drawn modulus `p` is a prime (which `isPrime` guarantees
below 2^27, C27) that does not divide `rotA² + rotB²`, the returned points are different and no three of them
are collinear.  Missing from the full claim: the case of a singular rotation, where it is false
(`C14_duplicates_refuted`), and the prime certificate for large `dim`. -/
theorem C14_general_position_partial (i128 : Bool) (fuel : Nat) (n dim : Int) (h0 : 0 ≤ n) (hn : n < dim) (hd : dim ≤ 0x1FFFFFFF) :
    Sat (do
        let q ← ncDraw i128 fuel n dim
        let pts ← Rand.lift (ncPoints q q.xs)
        pure (q, pts)) fun o =>
      ∀ q pts, o = .ok (q, pts) → (dim ≤ 67108863 ∨ Nat.Prime q.p.toNat) →
        ¬ q.p ∣ q.rotA * q.rotA + q.rotB * q.rotB → GeneralPosition pts := by
  refine Sat.bind (ncDraw_sat i128 fuel n dim h0 hn hd) ?_ ?_
  · intro q hq
    rcases hq with hq | hq | ⟨q', e, v, hp, hlt, hl, hd', hx⟩
    · cases hq
    · cases hq
    cases e
    rw [ncPoints_ok v q.xs hx]
    intro q' pts e hprime hreg
    cases e
    refine nc_general v ?_ hreg q.xs hx hd'
    rcases hprime with h | h
    · exact ((C27_exact_below_partial i128 q.p (i64_mk (by have := v.hp1; omega) (by omega)) (by omega)).1 hp).2
    · exact h
  · intro e he q pts h
    cases h

/-- The program of `C14_general_position_partial` is `nonCollinearPoints` that also shows its draws. -/
theorem C14_draws (i128 : Bool) (fuel : Nat) (n dim : Int) :
    nonCollinearPoints i128 fuel n dim = (do
        let q ← ncDraw i128 fuel n dim
        let pts ← Rand.lift (ncPoints q q.xs)
        pure (q, pts)) >>= fun r => pure r.2 := by
  unfold nonCollinearPoints
  rw [Rand.bind_assoc]
  congr 1
  funext q
  rw [Rand.bind_assoc]
  cases ncPoints q q.xs <;> rfl

/-- A singular rotation (`p = 5`, `rotA = 1`, `rotB = 2`): two of the three points coincide. -/
theorem C14_duplicates_refuted : (nonCollinearPoints true 5 3 4).run true [4611686018427387905, 3689348814741910324,
    7378697629483820647, 1, 1, 1, 1, 1, 1, 4611686018427387905, 12297829382473034411] =
    some (.ok [(-3, -3), (1, 0), (1, 0)], []) := by decide +kernel

/-- A prime of at least `2 dim - 1` leaves no offset: the call throws although its arguments are as documented. -/
theorem C14_throws_refuted : (nonCollinearPoints true 5 3 4).run true [2 ^ 63 + 1, 3689348814741910324,
    7378697629483820647, 3, 3, 3] = some (.error .throw, []) := by decide +kernel

example : (nonCollinearPoints true 5 3 4).run true [4611686018427387905, 3689348814741910324, 3689348814741910324,
    1, 1, 1, 1, 1, 1, 4611686018427387905, 12297829382473034411] = some (.ok [(-3, -3), (-3, -1), (0, -2)], []) := by
  decide +kernel

end ICPC.Props
