import Verif.Props.Distinct
import Verif.Props.Prime
import Verif.Lemmas.RandInt
import Verif.Lemmas.Primes
import Mathlib.Data.List.Permutation
import Mathlib.Data.Nat.Choose.Basic
import Mathlib.Data.List.FinRange

/-!
# C08, C10, C11, C13, C15, C16: random sequences
-/

namespace ICPC.Props
open ICPC ICPC.Spec

/-! ### C15 -/

theorem multipleLoop_sat {lower upper : Int} (hl : I64 lower) (hu : I64 upper) (h : lower < upper) : ∀ n : Nat,
    SatOk (multipleLoop lower upper n) fun res => res.length = n ∧ ∀ y ∈ res, lower ≤ y ∧ y < upper := by
  intro n
  induction n with
  | zero => exact satOk_done ⟨rfl, by simp⟩
  | succ n ih =>
    unfold multipleLoop
    apply sat_integer_bind hl hu h
    intro x h1 h2
    refine SatOk.bind ih fun rest hr => ?_
    refine satOk_done ⟨by simp [hr.1], fun y hy => ?_⟩
    rcases List.mem_cons.1 hy with rfl | hy
    · exact ⟨h1, h2⟩
    · exact hr.2 y hy

theorem multipleLoop_prob {lower upper : Int} (hl : I64 lower) (hu : I64 upper) : ∀ (n : Nat) (t : List Int),
    t.length = n → (∀ y ∈ t, lower ≤ y ∧ y < upper) →
    prob (multipleLoop lower upper n) t = 1 / ((upper - lower : Int) : ℚ) ^ n := by
  intro n
  induction n with
  | zero =>
    intro t ht _
    rw [List.length_eq_zero_iff.1 ht]
    show prob (.done (.ok [])) [] = _
    rw [prob_done]; simp
  | succ n ih =>
    intro t ht hr
    cases t with
    | nil => simp at ht
    | cons a t =>
      unfold multipleLoop
      rw [pow_succ, ← div_div]
      refine prob_integer_unique hl hu (hr a (by simp)).1 (hr a (by simp)).2 ?_ ?_
      · rw [prob_bind_cons, if_pos rfl]
        exact ih t (by simpa using ht) fun y hy => hr y (by simp [hy])
      · intro w _ _ hne
        rw [prob_bind_cons, if_neg hne]

/-- **C15.** `Random::multiple(count, lower, upper)` returns `count` values of `[lower, upper)`. -/
theorem C15_multiple (count lower upper : Int) (h0 : 0 ≤ count) (hl : I64 lower) (hu : I64 upper) (h : lower < upper) :
    SatOk (multiple count lower upper) fun res => res.length = count.toNat ∧ ∀ y ∈ res, lower ≤ y ∧ y < upper := by
  unfold multiple
  rw [if_neg (by omega)]
  exact multipleLoop_sat hl hu h _

/-- **C15.** All sequences of `count` values of `[lower, upper)` are equally likely. -/
theorem C15_multiple_uniform (count lower upper : Int) (h0 : 0 ≤ count) (hl : I64 lower) (hu : I64 upper)
    (t : List Int) (ht : t.length = count.toNat) (hr : ∀ y ∈ t, lower ≤ y ∧ y < upper) :
    prob (multiple count lower upper) t = 1 / ((upper - lower : Int) : ℚ) ^ count.toNat := by
  unfold multiple
  rw [if_neg (by omega)]
  exact multipleLoop_prob hl hu _ t ht hr

theorem select_unfold {α : Type} {l : List α} (h : 0 < l.length) :
    select l = integer 0 l.length >>= fun i =>
      match l[i.toNat]? with
      | some a => pure a
      | none => .done (.error .ub) := by
  unfold select
  rw [decide_eq_true h, judgeAssert_true, Rand.lift_ok, Rand.bind_done_ok]
  congr 1

/-- **C15.** `Random::select` of a non-empty range returns one of its elements (never out of bounds). -/
theorem C15_select {α : Type} (l : List α) (h : 0 < l.length) (hlen : l.length < 2 ^ 63) :
    SatOk (select l) fun a => a ∈ l := by
  rw [select_unfold h]
  apply sat_integer_bind i64_zero (i64_nat hlen) (by omega)
  intro i h1 h2
  have hi : i.toNat < l.length := by omega
  rw [List.getElem?_eq_getElem hi]
  exact satOk_done (List.getElem_mem hi)

theorem C15_select_empty_throws {α : Type} : (select ([] : List α)) = .done (.error .throw) := rfl

/-- **C15.** Every position of the range is equally likely: an element is selected with probability
(number of its occurrences) / (length). -/
theorem C15_select_uniform {α : Type} [DecidableEq α] (l : List α) (h : 0 < l.length) (hlen : l.length < 2 ^ 63) (a : α) :
    prob (select l) a = (l.count a : ℚ) / (l.length : ℚ) := by
  rw [select_unfold h, prob_bind, expect_integer i64_zero (i64_nat hlen) (by omega)]
  congr 1
  · have e : ∀ v ∈ Finset.Ico (0 : Int) (l.length : Int), prob (match l[v.toNat]? with
      | some a => pure a
      | none => (.done (.error .ub) : Rand α)) a = if l[v.toNat]? = some a then 1 else 0 := by
      intro v hv
      rw [Finset.mem_Ico] at hv
      have hi : v.toNat < l.length := by omega
      rw [List.getElem?_eq_getElem hi]
      show prob (.done (.ok _)) a = _
      rw [prob_done]
      simp
    rw [Finset.sum_congr rfl e]
    clear e h hlen
    have himg : Finset.Ico (0 : Int) (l.length : Int) = (Finset.range l.length).image (fun i : Nat => (i : Int)) := by
      ext v
      simp only [Finset.mem_Ico, Finset.mem_image, Finset.mem_range]
      constructor
      · rintro ⟨h1, h2⟩; exact ⟨v.toNat, by omega, by omega⟩
      · rintro ⟨i, h1, rfl⟩; omega
    rw [himg, Finset.sum_image (by intro a _ b _ h; simpa using h)]
    simp only [Int.toNat_natCast]
    clear himg
    induction l with
    | nil => simp
    | cons b l ih =>
      rw [List.length_cons, Finset.sum_range_succ', List.count_cons]
      simp only [List.getElem?_cons_succ, List.getElem?_cons_zero]
      rw [ih]
      push_cast
      congr 1
      simp

/-- **C15.** `select` of a pair returns either component with probability 1/2. -/
theorem C15_selectPair_uniform {α : Type} [DecidableEq α] (x y : α) (a : α) :
    prob (selectPair (x, y)) a = ((if x = a then 1 else 0) + (if y = a then 1 else 0)) / 2 := by
  show (prob (.done (.ok y)) a + prob (.done (.ok x)) a) / 2 = _
  rw [prob_done, prob_done, add_comm]

example : prob (selectPair (3, 5)) 5 = 1 / 2 := by rw [C15_selectPair_uniform]; norm_num

/-- **C15.** `Random::rotate` leaves the range rotated to the left by the returned number. -/
theorem C15_rotate_partial {α : Type} (l : List α) (h : 0 < l.length) (hlen : l.length < 2 ^ 63) :
    SatOk (rotate l) fun r => 0 ≤ r.2 ∧ r.2 < l.length ∧ r.1 = l.rotate r.2.toNat := by
  unfold rotate
  apply sat_integer_bind i64_zero (i64_nat hlen) (by omega)
  intro v h1 h2
  refine satOk_done ⟨h1, h2, ?_⟩
  rw [List.rotate_eq_drop_append_take (by dsimp only; omega)]

/-- **C15 fails** for `rotate` of an empty range, which throws instead of returning the (only) rotation. -/
theorem C15_rotate_empty_refuted {α : Type} : rotate ([] : List α) = .done (.error .throw) := by
  simp [rotate, integer]
  rfl

theorem stringLoop_sat {α : Type} (l : List α) (h : 0 < l.length) (hlen : l.length < 2 ^ 63) : ∀ n : Nat,
    SatOk (stringLoop l n) fun s => s.length = n ∧ ∀ c ∈ s, c ∈ l := by
  intro n
  induction n with
  | zero => exact satOk_done ⟨rfl, by simp⟩
  | succ n ih =>
    unfold stringLoop
    refine SatOk.bind (C15_select l h hlen) fun c hc => ?_
    refine SatOk.bind ih fun rest hr => ?_
    refine satOk_done ⟨by simp [hr.1], fun y hy => ?_⟩
    rcases List.mem_cons.1 hy with rfl | hy
    · exact hc
    · exact hr.2 y hy

/-- **C15.** `Random::string(n, alphabet)` has length `n` and consists of characters of the alphabet. -/
theorem C15_string (n : Int) (alphabet : List Char) (h0 : 0 ≤ n) (h1 : n ≤ 0xFFFFFFFF) (ha : alphabet ≠ [])
    (hlen : alphabet.length < 2 ^ 63) :
    SatOk (randomString n alphabet) fun s => s.length = n.toNat ∧ ∀ c ∈ s, c ∈ alphabet := by
  unfold randomString
  rw [decide_eq_true (And.intro h0 h1), judgeAssert_true, Rand.lift_ok, Rand.bind_done_ok, decide_eq_true ha, judgeAssert_true,
    Rand.lift_ok, Rand.bind_done_ok]
  exact stringLoop_sat alphabet (List.length_pos_iff.2 ha) hlen _

example : (randomString 3 ['a', 'b']).run true [2 ^ 63, 1, 2 ^ 64 - 1] = some (.ok ['b', 'a', 'b'], []) := by decide +kernel
example : (rotate [1, 2, 3]).run true [2 ^ 63] = some (.ok ([2, 3, 1], 1), []) := by decide +kernel
example : (select [1, 2, 3]).run true [2 ^ 63] = some (.ok 2, []) := by decide +kernel

/-! ### C10 -/

theorem nodup_of_allDifferent {xs : List Int} (h : AllDifferent xs) : xs.Nodup := by
  rw [List.Nodup, List.pairwise_iff_getElem]
  intro i j hi hj hij
  exact h i j hi hj hij

/-- **C10.** `Random::increasing` returns `count` strictly increasing values of the range. -/
theorem C10_increasing (count lower upper : Int) (hl : I64 lower) (hu : I64 upper) (h0 : 0 ≤ count) (hle : lower + count ≤ upper) :
    SatOk (increasing count lower upper) fun res => res.length = count.toNat ∧ StrictlyIncreasing res ∧
      ∀ y ∈ res, lower ≤ y ∧ y < upper := by
  unfold increasing
  refine SatOk.bind (C04_distinct count lower upper hl hu h0 hle) fun res hr => ?_
  obtain ⟨h1, h2, h3⟩ := hr
  refine satOk_done ⟨by simp [h1], ?_, fun y hy => h3 y (by simpa using hy)⟩
  have hnd : (stdSort res).Nodup := (stdSort_perm res).nodup_iff.2 (nodup_of_allDifferent h2)
  have hs := stdSort_sorted res
  intro i j hi hj hij
  have hle := List.pairwise_iff_getElem.1 hs i j hi hj hij
  have hne : (stdSort res)[i] ≠ (stdSort res)[j] := fun h => by
    have := (hnd.getElem_inj_iff).1 h; omega
  omega

/-- **C10.** `Random::decreasing` returns `count` strictly decreasing values of the range. -/
theorem C10_decreasing (count lower upper : Int) (hl : I64 lower) (hu : I64 upper) (h0 : 0 ≤ count) (hle : lower + count ≤ upper) :
    SatOk (decreasing count lower upper) fun res => res.length = count.toNat ∧ StrictlyDecreasing res ∧
      ∀ y ∈ res, lower ≤ y ∧ y < upper := by
  unfold decreasing
  refine SatOk.bind (C04_distinct count lower upper hl hu h0 hle) fun res hr => ?_
  obtain ⟨h1, h2, h3⟩ := hr
  refine satOk_done ⟨by simp [h1], ?_, fun y hy => h3 y (by simpa using hy)⟩
  have hnd : (stdSort res).Nodup := (stdSort_perm res).nodup_iff.2 (nodup_of_allDifferent h2)
  have hs := stdSort_sorted res
  intro i j hi hj hij
  simp only [List.length_reverse] at hi hj
  rw [List.getElem_reverse, List.getElem_reverse]
  have hle := List.pairwise_iff_getElem.1 hs ((stdSort res).length - 1 - j) ((stdSort res).length - 1 - i) (by omega) (by omega) (by omega)
  have hne : (stdSort res)[(stdSort res).length - 1 - j] ≠ (stdSort res)[(stdSort res).length - 1 - i] := fun h => by
    have := (hnd.getElem_inj_iff).1 h; omega
  omega

/-- **C10.** `Random::nonDecreasing` returns `count` weakly increasing values of the range. -/
theorem C10_nonDecreasing (count lower upper : Int) (hl : I64 lower) (hu : I64 upper) (h0 : 0 ≤ count) (h : lower < upper) :
    SatOk (nonDecreasing count lower upper) fun res => res.length = count.toNat ∧ WeaklyIncreasing res ∧
      ∀ y ∈ res, lower ≤ y ∧ y < upper := by
  unfold nonDecreasing
  refine SatOk.bind (C15_multiple count lower upper h0 hl hu h) fun res hr => ?_
  refine satOk_done ⟨by simp [hr.1], ?_, fun y hy => hr.2 y (by simpa using hy)⟩
  intro i j hi hj hij
  exact List.pairwise_iff_getElem.1 (stdSort_sorted res) i j hi hj hij

/-- **C10.** `Random::nonIncreasing` returns `count` weakly decreasing values of the range. -/
theorem C10_nonIncreasing (count lower upper : Int) (hl : I64 lower) (hu : I64 upper) (h0 : 0 ≤ count) (h : lower < upper) :
    SatOk (nonIncreasing count lower upper) fun res => res.length = count.toNat ∧ WeaklyDecreasing res ∧
      ∀ y ∈ res, lower ≤ y ∧ y < upper := by
  unfold nonIncreasing
  refine SatOk.bind (C15_multiple count lower upper h0 hl hu h) fun res hr => ?_
  refine satOk_done ⟨by simp [hr.1], ?_, fun y hy => hr.2 y (by simpa using hy)⟩
  intro i j hi hj hij
  simp only [List.length_reverse] at hi hj
  rw [List.getElem_reverse, List.getElem_reverse]
  exact List.pairwise_iff_getElem.1 (stdSort_sorted res) _ _ (by omega) (by omega) (by omega)

theorem stdSort_eq_of_perm {s t : List Int} (hp : s.Perm t) (ht : t.Pairwise (· < ·)) : stdSort s = t :=
  List.Perm.eq_of_pairwise (fun _ _ _ _ h1 h2 => le_antisymm h1 h2) (stdSort_sorted s) (ht.imp fun h => le_of_lt h)
    ((stdSort_perm s).trans hp)

theorem increasing_prob (count lower upper : Int) (hl : I64 lower) (hu : I64 upper) (h0 : 0 ≤ count) (hle : lower + count ≤ upper)
    (t : List Int) (hlen : t.length = count.toNat) (hs : t.Pairwise (· < ·)) (hr : ∀ y ∈ t, lower ≤ y ∧ y < upper)
    (g : List Int → List Int) (ginj : ∀ a b, g a = g b → a = b) :
    prob (distinct count lower upper >>= fun res => pure (g (stdSort res))) (g t) =
      1 / (((upper - lower).toNat.choose count.toNat : Nat) : ℚ) := by
  have hnd : t.Nodup := hs.imp fun h => ne_of_lt h
  rw [prob_bind]
  have e : (fun a : List Int => prob (pure (g (stdSort a)) : Rand (List Int)) (g t)) =
      fun a => ∑ s ∈ t.permutations.toFinset, if a = s then (1 : ℚ) else 0 := by
    funext a
    rw [Rand.pure_def, prob_done]
    by_cases h : a.Perm t
    · rw [if_pos (by rw [stdSort_eq_of_perm h hs]), Finset.sum_ite_eq, if_pos (by simpa using h)]
    · rw [if_neg, Finset.sum_ite_eq, if_neg (by simpa using h)]
      intro h'
      have := ginj _ _ h'
      exact h ((stdSort_perm a).symm.trans (by rw [this]))
  rw [e, expect_sum]
  have e2 : ∀ s ∈ t.permutations.toFinset, expect (distinct count lower upper) (fun a => if a = s then (1 : ℚ) else 0) =
      1 / (((upper - lower).toNat.descFactorial count.toNat : Nat) : ℚ) := by
    intro s hs'
    have hp : s.Perm t := by simpa using hs'
    exact C04_distinct_uniform count lower upper hl hu h0 hle s (by rw [hp.length_eq, hlen]) (hp.nodup_iff.2 hnd)
      fun y hy => hr y (hp.subset hy)
  rw [Finset.sum_congr rfl e2, Finset.sum_const, List.toFinset_card_of_nodup (List.nodup_permutations t hnd), List.length_permutations, hlen,
    nsmul_eq_mul, Nat.descFactorial_eq_factorial_mul_choose]
  have : (count.toNat.factorial : ℚ) ≠ 0 := by exact_mod_cast Nat.factorial_ne_zero _
  push_cast
  rw [mul_one_div, ← div_div, div_self this]

theorem pairwise_of_strictlyIncreasing {t : List Int} (h : StrictlyIncreasing t) : t.Pairwise (· < ·) :=
  List.pairwise_iff_getElem.2 fun i j hi hj hij => h i j hi hj hij

/-- **C10.** All strictly increasing sequences of `count` values of the range are equally likely. -/
theorem C10_increasing_uniform (count lower upper : Int) (hl : I64 lower) (hu : I64 upper) (h0 : 0 ≤ count) (hle : lower + count ≤ upper)
    (t : List Int) (hlen : t.length = count.toNat) (hs : StrictlyIncreasing t) (hr : ∀ y ∈ t, lower ≤ y ∧ y < upper) :
    prob (increasing count lower upper) t = 1 / (((upper - lower).toNat.choose count.toNat : Nat) : ℚ) :=
  increasing_prob count lower upper hl hu h0 hle t hlen (pairwise_of_strictlyIncreasing hs) hr id fun _ _ h => h

/-- **C10.** All strictly decreasing sequences of `count` values of the range are equally likely. -/
theorem C10_decreasing_uniform (count lower upper : Int) (hl : I64 lower) (hu : I64 upper) (h0 : 0 ≤ count) (hle : lower + count ≤ upper)
    (t : List Int) (hlen : t.length = count.toNat) (hs : StrictlyDecreasing t) (hr : ∀ y ∈ t, lower ≤ y ∧ y < upper) :
    prob (decreasing count lower upper) t = 1 / (((upper - lower).toNat.choose count.toNat : Nat) : ℚ) := by
  have h := increasing_prob count lower upper hl hu h0 hle t.reverse (by simpa using hlen) ?_ (by simpa using hr) List.reverse
    fun _ _ h => List.reverse_injective h
  · rw [List.reverse_reverse] at h
    exact h
  · rw [List.pairwise_reverse, List.pairwise_iff_getElem]
    exact fun i j hi hj hij => hs i j hi hj hij

/-- The documentation says that each possible output of `nonDecreasing` has the same probability.  It has
not: of two values of `{0, 1}`, the sequence `0, 1` is twice as likely as `0, 0`. -/
theorem C10_nonDecreasing_uniform_refuted :
    prob (nonDecreasing 2 0 2) [0, 0] = 1 / 4 ∧ prob (nonDecreasing 2 0 2) [0, 1] = 1 / 2 := by
  have hl : I64 0 := i64_zero
  have hu : I64 2 := i64_mk (by omega) (by omega)
  have e : ∀ t, prob (nonDecreasing 2 0 2) t = (∑ v ∈ Finset.Ico (0 : Int) 2, (∑ w ∈ Finset.Ico (0 : Int) 2,
      if stdSort [v, w] = t then (1 : ℚ) else 0) / 2) / 2 := by
    intro t
    have e1 : nonDecreasing 2 0 2 = integer 0 2 >>= fun v => integer 0 2 >>= fun w => (.done (.ok (stdSort [v, w])) : Rand (List Int)) := by
      unfold nonDecreasing multiple
      rw [if_neg (by omega)]
      show (multipleLoop 0 2 2 >>= _) = _
      simp only [multipleLoop, Rand.bind_assoc, Rand.pure_def, Rand.bind_done_ok]
    rw [e1, prob_bind, expect_integer hl hu (by omega)]
    norm_num only
    congr 1
    refine Finset.sum_congr rfl fun v _ => ?_
    rw [prob_bind, expect_integer hl hu (by omega)]
    norm_num only
    simp only [prob_done]
  rw [e, e]
  have hI : Finset.Ico (0 : Int) 2 = {0, 1} := by decide
  rw [hI]
  simp only [Finset.sum_pair (show (0 : Int) ≠ 1 by omega)]
  have e00 : stdSort ([0, 0] : List Int) = [0, 0] := by decide
  have e01 : stdSort ([0, 1] : List Int) = [0, 1] := by decide
  have e10 : stdSort ([1, 0] : List Int) = [0, 1] := by decide
  have e11 : stdSort ([1, 1] : List Int) = [1, 1] := by decide
  rw [e00, e01, e10, e11]
  constructor
  · norm_num
  · norm_num

example : (increasing 3 10 13).run true [1, 1, 1] = some (.ok [10, 11, 12], []) := by decide +kernel
example : (nonIncreasing 3 10 13).run true [1, 2 ^ 63, 2 ^ 64 - 1] = some (.ok [12, 11, 10], []) := by decide +kernel

/-! ### C08 -/

theorem partitionLoop_ok {min hi : Int} (hlo : -(2:Int) ^ 63 ≤ min - 1) (hhi : hi < 2 ^ 63) (hm : hi + (min - 1) < 2 ^ 63) :
    ∀ (xs : List Int) (last : Int), 0 ≤ last → (last :: xs).Pairwise (· < ·) → (∀ x ∈ xs, x ≤ hi) →
    partitionLoop min last xs = .ok (List.zipWith (fun x y => x - y + (min - 1)) xs (last :: xs)) := by
  intro xs
  induction xs with
  | nil => intros; rfl
  | cons x xs ih =>
    intro last h0 hp hb
    have hlx : last < x := (List.pairwise_cons.1 hp).1 x (by simp)
    have hx := hb x (by simp)
    unfold partitionLoop
    rw [chk_ok (i64_mk (by omega) (by omega)), ok_bind, chk_ok (i64_mk (by omega) (by omega)), ok_bind,
      chk_ok (i64_mk (by omega) (by omega)), ok_bind, show last + (x - last) = x by omega,
      ih x (by omega) (List.pairwise_cons.1 hp).2 fun y hy => hb y (by simp [hy])]
    rfl

theorem zip_sum (c : Int) : ∀ (xs : List Int) (last : Int),
    (List.zipWith (fun x y => x - y + c) xs (last :: xs)).sum = (last :: xs).getLast (by simp) - last + c * xs.length := by
  intro xs
  induction xs with
  | nil => simp
  | cons x xs ih =>
    intro last
    have := ih x
    rw [List.zipWith_cons_cons, List.sum_cons, this, List.getLast_cons (a := last) (l := x :: xs) (by simp)]
    push_cast [List.length_cons]
    ring

theorem zip_ge (c : Int) : ∀ (xs : List Int) (last : Int), (last :: xs).Pairwise (· < ·) →
    ∀ v ∈ List.zipWith (fun x y => x - y + c) xs (last :: xs), c + 1 ≤ v := by
  intro xs
  induction xs with
  | nil => simp
  | cons x xs ih =>
    intro last hp v hv
    rw [List.zipWith_cons_cons] at hv
    rcases List.mem_cons.1 hv with rfl | hv
    · have : last < x := (List.pairwise_cons.1 hp).1 x (by simp)
      omega
    · exact ih x (List.pairwise_cons.1 hp).2 v hv

theorem partition_unfold {n k min : Int} (h1 : 0 < n) (h2 : 0 < k) (hmin : I64 (min - 1))
    (hs : k * min ≤ n) (ho : I64 ((min - 1) * k)) (ho' : I64 (n - (min - 1) * k)) :
    partition n k min = increasing (k - 1) 1 (n - (min - 1) * k) >>= fun res =>
      .done (partitionLoop min 0 (res ++ [n - (min - 1) * k])) := by
  unfold partition
  have hdiv : min ≤ 0 ∨ k ≤ n.tdiv min := by
    by_cases h : min ≤ 0
    · exact .inl h
    · right
      rw [Int.tdiv_eq_ediv_of_nonneg (by omega)]
      exact (Int.le_ediv_iff_mul_le (by omega)).2 hs
  rw [decide_eq_true h1, judgeAssert_true, Rand.lift_ok, Rand.bind_done_ok, decide_eq_true h2, judgeAssert_true, Rand.lift_ok,
    Rand.bind_done_ok, decide_eq_true hdiv, judgeAssert_true, Rand.lift_ok, Rand.bind_done_ok, chk_ok hmin, Rand.lift_ok,
    Rand.bind_done_ok, chk_ok ho, Rand.lift_ok, Rand.bind_done_ok, chk_ok ho', Rand.lift_ok, Rand.bind_done_ok]
  rfl

theorem partition_bounds {n k min : Int} (h2 : 0 < k) (hs : k * min ≤ n) : k ≤ n - (min - 1) * k ∧
    (0 < min → n - (min - 1) * k + (min - 1) ≤ n) := by
  constructor
  · nlinarith
  · intro h; nlinarith

theorem pairwise_append_last {res : List Int} {n : Int} (hn : 0 < n) (h : res.Pairwise (· < ·)) (hr : ∀ y ∈ res, 1 ≤ y ∧ y < n) :
    (0 :: (res ++ [n])).Pairwise (· < ·) := by
  rw [List.pairwise_cons, List.pairwise_append]
  refine ⟨fun a ha => ?_, h, by simp, fun a ha b hb => ?_⟩
  · rcases List.mem_append.1 ha with ha | ha
    · have := (hr a ha).1; omega
    · simp at ha; omega
  · simp at hb; subst hb; exact (hr a ha).2

theorem partitionLoop_res {n k min : Int} (h2 : 0 < k) (hmin : I64 (min - 1))
    (hs : k * min ≤ n) (hn : I64 n) (ho' : I64 (n - (min - 1) * k)) {res : List Int} (h : StrictlyIncreasing res)
    (hr : ∀ y ∈ res, 1 ≤ y ∧ y < n - (min - 1) * k) :
    partitionLoop min 0 (res ++ [n - (min - 1) * k]) = .ok (List.zipWith (fun x y => x - y + (min - 1)) (res ++ [n - (min - 1) * k])
      (0 :: (res ++ [n - (min - 1) * k]))) := by
  obtain ⟨hb1, hb2⟩ := partition_bounds h2 hs
  generalize n - (min - 1) * k = n' at *
  refine partitionLoop_ok (hi := n') hmin.1 (by have := ho'.2; omega) ?_ _ _ (le_refl _) ?_ ?_
  · have := hn.2; have := ho'.2
    by_cases h : 0 < min
    · have := hb2 h; omega
    · omega
  · exact pairwise_append_last (by omega) (pairwise_of_strictlyIncreasing h) hr
  · intro x hx
    rcases List.mem_append.1 hx with hx | hx
    · have := (hr x hx).2; omega
    · simp at hx; omega

/-- **C08.** If `n` can be written as a sum of `k` summands that are at least `min` (and, for negative `min`,
the sums that are formed are representable), `Random::partition(n, k, min)` returns `k` such summands. -/
theorem C08_partition_partial (n k min : Int) (hn : I64 n) (h1 : 0 < n) (h2 : 0 < k) (hs : k * min ≤ n)
    (ho : 0 < min ∨ (I64 (min - 1) ∧ I64 ((min - 1) * k) ∧ I64 (n - (min - 1) * k))) :
    SatOk (partition n k min) fun res => res.length = k.toNat ∧ res.sum = n ∧ ∀ y ∈ res, min ≤ y := by
  obtain ⟨hb1, hb2⟩ := partition_bounds h2 hs
  have hho : I64 (min - 1) ∧ I64 ((min - 1) * k) ∧ I64 (n - (min - 1) * k) := by
    rcases ho with h | h
    · have a1 : 0 ≤ (min - 1) * k := Int.mul_nonneg (by omega) (by omega)
      have a2 : (min - 1) * k ≤ n := by nlinarith
      have a3 := hn.2
      have a4 : min - 1 ≤ (min - 1) * k := by nlinarith
      exact ⟨i64_mk (by omega) (by omega), i64_mk (by omega) (by omega), i64_mk (by omega) (by omega)⟩
    · exact h
  obtain ⟨o1, o2, o3⟩ := hho
  rw [partition_unfold h1 h2 o1 hs o2 o3]
  refine SatOk.bind (C10_increasing (k - 1) 1 _ i64_one o3 (by omega) (by omega)) fun res hr => ?_
  rw [partitionLoop_res h2 o1 hs hn o3 hr.2.1 hr.2.2]
  refine satOk_done ⟨?_, ?_, ?_⟩
  · simp [hr.1]; omega
  · rw [zip_sum, List.getLast_cons (by simp), List.getLast_append_of_ne_nil _ (by simp)]
    simp only [List.getLast_singleton, List.length_append, hr.1, List.length_cons, List.length_nil]
    have : ((((k - 1).toNat + (0 + 1) : Nat)) : Int) = k := by omega
    rw [this]; ring
  · intro y hy
    have := zip_ge (min - 1) _ _ (pairwise_append_last (by omega) (pairwise_of_strictlyIncreasing hr.2.1) hr.2.2) y hy
    omega

/-- **C08 fails** for a lower limit so small that `(min - 1) * k` overflows, although 5 = 2 + 3 would be a partition. -/
theorem C08_overflow_refuted : (partition 5 2 (-2 ^ 63)).run true [] = some (.error .ub, []) := by
  decide +kernel

/-- Without such summands, or with `n ≤ 0` or `k ≤ 0`, it throws. -/
theorem C08_partition_throws (n k min : Int) (h : n ≤ 0 ∨ k ≤ 0 ∨ (0 < min ∧ n < k * min)) :
    partition n k min = .done (.error .throw) := by
  unfold partition
  by_cases h1 : n > 0
  · rw [decide_eq_true h1, judgeAssert_true, Rand.lift_ok, Rand.bind_done_ok]
    by_cases h2 : k > 0
    · have hf : ¬ (min ≤ 0 ∨ k ≤ n.tdiv min) := by
        rcases h with h | h | ⟨h3, h4⟩
        · omega
        · omega
        · rintro (h5 | h5)
          · omega
          · rw [Int.tdiv_eq_ediv_of_nonneg (by omega), Int.le_ediv_iff_mul_le h3] at h5
            omega
      rw [decide_eq_true h2, judgeAssert_true, Rand.lift_ok, Rand.bind_done_ok, decide_eq_false hf, judgeAssert_false]; rfl
    · rw [decide_eq_false h2, judgeAssert_false]; rfl
  · rw [decide_eq_false h1, judgeAssert_false]; rfl

/-- Positions of the separators for given summands. -/
def separators (c : Int) : Int → List Int → List Int
  | _, [] => []
  | last, y :: t => (y - c + last) :: separators c (y - c + last) t

theorem separators_zip (c : Int) : ∀ (t : List Int) (last : Int),
    List.zipWith (fun x y => x - y + c) (separators c last t) (last :: separators c last t) = t := by
  intro t
  induction t with
  | nil => intros; rfl
  | cons y t ih =>
    intro last
    rw [separators, List.zipWith_cons_cons, ih]
    congr 1
    ring

theorem zip_separators (c : Int) : ∀ (xs : List Int) (last : Int),
    separators c last (List.zipWith (fun x y => x - y + c) xs (last :: xs)) = xs := by
  intro xs
  induction xs with
  | nil => intros; rfl
  | cons x xs ih =>
    intro last
    rw [List.zipWith_cons_cons, separators, show x - last + c - c + last = x by ring, ih]

theorem separators_length (c : Int) : ∀ (t : List Int) (last : Int), (separators c last t).length = t.length := by
  intro t
  induction t with
  | nil => intros; rfl
  | cons y t ih => intro last; simp [separators, ih]

theorem separators_sorted (c : Int) : ∀ (t : List Int) (last : Int), (∀ y ∈ t, c + 1 ≤ y) → (last :: separators c last t).Pairwise (· < ·) := by
  intro t
  induction t with
  | nil => intros; simp [separators]
  | cons y t ih =>
    intro last h
    have := ih (y - c + last) fun z hz => h z (by simp [hz])
    have hy := h y (by simp)
    rw [separators, List.pairwise_cons]
    refine ⟨fun z hz => ?_, this⟩
    rcases List.mem_cons.1 hz with rfl | hz
    · omega
    · have := (List.pairwise_cons.1 this).1 z hz; omega

/-- **C08.** All ordered partitions of `n` into `k` summands of size at least `min` are equally likely (the
number of these partitions is the binomial coefficient). -/
theorem C08_partition_uniform (n k min : Int) (hn : I64 n) (h1 : 0 < n) (h2 : 0 < k) (hs : k * min ≤ n)
    (o1 : I64 (min - 1)) (o2 : I64 ((min - 1) * k)) (o3 : I64 (n - (min - 1) * k))
    (t : List Int) (hlen : t.length = k.toNat) (hsum : t.sum = n) (hge : ∀ y ∈ t, min ≤ y) :
    prob (partition n k min) t = 1 / (((n - (min - 1) * k - 1).toNat.choose (k - 1).toNat : Nat) : ℚ) := by
  obtain ⟨hb1, hb2⟩ := partition_bounds h2 hs
  rw [partition_unfold h1 h2 o1 hs o2 o3, prob_bind]
  have hsat := C10_increasing (k - 1) 1 (n - (min - 1) * k) i64_one o3 (by omega) (by omega)
  have hsepl := separators_length (min - 1) t 0
  have hne : separators (min - 1) 0 t ≠ [] := by
    intro h; rw [h] at hsepl; simp at hsepl; omega
  have hlast : (separators (min - 1) 0 t).getLast hne = n - (min - 1) * k := by
    have h := zip_sum (min - 1) (separators (min - 1) 0 t) 0
    rw [separators_zip, List.getLast_cons hne, hsepl, hsum, hlen, show ((k.toNat : Nat) : Int) = k by omega] at h
    linarith
  have hsplit := List.dropLast_append_getLast hne
  rw [hlast] at hsplit
  have hsorted := separators_sorted (min - 1) t 0 fun y hy => by have := hge y hy; omega
  rw [← hsplit] at hsorted
  rw [List.pairwise_cons, List.pairwise_append] at hsorted
  obtain ⟨p1, p2, _, p3⟩ := hsorted
  have key := C10_increasing_uniform (k - 1) 1 (n - (min - 1) * k) i64_one o3 (by omega) (by omega)
    (separators (min - 1) 0 t).dropLast (by rw [List.length_dropLast, hsepl, hlen]; omega)
    (fun i j hi hj hij => List.pairwise_iff_getElem.1 p2 i j hi hj hij)
    (fun y hy => ⟨by have := p1 y (by simp [hy]); omega, p3 y hy _ (by simp)⟩)
  rw [← key]
  refine expect_congr_ok hsat fun res hr => ?_
  rw [partitionLoop_res h2 o1 hs hn o3 hr.2.1 hr.2.2, prob_done]
  congr 1
  apply propext
  constructor
  · intro h
    have := congrArg (separators (min - 1) 0) h
    rw [zip_separators, ← hsplit] at this
    exact List.append_cancel_right this
  · intro h
    rw [h, hsplit, separators_zip]

example : (partition 10 3 2).run true [1, 1] = some (.ok [2, 6, 2], []) := by decide +kernel


/-! ### C11 -/

theorem getLast_prefixSum : ∀ (ws : List Int) (s : Int), ((prefixSum s ws).getLast?).getD s = s + ws.sum := by
  intro ws
  induction ws with
  | nil => intro s; simp [prefixSum]
  | cons w ws ih =>
    intro s
    have := ih (w + s)
    rw [prefixSum]
    cases hws : prefixSum (w + s) ws with
    | nil =>
      rw [hws] at this
      simp at this ⊢
      omega
    | cons a l =>
      rw [hws] at this
      rw [List.getLast?_cons_cons, List.sum_cons]
      rw [List.getLast?_eq_some_getLast (by simp)] at this ⊢
      simp only [Option.getD_some] at this ⊢
      rw [this]; ring

theorem upperBound_prefixSum : ∀ (ws : List Int) (s x : Int) (i : Nat), (∀ w ∈ ws, 0 ≤ w) → s ≤ x → i < ws.length →
    (upperBound x (prefixSum s ws) = i ↔ s + (ws.take i).sum ≤ x ∧ x < s + (ws.take (i + 1)).sum) := by
  intro ws
  induction ws with
  | nil => intro s x i _ _ hi; simp at hi
  | cons w ws ih =>
    intro s x i hw hs hi
    have hw0 := hw w (by simp)
    have hws : ∀ w ∈ ws, 0 ≤ w := fun v hv => hw v (by simp [hv])
    have hpos : ∀ k, 0 ≤ (ws.take k).sum := fun k => List.sum_nonneg fun v hv => hws v (List.mem_of_mem_take hv)
    rw [prefixSum, upperBound, List.takeWhile_cons]
    by_cases h : w + s ≤ x
    · rw [decide_eq_true h]
      simp only [if_true, List.length_cons]
      cases i with
      | zero => simp; omega
      | succ i =>
        have := ih (w + s) x i hws h (by simpa using hi)
        rw [upperBound] at this
        rw [Nat.add_right_cancel_iff, this]
        simp only [List.take_succ_cons, List.sum_cons]
        constructor
        · rintro ⟨a, b⟩; omega
        · rintro ⟨a, b⟩; omega
    · rw [decide_eq_false h]
      simp only [Bool.false_eq_true, if_false, List.length_nil]
      cases i with
      | zero => simp; omega
      | succ i =>
        simp only [List.take_succ_cons, List.sum_cons]
        have := hpos i
        constructor
        · intro h; omega
        · rintro ⟨a, b⟩; omega

/-- **C11.** For non-negative weights with a positive, representable sum, `Random::discrete<w, ws...>()` returns
index `i` with probability `weight i / sum`. -/
theorem C11_discrete (w : Int) (ws : List Int) (hw : ∀ x ∈ w :: ws, 0 ≤ x) (hs : 0 < (w :: ws).sum) (h64 : I64 (w :: ws).sum)
    (i : Nat) (hi : i < (w :: ws).length) :
    prob (discrete w ws) (i : Int) = (((w :: ws)[i] : Int) : ℚ) / (((w :: ws).sum : Int) : ℚ) := by
  have hlast : ((prefixSum 0 (w :: ws)).getLast?).getD 0 = (w :: ws).sum := by rw [getLast_prefixSum]; simp
  unfold discrete
  simp only [hlast]
  generalize w :: ws = l at *
  rw [prob_bind, expect_integer i64_zero h64 hs]
  rw [Int.sub_zero]
  congr 1
  have hget : (l.take (i + 1)).sum = (l.take i).sum + l[i] := by
    rw [List.take_succ_eq_append_getElem hi, List.sum_append, List.sum_singleton]
  have h0 : 0 ≤ (l.take i).sum := List.sum_nonneg fun v hv => hw v (List.mem_of_mem_take hv)
  have h1 : 0 ≤ l[i] := hw _ (List.getElem_mem hi)
  have h2 : (l.take (i + 1)).sum ≤ l.sum := by
    have h := congrArg List.sum (List.take_append_drop (i + 1) l)
    rw [List.sum_append] at h
    have : 0 ≤ (l.drop (i + 1)).sum := List.sum_nonneg fun v hv => hw v (List.mem_of_mem_drop hv)
    omega
  have e : ∀ v ∈ Finset.Ico 0 l.sum, prob (pure (upperBound v (prefixSum 0 l) : Int) : Rand Int) i =
      if v ∈ Finset.Ico (l.take i).sum (l.take (i + 1)).sum then 1 else 0 := by
    intro v hv
    rw [Finset.mem_Ico] at hv
    rw [Rand.pure_def, prob_done]
    congr 1
    have := upperBound_prefixSum l 0 v i hw hv.1 hi
    rw [Finset.mem_Ico, Int.natCast_inj, this]
    simp
  rw [Finset.sum_congr rfl e, Finset.sum_ite_mem, Finset.inter_eq_right.2]
  · rw [Finset.sum_const, nsmul_eq_mul, mul_one, Int.card_Ico, hget]
    have : (l.take i).sum + l[i] - (l.take i).sum = l[i] := by ring
    rw [this]
    have h := Int.toNat_of_nonneg h1
    exact_mod_cast congrArg (Int.cast : Int → ℚ) h
  · intro v hv
    rw [Finset.mem_Ico] at hv ⊢
    omega

/-- Only indices of weights are returned. -/
theorem C11_discrete_index (w : Int) (ws : List Int) (hw : ∀ x ∈ w :: ws, 0 ≤ x) (hs : 0 < (w :: ws).sum) (h64 : I64 (w :: ws).sum) :
    SatOk (discrete w ws) fun r => 0 ≤ r ∧ r < (w :: ws).length := by
  have hlast : ((prefixSum 0 (w :: ws)).getLast?).getD 0 = (w :: ws).sum := by rw [getLast_prefixSum]; simp
  unfold discrete
  simp only [hlast]
  apply sat_integer_bind i64_zero h64 hs
  intro x h1 h2
  refine satOk_done ⟨by omega, ?_⟩
  generalize w :: ws = l at *
  -- some index qualifies
  have key : ∀ (l : List Int) (s x : Int), (∀ w ∈ l, 0 ≤ w) → x < s + l.sum → s ≤ x → upperBound x (prefixSum s l) < l.length := by
    intro l
    induction l with
    | nil => intro s x _ h1 h2; simp at h1; omega
    | cons w l ih =>
      intro s x hw h1 h2
      rw [prefixSum, upperBound, List.takeWhile_cons]
      by_cases h : w + s ≤ x
      · have := ih (w + s) x (fun v hv => hw v (by simp [hv])) (by rw [List.sum_cons] at h1; omega) h
        rw [upperBound] at this
        simp [h]; exact this
      · simp [h]
  have := key l 0 x hw (by omega) h1
  omega

example : (discrete 1 [0, 3]).run true [2 ^ 62] = some (.ok 2, []) := by decide +kernel

/-! ### C16 -/

theorem maximumLoop_eq (lower upper : Int) : ∀ (n : Nat) (res : Int),
    maximumLoop lower upper n res = multipleLoop lower upper n >>= fun xs => pure (xs.foldl max res) := by
  intro n
  induction n with
  | zero => intro res; rfl
  | succ n ih =>
    intro res
    unfold maximumLoop multipleLoop
    rw [Rand.bind_assoc]
    congr 1
    funext x
    rw [ih, Rand.bind_assoc]
    congr 1

theorem foldl_max_ge : ∀ (xs : List Int) (a : Int), a ≤ xs.foldl max a ∧ ∀ x ∈ xs, x ≤ xs.foldl max a := by
  intro xs
  induction xs with
  | nil => simp
  | cons x xs ih =>
    intro a
    obtain ⟨h1, h2⟩ := ih (max a x)
    refine ⟨le_trans (le_max_left _ _) h1, fun y hy => ?_⟩
    rcases List.mem_cons.1 hy with rfl | hy
    · exact le_trans (le_max_right _ _) h1
    · exact h2 y hy

theorem foldl_max_mem : ∀ (xs : List Int) (a : Int), xs.foldl max a = a ∨ xs.foldl max a ∈ xs := by
  intro xs
  induction xs with
  | nil => simp
  | cons x xs ih =>
    intro a
    rcases ih (max a x) with h | h
    · rw [List.foldl_cons, h]
      rcases max_choice a x with h | h <;> rw [h] <;> simp
    · right; simp [h]

/-- **C16.** For `n < 5`, `Random::maximum(lower, upper, n)` is the largest of `n` independent uniform values of the
range: the program draws a sequence as `Random::multiple` does and returns its largest entry. -/
theorem C16_maximum_is_largest (scaled : Nat → Rand Nat) (lower upper n : Int) (h : lower < upper) (h1 : 0 < n) (h5 : n < 5) :
    ∃ largest : List Int → Int,
      (∀ xs : List Int, xs ≠ [] → (∀ x ∈ xs, lower ≤ x) → largest xs ∈ xs ∧ ∀ x ∈ xs, x ≤ largest xs) ∧
      maximum scaled lower upper n = multiple n lower upper >>= fun xs => pure (largest xs) := by
  refine ⟨fun xs => xs.foldl max lower, fun xs hne hlo => ?_, ?_⟩
  · have h2 := (foldl_max_ge xs lower).2
    refine ⟨?_, h2⟩
    rcases foldl_max_mem xs lower with h | h
    · obtain ⟨x, hx⟩ := List.exists_mem_of_ne_nil xs hne
      have := h2 x hx
      have := hlo x hx
      dsimp only
      rw [h] at *
      have : x = lower := by omega
      rw [← this]; exact hx
    · exact h
  · unfold maximum multiple
    rw [decide_eq_true h1, judgeAssert_true, Rand.lift_ok, Rand.bind_done_ok, decide_eq_true h, judgeAssert_true, Rand.lift_ok,
      Rand.bind_done_ok, if_pos h5, if_neg (by omega)]
    exact maximumLoop_eq _ _ _ _

theorem maximumLoop_sat {lower upper : Int} (hl : I64 lower) (hu : I64 upper) (h : lower < upper) : ∀ (n : Nat) (res : Int),
    lower ≤ res → res < upper → SatOk (maximumLoop lower upper n res) fun m => lower ≤ m ∧ m < upper := by
  intro n
  induction n with
  | zero => intro res h1 h2; exact satOk_done ⟨h1, h2⟩
  | succ n ih =>
    intro res h1 h2
    unfold maximumLoop
    apply sat_integer_bind hl hu h
    intro x h3 h4
    exact ih _ (by omega) (by omega)

/-- **C16.** `Random::maximum` returns a value of `[lower, upper)`.  For `n ≥ 5` this is relative to the floating
point expression that is not modelled: its value, converted to an unsigned integer, must not exceed the distance
from `lower` to the largest integer. -/
theorem C16_maximum_partial (scaled : Nat → Rand Nat) (lower upper n : Int) (hl : I64 lower) (hu : I64 upper) (h : lower < upper)
    (h1 : 0 < n) (hf : 5 ≤ n → SatOk (scaled (upper - lower).toNat) fun v => lower + v < 2 ^ 63) :
    SatOk (maximum scaled lower upper n) fun m => lower ≤ m ∧ m < upper := by
  unfold maximum
  rw [decide_eq_true h1, judgeAssert_true, Rand.lift_ok, Rand.bind_done_ok, decide_eq_true h, judgeAssert_true, Rand.lift_ok,
    Rand.bind_done_ok]
  by_cases h5 : n < 5
  · rw [if_pos h5]
    exact maximumLoop_sat hl hu h _ _ (le_refl _) h
  · rw [if_neg h5, rangeWidth_eq hl hu h]
    refine SatOk.bind (hf (by omega)) fun v hv => ?_
    refine satOk_done ?_
    have e : toI64 ((v + toU64 lower) % 2 ^ 64) = lower + v := by
      exact (toI64_toU64_add hl hv).2
    rw [e]
    omega

/-- **C16.** `Random::minimum` returns a value of `[lower, upper)`, if the width of the range is representable. -/
theorem C16_minimum_partial (scaled : Nat → Rand Nat) (lower upper n : Int) (hl : I64 lower) (hu : I64 upper) (h : lower < upper)
    (hw : I64 (upper - lower)) (h1 : 0 < n) (hf : 5 ≤ n → SatOk (scaled (upper - lower).toNat) fun v => (v : Int) < 2 ^ 63) :
    SatOk (minimum scaled lower upper n) fun m => lower ≤ m ∧ m < upper := by
  unfold minimum
  have := hl.1; have := hu.2
  rw [chk_ok (i64_mk (by omega) (by omega)), Rand.lift_ok, Rand.bind_done_ok, chk_ok hw, Rand.lift_ok, Rand.bind_done_ok]
  refine SatOk.bind (C16_maximum_partial scaled 0 (upper - lower) n i64_zero hw (by omega) h1 (by simpa using hf)) fun m hm => ?_
  rw [chk_ok (i64_mk (by omega) (by omega))]
  exact satOk_done ⟨by omega, by omega⟩

/-- **C16.** `Random::minmax` is `maximum` for positive `n`, `minimum` of `-n` for negative `n`, and throws for 0. -/
theorem C16_minmax (scaled : Nat → Rand Nat) (lower upper n : Int) (hn : I64 n) (hn' : n ≠ -2 ^ 63) :
    minmax scaled lower upper n = if n = 0 then .done (.error .throw) else if 0 < n then maximum scaled lower upper n
      else minimum scaled lower upper (-n) := by
  unfold minmax
  by_cases h : n = 0
  · rw [decide_eq_false (by simpa using h), judgeAssert_false, if_pos h]; rfl
  · have := hn.1; have := hn.2
    rw [decide_eq_true h, judgeAssert_true, Rand.lift_ok, Rand.bind_done_ok, if_neg h]
    by_cases h0 : 0 < n
    · rw [if_pos h0, if_pos h0]
    · rw [if_neg h0, if_neg h0, chk_ok (i64_mk (by omega) (by omega))]; rfl

/-- A range wider than 2^63 overflows in `Random::minimum`. -/
theorem C16_minimum_wide_refuted (scaled : Nat → Rand Nat) (lower upper n : Int) (hu : I64 (upper - 1)) (hw : ¬ I64 (upper - lower)) :
    minimum scaled lower upper n = .done (.error .ub) := by
  unfold minimum
  rw [chk_ok hu, Rand.lift_ok, Rand.bind_done_ok]
  unfold chk
  rw [if_neg hw]; rfl

example : (maximum (fun _ => .done (.ok 0)) 10 20 3).run true [2 ^ 63 + 1, 2 ^ 64 - 1, 2 ^ 62 + 1] = some (.ok 19, []) := by decide +kernel
example : (minimum (fun _ => .done (.ok 0)) 10 20 3).run true [2 ^ 63 + 1, 2 ^ 64 - 1, 2 ^ 62 + 1] = some (.ok 10, []) := by decide +kernel

/-! ### C13 -/

theorem primeLoop_sat (i128 : Bool) {sl su : Int} (hl : I64 sl) (hu : I64 su) (h : sl < su) : ∀ n : Nat,
    SatOk (primeLoop i128 sl su n) fun r => ∀ p, r = some p → isPrime i128 p = true ∧ ∃ x, sl ≤ x ∧ x < su ∧ p = max 2 (2 * x + 1) := by
  intro n
  induction n with
  | zero => exact satOk_done (by simp)
  | succ n ih =>
    unfold primeLoop
    apply sat_integer_bind hl hu h
    intro x h1 h2
    dsimp only
    by_cases hp : isPrime i128 (max 2 (2 * x + 1)) = true
    · rw [if_pos hp]
      refine satOk_done fun p hp' => ?_
      cases hp'
      exact ⟨hp, x, h1, h2, rfl⟩
    · rw [if_neg hp]; exact ih

theorem randomPrime_unfold (i128 : Bool) {lower upper : Int} (h : lower < upper) (hw : I64 (upper - lower)) (hw4 : I64 (4 * (upper - lower))) :
    randomPrime i128 lower upper = (if (if lower ≤ 2 then 0 else lower.tdiv 2) < upper.tdiv 2 then
        primeLoop i128 (if lower ≤ 2 then 0 else lower.tdiv 2) (upper.tdiv 2) (min 6400 (4 * (upper - lower))).toNat
      else .done (.ok none)) >>= fun r : Option Int => match r with
        | some p => .done (.ok p)
        | none => .done (.error .throw) := by
  unfold randomPrime
  rw [decide_eq_true h, judgeAssert_true, Rand.lift_ok, Rand.bind_done_ok]
  dsimp only
  by_cases hc : (if lower ≤ 2 then 0 else lower.tdiv 2) < upper.tdiv 2
  · rw [if_pos hc, if_pos hc, chk_ok hw, Rand.lift_ok, Rand.bind_done_ok, chk_ok hw4, Rand.lift_ok, Rand.bind_done_ok]
    rfl
  · rw [if_neg hc, if_neg hc]; rfl

/-- **C13.** If four times the width of the range is representable and `upper ≠ 2`, every run of
`Random::prime(lower, upper)` throws or returns a number of `[lower, upper)` that `isPrime` accepts. -/
theorem C13_prime_partial (i128 : Bool) (lower upper : Int) (hl : I64 lower) (hu : I64 upper) (h : lower < upper)
    (hw4 : I64 (4 * (upper - lower))) (h2 : upper ≠ 2) :
    Sat (randomPrime i128 lower upper) fun o => o = .error .throw ∨ ∃ p, o = .ok p ∧ lower ≤ p ∧ p < upper ∧ isPrime i128 p = true := by
  have := hw4.1; have := hw4.2; have := hl.1; have := hl.2; have := hu.1; have := hu.2
  rw [randomPrime_unfold i128 h (i64_mk (by omega) (by omega)) hw4]
  by_cases hc : (if lower ≤ 2 then 0 else lower.tdiv 2) < upper.tdiv 2
  · rw [if_pos hc]
    have hsl : (if lower ≤ 2 then 0 else lower.tdiv 2) = if lower ≤ 2 then 0 else lower / 2 := by
      split
      · rfl
      · exact Int.tdiv_eq_ediv_of_nonneg (by omega)
    have hup : 0 ≤ upper := by
      by_contra hneg
      have : upper.tdiv 2 ≤ 0 := by
        have h := Int.tdiv_nonneg (a := -upper) (b := 2) (by omega) (by omega)
        rw [Int.neg_tdiv] at h; omega
      split at hc <;> omega
    rw [hsl, Int.tdiv_eq_ediv_of_nonneg hup] at hc ⊢
    have hslI : I64 (if lower ≤ 2 then 0 else lower / 2) := by
      split
      · exact i64_zero
      · exact i64_mk (by omega) (by omega)
    refine Sat.bind (primeLoop_sat i128 hslI (i64_mk (by omega) (by omega)) hc _) (fun r hr => ?_) (fun e he => ?_)
    · obtain ⟨r', e, hr⟩ := hr
      cases e
      cases r with
      | none => exact Or.inl rfl
      | some p =>
        obtain ⟨hp, x, h3, h4, rfl⟩ := hr p rfl
        refine Or.inr ⟨_, rfl, ?_, ?_, hp⟩
        · split at h3 <;> omega
        · split at h3 <;> omega
    · obtain ⟨r', e', hr⟩ := he
      cases e'
  · rw [if_neg hc]
    exact .inl rfl

/-- **C13.** In ranges that end at 2^27 or below (and not at 2), every run throws or returns a prime of the range. -/
theorem C13_prime_below_partial (i128 : Bool) (lower upper : Int) (hl : I64 lower) (h : lower < upper) (hw4 : I64 (4 * (upper - lower)))
    (h2 : upper ≠ 2) (h27 : upper ≤ 134217728) :
    Sat (randomPrime i128 lower upper) fun o => o = .error .throw ∨ ∃ p : Nat, o = .ok (p : Int) ∧ lower ≤ p ∧ p < upper ∧ p.Prime := by
  have h64 := hl.1
  refine (C13_prime_partial i128 lower upper hl (i64_mk (by omega) (by omega)) h hw4 h2).mono fun o ho => ?_
  rcases ho with ho | ⟨p, rfl, h3, h4, h5⟩
  · exact .inl ho
  · obtain ⟨h6, h7⟩ := (C27_exact_below_partial i128 p (i64_mk (by omega) (by omega)) (by omega)).1 h5
    refine .inr ⟨p.toNat, by rw [Int.toNat_of_nonneg h6], ?_, ?_, h7⟩ <;> omega

theorem primeLoop_prob (i128 : Bool) {sl su : Int} (hl : I64 sl) (hu : I64 su) (h : sl < su) (p q : Int)
    (hp : isPrime i128 p = true) (hq : isPrime i128 q = true)
    (hp' : ∃ x, (sl ≤ x ∧ x < su) ∧ p = max 2 (2 * x + 1) ∧ ∀ y, (sl ≤ y ∧ y < su) → p = max 2 (2 * y + 1) → y = x)
    (hq' : ∃ x, (sl ≤ x ∧ x < su) ∧ q = max 2 (2 * x + 1) ∧ ∀ y, (sl ≤ y ∧ y < su) → q = max 2 (2 * y + 1) → y = x) : ∀ n : Nat,
    prob (primeLoop i128 sl su n) (some p) = prob (primeLoop i128 sl su n) (some q) := by
  intro n
  induction n with
  | zero => show prob (.done (.ok none)) _ = prob (.done (.ok none)) _; rw [prob_done, prob_done]; simp
  | succ n ih =>
    have key : ∀ r : Int, isPrime i128 r = true →
        (∃ x, (sl ≤ x ∧ x < su) ∧ r = max 2 (2 * x + 1) ∧ ∀ y, (sl ≤ y ∧ y < su) → r = max 2 (2 * y + 1) → y = x) →
        prob (primeLoop i128 sl su (n + 1)) (some r) = (1 + ∑ v ∈ Finset.Ico sl su, if isPrime i128 (max 2 (2 * v + 1)) = true then 0 else
          prob (primeLoop i128 sl su n) (some r)) / ((su - sl : Int) : ℚ) := by
      intro r hr hr'
      obtain ⟨x, hx, hxr, huniq⟩ := hr'
      conv_lhs => unfold primeLoop
      rw [prob_bind, expect_integer hl hu h]
      congr 1
      have e1 : (1 : ℚ) = ∑ v ∈ Finset.Ico sl su, if v = x then 1 else 0 := by
        rw [Finset.sum_ite_eq', if_pos (Finset.mem_Ico.2 hx)]
      rw [e1, ← Finset.sum_add_distrib]
      refine Finset.sum_congr rfl fun v hv => ?_
      rw [Finset.mem_Ico] at hv
      by_cases hpv : isPrime i128 (max 2 (2 * v + 1)) = true
      · rw [if_pos hpv, if_pos hpv, add_zero, Rand.pure_def, prob_done]
        congr 1
        apply propext
        constructor
        · intro h; exact huniq v hv (by cases h; rfl)
        · rintro rfl; rw [hxr]
      · rw [if_neg hpv, if_neg hpv, if_neg, zero_add]
        rintro rfl
        exact hpv (by rw [← hxr]; exact hr)
    rw [key p hp hp', key q hq hq', ih]

theorem prime_sample {lower upper p : Int} (h1 : lower ≤ p) (h2 : p < upper) (hodd : p = 2 ∨ (2 < p ∧ p % 2 = 1)) :
    ∃ x, ((if lower ≤ 2 then 0 else lower / 2) ≤ x ∧ x < upper / 2) ∧ p = max 2 (2 * x + 1) ∧
      ∀ y, ((if lower ≤ 2 then 0 else lower / 2) ≤ y ∧ y < upper / 2) → p = max 2 (2 * y + 1) → y = x := by
  rcases hodd with rfl | ⟨h3, h4⟩
  · refine ⟨0, ⟨by rw [if_pos (by omega)], by omega⟩, by omega, fun y hy h => ?_⟩
    rw [if_pos (by omega)] at hy
    omega
  · refine ⟨p / 2, ⟨by split <;> omega, by omega⟩, by omega, fun y hy h => by omega⟩

theorem isPrime_odd (i128 : Bool) {p : Int} (h : isPrime i128 p = true) : p = 2 ∨ (2 < p ∧ p % 2 = 1) := by
  by_cases hc : p ≤ 2 ∨ p.tmod 2 = 0
  · have : trialLoop p TRIAL_PRIMES = some (decide (p = 2)) := by
      show (if p ≤ 2 ∨ p.tmod 2 = 0 then _ else _) = _
      rw [if_pos hc]
    simp only [isPrime, this] at h
    exact .inl (of_decide_eq_true h)
  · right
    rw [Int.tmod_eq_emod_of_nonneg (by omega)] at hc
    omega

/-- **C13.** Two numbers of the range that `isPrime` accepts are returned with the same probability. -/
theorem C13_prime_uniform (i128 : Bool) (lower upper : Int) (hl : I64 lower) (hu : I64 upper) (hw4 : I64 (4 * (upper - lower)))
    (p q : Int) (hp : isPrime i128 p = true) (hq : isPrime i128 q = true) (hp1 : lower ≤ p) (hp2 : p < upper)
    (hq1 : lower ≤ q) (hq2 : q < upper) :
    prob (randomPrime i128 lower upper) p = prob (randomPrime i128 lower upper) q := by
  have := hw4.1; have := hw4.2; have := hl.1; have := hl.2; have := hu.1; have := hu.2
  have hpo := isPrime_odd i128 hp
  have hqo := isPrime_odd i128 hq
  rw [randomPrime_unfold i128 (by omega) (i64_mk (by omega) (by omega)) hw4]
  have hsl : (if lower ≤ 2 then 0 else lower.tdiv 2) = if lower ≤ 2 then 0 else lower / 2 := by
    split
    · rfl
    · exact Int.tdiv_eq_ediv_of_nonneg (by omega)
  rw [hsl, Int.tdiv_eq_ediv_of_nonneg (by omega : 0 ≤ upper)]
  have sp := prime_sample hp1 hp2 hpo
  have sq := prime_sample hq1 hq2 hqo
  have hc : (if lower ≤ 2 then 0 else lower / 2) < upper / 2 := by
    obtain ⟨x, hx, _⟩ := sp; omega
  rw [if_pos hc]
  have hslI : I64 (if lower ≤ 2 then 0 else lower / 2) := by
    split
    · exact i64_zero
    · exact i64_mk (by omega) (by omega)
  have key := primeLoop_prob i128 hslI (i64_mk (x := upper / 2) (by omega) (by omega)) hc p q hp hq sp sq (min 6400 (4 * (upper - lower))).toNat
  have conv : ∀ (r : Rand (Option Int)) (p : Int), prob (r >>= fun r : Option Int => match r with
        | some p => .done (.ok p)
        | none => .done (.error .throw)) p = prob r (some p) := by
    intro r p
    rw [prob_bind, prob]
    congr 1
    funext a
    cases a with
    | none => simp [prob, expect]
    | some a => rw [prob_done]; simp
  rw [conv, conv, key]

/-- `Random::prime(0, 2)` returns 2, which is not in the range `[0, 2)`. -/
theorem C13_upper_two_refuted : (randomPrime true 0 2).run true [1] = some (.ok 2, []) := by decide +kernel

/-- If four times the width of the range is not representable, the loop condition overflows. -/
theorem C13_wide_refuted (i128 : Bool) (lower upper : Int) (h : lower < upper) (hs : (if lower ≤ 2 then 0 else lower.tdiv 2) < upper.tdiv 2)
    (hw : I64 (upper - lower)) (hw4 : ¬ I64 (4 * (upper - lower))) : randomPrime i128 lower upper = .done (.error .ub) := by
  unfold randomPrime
  rw [decide_eq_true h, judgeAssert_true, Rand.lift_ok, Rand.bind_done_ok]
  dsimp only
  rw [if_pos hs, chk_ok hw, Rand.lift_ok, Rand.bind_done_ok]
  unfold chk
  rw [if_neg hw4]; rfl

example : (randomPrime true 10 20).run true [1, 2 ^ 63 + 1] = some (.ok 11, [2 ^ 63 + 1]) := by decide +kernel

end ICPC.Props
