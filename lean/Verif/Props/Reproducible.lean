import Verif.Spec.Reproducible
import Verif.Lemmas.ShuffleLaw
import Verif.Props.ConvexEnds
import Verif.Props.RealRange
import Verif.Props.Extremes
import Verif.Props.Float
import Verif.Props.Prime
import Verif.Props.RandInt
import Verif.Props.Num

/-!
# C97: random results do not depend on the compiler
-/

namespace ICPC.Props
open ICPC ICPC.Spec ICPC.Cyc

/-! ## With and without `__int128` -/

/-- The programs make the same draws and differ only behind values that are never drawn. -/
inductive Agree {α : Type} : Rand α → Rand α → Prop
  | done (o : Out α) : Agree (.done o) (.done o)
  | draw (l u : Int) (k k' : Int → Rand α) : (∀ v, (I64 l → I64 u → l < u → l ≤ v ∧ v < u) → Agree (k v) (k' v)) → Agree (.draw l u k) (.draw l u k')
  | coin (k k' : Bool → Rand α) : (∀ v, Agree (k v) (k' v)) → Agree (.coin k) (.coin k')

variable {α β : Type}

theorem Agree.refl : ∀ r : Rand α, Agree r r
  | .done o => .done o
  | .draw _ _ k => .draw _ _ _ _ fun v _ => Agree.refl (k v)
  | .coin k => .coin _ _ fun v => Agree.refl (k v)

theorem Agree.bind {r r' : Rand α} {f f' : α → Rand β} (h : Agree r r') (hf : ∀ a, Agree (f a) (f' a)) : Agree (r >>= f) (r' >>= f') := by
  induction h with
  | done o =>
    cases o with
    | ok a => exact hf a
    | error e => exact .done _
  | draw l u k k' _ ih => exact .draw _ _ _ _ ih
  | coin k k' _ ih => exact .coin _ _ ih

theorem agree_integer (l u : Int) {f f' : Int → Rand β} (hf : ∀ v, I64 l → I64 u → l ≤ v → v < u → Agree (f v) (f' v)) :
    Agree (integer l u >>= f) (integer l u >>= f') := by
  unfold integer
  split
  · rename_i h
    split
    · rename_i hlu
      exact .draw _ _ _ _ fun v hv => hf v h.1 h.2 (hv h.1 h.2 hlu).1 (hv h.1 h.2 hlu).2
    · exact .done _
  · exact .done _

private theorem small_sum {q ul M N : Nat} (h : q < M) (h' : ul < M) (hN : 2 * M ≤ N) : (q + ul) % N = q + ul := Nat.mod_eq_of_lt (by omega)

private theorem toI64_mod (q : Nat) : toI64 (q % 2 ^ 64) = toI64 q := by
  unfold toI64
  rw [Nat.mod_mod]

theorem integerValue_same (ul s : Nat) {x : Nat} (hx : x < 2 ^ 64) (hs : s < 2 ^ 64) (hul : ul < 2 ^ 64) :
    integerValue true ul s x = integerValue false ul s x := by
  unfold integerValue
  rw [if_pos rfl, if_neg Bool.false_ne_true, mulHigh32_eq hx hs, toI64_mod]
  have hq : x * s / 2 ^ 64 < 2 ^ 64 := (Nat.div_lt_iff_lt_mul (Nat.two_pow_pos 64)).2 (Nat.mul_lt_mul'' hx hs)
  exact congrArg toI64 (small_sum hq hul (by norm_num))

theorem acceptWord_mem (s : Nat) : ∀ {ws : List Nat} {p : Nat × List Nat}, acceptWord s ws = some p → p.1 ∈ ws ∧ ∀ w ∈ p.2, w ∈ ws := by
  have loop : ∀ (t : Nat) (ws : List Nat) (x : Nat) (p : Nat × List Nat), rejectLoop s t x ws = some p → p.1 ∈ x :: ws ∧ ∀ w ∈ p.2, w ∈ x :: ws := by
    intro t ws
    induction ws with
    | nil =>
      intro x p h
      unfold rejectLoop at h
      split at h
      · cases h
      · cases h; simp
    | cons w ws ih =>
      intro x p h
      unfold rejectLoop at h
      split at h
      · obtain ⟨h1, h2⟩ := ih w p h
        exact ⟨List.mem_cons_of_mem _ h1, fun v hv => List.mem_cons_of_mem _ (h2 v hv)⟩
      · cases h
        exact ⟨by simp, fun v hv => List.mem_cons_of_mem _ hv⟩
  intro ws p h
  cases ws with
  | nil => cases h
  | cons x ws =>
    rw [acceptWord] at h
    by_cases hc : x * s % 2 ^ 64 < s
    · rw [if_pos hc] at h
      exact loop _ _ _ _ h
    · rw [if_neg hc] at h
      cases h
      exact ⟨by simp, fun v hv => List.mem_cons_of_mem _ hv⟩

theorem toU64_lt (x : Int) : toU64 x < 2 ^ 64 := by
  unfold toU64
  omega

theorem rangeWidth_small (l u : Int) : rangeWidth l u < 2 ^ 64 := Nat.mod_lt _ (Nat.two_pow_pos 64)

theorem integerWords_some {b : Bool} {l u : Int} (hlu : l < u) {ws : List Nat} : integerWords b l u ws =
    (acceptWord (rangeWidth l u) ws).map fun p => (.ok (integerValue b (toU64 l) (rangeWidth l u) p.1), p.2) := if_pos hlu

theorem integerWords_none {b : Bool} {l u : Int} (hlu : ¬ l < u) {ws : List Nat} : integerWords b l u ws = some (.error .throw, ws) := if_neg hlu

theorem integerWords_same (l u : Int) {ws : List Nat} (hws : ∀ w ∈ ws, w < 2 ^ 64) : integerWords true l u ws = integerWords false l u ws := by
  by_cases hlu : l < u
  · rw [integerWords_some hlu, integerWords_some hlu]
    refine Option.map_congr fun p hp => ?_
    rw [integerValue_same _ _ (hws _ (acceptWord_mem _ hp).1) (rangeWidth_small l u) (toU64_lt l)]
  · rw [integerWords_none hlu, integerWords_none hlu]

theorem integerWords_rest {b : Bool} {l u : Int} {ws rest : List Nat} {o : Out Int} (h : integerWords b l u ws = some (o, rest)) : ∀ w ∈ rest, w ∈ ws := by
  by_cases hlu : l < u
  · rw [integerWords_some hlu, Option.map_eq_some_iff] at h
    obtain ⟨p, hp, e⟩ := h
    obtain rfl : p.2 = rest := congrArg Prod.snd e
    exact (acceptWord_mem _ hp).2
  · rw [integerWords_none hlu] at h
    cases h; exact fun _ h => h

theorem Agree.sameRuns {r r' : Rand α} (h : Agree r r') : SameRuns r r' := by
  induction h with
  | done o => intro ws _; rfl
  | draw l u k k' _ ih =>
    intro ws hws
    unfold Rand.run
    rw [integerWords_same l u hws]
    cases h : integerWords false l u ws with
    | none => rfl
    | some p =>
      obtain ⟨o, rest⟩ := p
      cases o with
      | error e => rfl
      | ok v =>
        refine ih v (fun hl hu hlu => ?_) rest fun w hw => hws w (integerWords_rest h w hw)
        obtain ⟨v', e, h1, h2⟩ := C01_in_range false l u hl hu hlu ws hws _ rest h
        cases e
        exact ⟨h1, h2⟩
  | coin k k' _ ih =>
    intro ws hws
    unfold Rand.run
    cases ws with
    | nil => rfl
    | cons w ws => exact ih _ ws fun v hv => hws v (by simp [hv])

/-- **C97, `__int128`.** Every program that uses `Random::integer` and `Random::bit` gets the same values, and uses as many words of the
engine, with and without the type `__int128`. -/
theorem C97_int128 (r : Rand α) : SameRuns r r := (Agree.refl r).sameRuns

theorem isPrime_same {n : Int} (h : I64 n) : isPrime true n = isPrime false n := by
  rw [Bool.eq_iff_iff, C27_accepted_set_partial true n h, C27_accepted_set_partial false n h]

/-- **C97, arithmetic.** `mulMod`, `powMod`, `isPrime` and `primes` have two versions as well; the results are the same. -/
theorem C97_arithmetic :
    (∀ lhs rhs mod : Int, I64 mod → mulMod true lhs rhs mod = mulMod false lhs rhs mod) ∧
    (∀ base exp mod : Int, I64 mod → powMod true base exp mod = powMod false base exp mod) ∧
    (∀ n : Int, I64 n → isPrime true n = isPrime false n) ∧
    (∀ lower upper : Int, I64 lower → I64 upper → primes true lower upper = primes false lower upper) := by
  refine ⟨fun lhs rhs mod hm => ?_, fun base exp mod hm => ?_, fun n h => isPrime_same h, fun lower upper _ hu => ?_⟩
  · by_cases h0 : 0 < mod
    · obtain ⟨r, e, h1, h2, h3⟩ := (C25_mulMod true lhs rhs mod hm).1 h0
      obtain ⟨r', e', h1', h2', h3'⟩ := (C25_mulMod false lhs rhs mod hm).1 h0
      have h := h3.trans h3'.symm
      unfold Int.ModEq at h
      rw [Int.emod_eq_of_lt h1 h2, Int.emod_eq_of_lt h1' h2'] at h
      rw [e, e', h]
    · rw [(C25_mulMod true lhs rhs mod hm).2 (by omega), (C25_mulMod false lhs rhs mod hm).2 (by omega)]
  · by_cases h0 : 0 < mod
    · have hl := C25_applyMod base mod h0
      have el := toU64_nonneg hl.1 (by have := hm.2; omega)
      have em := toU64_nonneg (x := mod) (by omega) (by have := hm.2; omega)
      have h63 := hm.2
      unfold powMod
      rw [el, em, detailsPowMod_eq true _ _ _ (by omega) (by omega) (by omega) (by omega),
        detailsPowMod_eq false _ _ _ (by omega) (by omega) (by omega) (by omega)]
    · unfold powMod
      have : ¬ mod > 0 := by omega
      simp [judgeAssert, this, bind, Except.bind]
  · have key : ∀ (lo up count : Nat) (segment : List Bool) (k i : Nat), up < 2 ^ 63 → up - i ≤ k →
        collectLoop true lo up count segment i = collectLoop false lo up count segment i := by
      intro lo up count segment k
      induction k with
      | zero =>
        intro i hup hk
        conv_lhs => rw [collectLoop]
        conv_rhs => rw [collectLoop]
        rw [if_neg (by omega), if_neg (by omega)]
      | succ k ih =>
        intro i hup hk
        conv_lhs => rw [collectLoop]
        conv_rhs => rw [collectLoop]
        by_cases hi : i < up
        · rw [if_pos hi, if_pos hi, ih (i + 2) hup (by omega), isPrime_same ⟨by omega, by omega⟩]
        · rw [if_neg hi, if_neg hi]
    unfold primes primesClamped
    have := hu.2
    simp only [key _ (max 2 upper).toNat _ _ _ _ (by omega) (le_refl _)]

theorem primeLoop_agree {sl su : Int} (h0 : 0 ≤ sl) (h1 : su ≤ 2 ^ 62) : ∀ n : Nat, Agree (primeLoop true sl su n) (primeLoop false sl su n)
  | 0 => .refl _
  | n + 1 => by
    unfold primeLoop
    refine agree_integer _ _ fun v _ _ hv hv' => ?_
    dsimp only
    rw [isPrime_same (n := max 2 (2 * v + 1)) ⟨by omega, by omega⟩]
    split
    · exact .refl _
    · exact primeLoop_agree h0 h1 n

theorem randomPrime_agree (lower upper : Int) (hu : I64 upper) : Agree (randomPrime true lower upper) (randomPrime false lower upper) := by
  unfold randomPrime
  refine Agree.bind (.refl _) fun _ => ?_
  dsimp only
  have hsl : 0 ≤ (if lower ≤ 2 then 0 else lower.tdiv 2) := by
    split
    · exact le_refl _
    · exact Int.tdiv_nonneg (by omega) (by norm_num)
  generalize (if lower ≤ 2 then 0 else lower.tdiv 2) = sl at hsl ⊢
  split
  · refine Agree.bind (.refl _) fun _ => Agree.bind (.refl _) fun _ => Agree.bind (primeLoop_agree hsl ?_ _) fun _ => .refl _
    have := hu.2
    rw [Int.tdiv_eq_ediv]
    have h2 : Int.sign 2 = 1 := rfl
    split <;> omega
  · exact .refl _

/-- **C97, prime.** `Random::prime` and `Random::nonCollinearPoints`, which contain `isPrime`. -/
theorem C97_prime (lower upper : Int) (hu : I64 upper) : SameRuns (randomPrime true lower upper) (randomPrime false lower upper) :=
  (randomPrime_agree lower upper hu).sameRuns

@[inherit_doc C97_prime] theorem C97_nonCollinearPoints (fuel : Nat) (n dim : Int) :
    SameRuns (nonCollinearPoints true fuel n dim) (nonCollinearPoints false fuel n dim) := by
  refine Agree.sameRuns ?_
  unfold nonCollinearPoints
  refine Agree.bind ?_ fun _ => .refl _
  unfold ncDraw
  by_cases hd : dim ≤ 0x1FFFFFFF
  · by_cases h1 : n ≥ 0
    · by_cases h2 : dim > n
      · refine Agree.bind (.refl _) fun _ => Agree.bind (.refl _) fun _ => Agree.bind (.refl _) fun _ => ?_
        exact Agree.bind (randomPrime_agree _ _ ⟨by omega, by omega⟩) fun _ => .refl _
      · rw [decide_eq_true hd, decide_eq_true h1, decide_eq_false h2]; exact .done (.error .throw)
    · rw [decide_eq_true hd, decide_eq_false h1]; exact .done (.error .throw)
  · rw [decide_eq_false hd]; exact .done (.error .throw)

-- bounds that are far apart, rejected words and a coin
example : ((do let a ← integer (-2 ^ 63) (2 ^ 63 - 1); let b ← bit; let c ← integer 0 (2 ^ 63 + 2 ^ 62); pure (a, b, c) : Rand (Int × Bool × Int))).run true
    [0, 5, 2 ^ 63 + 7, 77] = ((do let a ← integer (-2 ^ 63) (2 ^ 63 - 1); let b ← bit; let c ← integer 0 (2 ^ 63 + 2 ^ 62); pure (a, b, c)).run false
    [0, 5, 2 ^ 63 + 7, 77]) := C97_int128 _ _ (by decide)

/-! ## Sorting -/

/-- `Random::increasing`, `decreasing`, `nonDecreasing` and `nonIncreasing` (src/validate.h 1754-1785) for an arbitrary `std::sort`. -/
def sortedWith (sort : (Int → Int → Bool) → List Int → List Int) (down : Bool) (values : Rand (List Int)) : Rand (List Int) := do
  let res ← values
  pure (sort (if down then fun a b => decide (b < a) else fun a b => decide (a < b)) res)

theorem sort_less {sort : (Int → Int → Bool) → List Int → List Int} (h : SortContract sort) (l : List Int) :
    sort (fun a b => decide (a < b)) l = stdSort l := by
  obtain ⟨hp, hs⟩ := h (fun a b => decide (a < b)) l ⟨fun a _ => by simp, fun a _ b _ c _ h1 h2 => by
    simp only [decide_eq_true_eq] at *; omega, fun a _ b _ c _ h1 h2 => by simp only [decide_eq_false_iff_not] at *; omega⟩
  refine List.Perm.eq_of_pairwise (le := (· ≤ ·)) (fun a b _ _ h1 h2 => le_antisymm h1 h2) (hs.imp fun h => ?_) (stdSort_sorted l) (hp.trans (stdSort_perm l).symm)
  simpa using h

theorem sort_greater {sort : (Int → Int → Bool) → List Int → List Int} (h : SortContract sort) (l : List Int) :
    sort (fun a b => decide (b < a)) l = (stdSort l).reverse := by
  obtain ⟨hp, hs⟩ := h (fun a b => decide (b < a)) l ⟨fun a _ => by simp, fun a _ b _ c _ h1 h2 => by
    simp only [decide_eq_true_eq] at *; omega, fun a _ b _ c _ h1 h2 => by simp only [decide_eq_false_iff_not] at *; omega⟩
  refine List.Perm.eq_of_pairwise (le := (· ≥ ·)) (fun a b _ _ h1 h2 => le_antisymm h2 h1) (hs.imp fun h => ?_)
    (List.pairwise_reverse.2 (stdSort_sorted l)) (hp.trans ((stdSort l).reverse_perm.trans (stdSort_perm l)).symm)
  simpa using h

/-- **C97, sorting.** The sorted sequences are the same for every sorting algorithm that fulfils the contract of `std::sort`. -/
theorem C97_sort (sort : (Int → Int → Bool) → List Int → List Int) (h : SortContract sort) (count lower upper : Int) :
    sortedWith sort false (distinct count lower upper) = increasing count lower upper ∧
    sortedWith sort true (distinct count lower upper) = decreasing count lower upper ∧
    sortedWith sort false (multiple count lower upper) = nonDecreasing count lower upper ∧
    sortedWith sort true (multiple count lower upper) = nonIncreasing count lower upper := by
  unfold sortedWith increasing decreasing nonDecreasing nonIncreasing
  simp only [Bool.false_eq_true, if_false, if_true, sort_less h, sort_greater h, and_self]

/-- A sorting function that orders equivalent elements the other way round. -/
def sortBack {α : Type} (less : α → α → Bool) (l : List α) : List α := sortBy less l.reverse

theorem sortBack_contract {α : Type} : SortContract (α := α) sortBack := by
  intro less l hw
  obtain ⟨h1, h2⟩ := sortBy_contract less l.reverse ⟨fun a ha => hw.1 a (by simpa using ha), fun a ha b hb c hc => hw.2.1 a (by simpa using ha) b (by simpa using hb) c (by simpa using hc),
    fun a ha b hb c hc => hw.2.2 a (by simpa using ha) b (by simpa using hb) c (by simpa using hc)⟩
  exact ⟨h1.trans l.reverse_perm, h2⟩

example : (sortedWith sortBack true (distinct 3 10 20)).run true [2 ^ 63, 5, 2 ^ 64 - 1] = (decreasing 3 10 20).run true [2 ^ 63, 5, 2 ^ 64 - 1] := by
  rw [(C97_sort sortBack sortBack_contract 3 10 20).2.1]

example : sortBack (fun a b : Int => decide (a % 2 < b % 2)) [1, 3, 2] = [2, 3, 1] ∧ sortBy (fun a b : Int => decide (a % 2 < b % 2)) [1, 3, 2] = [2, 1, 3] := by
  decide +kernel

/-! ## `Random::convex` -/

/-- A partition that reverses the order. -/
def backPartition {α : Type} (p : α → Bool) (l : List α) : List α := stablePartition p l.reverse

theorem backPartition_contract {α : Type} : PartitionContract (α := α) backPartition := by
  intro p l
  obtain ⟨h1, h2⟩ := stablePartition_contract p l.reverse
  exact ⟨h1.trans l.reverse_perm, h2⟩

/-- **C97 fails for `Random::convex`**: the same words of the engine lead to different polygons for two partitions that both fulfil the
contract of `std::partition`, ... -/
theorem C97_partition_refuted : ∃ part part' : (Int → Bool) → List Int → List Int, PartitionContract part ∧ PartitionContract part' ∧
    ∃ words pts pts', (∀ w ∈ words, w < 2 ^ 64) ∧ (convex part sortBy (fun m => pure (m / 2)) 1 7 10).run true words = some (.ok pts, []) ∧
      (convex part' sortBy (fun m => pure (m / 2)) 1 7 10).run true words = some (.ok pts', []) ∧ ¬ pts.Perm pts' :=
  ⟨stablePartition, backPartition, stablePartition_contract, backPartition_contract,
    (List.range 21).map fun i => (i * 7777777777777777777 + 12345) % 2 ^ 64,
    [(9, 9), (-2, 6), (-9, 1), (-9, -9), (-3, -8), (4, -1), (6, 2)], [(9, 2), (-2, 9), (-9, 4), (-7, 1), (0, -9), (6, -8), (9, -1)],
    by decide +kernel, by decide +kernel, by decide +kernel, by decide +kernel⟩

/-- ... and for two sorting functions that both fulfil the contract of `std::sort`, because parallel edges are equivalent. -/
theorem C97_convex_sort_refuted : ∃ sort sort' : (Pt → Pt → Bool) → List Pt → List Pt, SortContract sort ∧ SortContract sort' ∧
    ∃ words pts pts' rest, (∀ w ∈ words, w < 2 ^ 64) ∧ (convex stablePartition sort (fun m => pure (m / 2)) 1 4 3).run true words = some (.ok pts, rest) ∧
      (convex stablePartition sort' (fun m => pure (m / 2)) 1 4 3).run true words = some (.ok pts', rest) ∧ ¬ pts.Perm pts' := by
  refine ⟨sortBy, sortBack, sortBy_contract, sortBack_contract, (List.range 8).map fun i => (i * 7777777777777777777 + 123456789012345) % 2 ^ 64, [(2, 2), (-2, 0), (2, -2), (2, 1)], [(2, 2), (-2, 0), (2, -2), (2, -1)], [], ?_, ?_, ?_, ?_⟩ <;> decide +kernel

/-- A result of `std::partition` up to the order within the two parts. -/
theorem partition_shape {part : (Int → Bool) → List Int → List Int} (hp : PartitionContract part) (p : Int → Bool) (l : List Int) :
    ∃ yes no, part p l = yes ++ no ∧ yes.Perm (l.filter p) ∧ no.Perm (l.filter fun a => !p a) := by
  obtain ⟨h, yes, no, e, h1, h2⟩ := hp p l
  rw [e] at h
  refine ⟨yes, no, e, ?_, ?_⟩
  · have := h.filter p
    rwa [List.filter_append, List.filter_eq_self.2 h1, List.filter_eq_nil_iff.2 (fun a ha => by rw [h2 a ha]; simp), List.append_nil] at this
  · have := h.filter fun a => !p a
    rwa [List.filter_append, List.filter_eq_nil_iff (l := yes) |>.2 (fun a ha => by rw [h1 a ha]; simp),
      List.filter_eq_self (l := no) |>.2 (fun a ha => by rw [h2 a ha]; rfl), List.nil_append] at this

theorem eq_of_zeros {a b : List Int} (h : a.Perm b) (hb : ∀ z ∈ b, z = 0) : a = b := by
  rw [List.eq_replicate_of_mem (a := 0) (l := a) fun z hz => hb z (h.subset hz), List.eq_replicate_of_mem (a := 0) (l := b) hb, h.length_eq]

/-- The directions after the two partitions, with the parts given. -/
theorem convexDirs_parts {part : (Int → Bool) → List Int → List Int} {n : Int} {x y xz xn yn yz : List Int}
    (ex : part (fun z => decide (z = 0)) x = xz ++ xn) (ey : part (fun z => decide (z ≠ 0)) y = yn ++ yz)
    (hxz : ∀ z ∈ xz, z = 0) (hxn : ∀ z ∈ xn, z ≠ 0) (hyn : ∀ z ∈ yn, z ≠ 0) (hyz : ∀ z ∈ yz, z = 0) (g : Option (List Pt) → ℚ) :
    expect (convexDirs part n x y) g = if (xz.length : Int) + yz.length > n then g none
      else expect (shuffle xn) fun t => if xz = [] then g (some (t.zip (yn ++ yz)))
        else expect (shuffle yn) fun u => g (some ((xz ++ t).zip (u ++ yz))) := by
  have cx : (xz ++ xn).countP (fun z => decide (z = 0)) = xz.length := countP_split (fun a ha => by simpa using hxz a ha) fun a ha => by simpa using hxn a ha
  have cy : (yn ++ yz).countP (fun z => decide (z ≠ 0)) = yn.length := countP_split (fun a ha => by simpa using hyn a ha) fun a ha => by simpa using hyz a ha
  unfold convexDirs
  dsimp only
  rw [ex, ey, cx, cy, List.length_append, Nat.add_sub_cancel_left]
  split
  · rfl
  · unfold shuffleBack shuffleFront
    rw [List.drop_left, List.take_left, List.drop_left, List.take_left]
    cases xz with
    | nil => simp [expect_bind]
    | cons a xz => simp [expect_bind]

/-- The directions have the same law for all partitions, up to their order. -/
theorem convexDirs_law {part part' : (Int → Bool) → List Int → List Int} (hp : PartitionContract part) (hp' : PartitionContract part') (n : Int)
    (x y : List Int) (hx : x.length < 2 ^ 63) (hy : y.length = x.length) (g : Option (List Pt) → ℚ)
    (hg : ∀ a b : List Pt, a.Perm b → g (some a) = g (some b)) :
    expect (convexDirs part n x y) g = expect (convexDirs part' n x y) g := by
  obtain ⟨xz, xn, ex, hxz, hxn⟩ := partition_shape hp (fun z => decide (z = 0)) x
  obtain ⟨yn, yz, ey, hyn, hyz⟩ := partition_shape hp (fun z => decide (z ≠ 0)) y
  obtain ⟨xz', xn', ex', hxz', hxn'⟩ := partition_shape hp' (fun z => decide (z = 0)) x
  obtain ⟨yn', yz', ey', hyn', hyz'⟩ := partition_shape hp' (fun z => decide (z ≠ 0)) y
  have m1 : ∀ z ∈ xz, z = 0 := fun z hz => by simpa using (List.mem_filter.1 (hxz.subset hz)).2
  have m2 : ∀ z ∈ xn, z ≠ 0 := fun z hz => by simpa using (List.mem_filter.1 (hxn.subset hz)).2
  have m3 : ∀ z ∈ yn, z ≠ 0 := fun z hz => by simpa using (List.mem_filter.1 (hyn.subset hz)).2
  have m4 : ∀ z ∈ yz, z = 0 := fun z hz => by simpa using (List.mem_filter.1 (hyz.subset hz)).2
  have m2' : ∀ z ∈ xn', z ≠ 0 := fun z hz => by simpa using (List.mem_filter.1 (hxn'.subset hz)).2
  have m3' : ∀ z ∈ yn', z ≠ 0 := fun z hz => by simpa using (List.mem_filter.1 (hyn'.subset hz)).2
  obtain rfl : xz' = xz := eq_of_zeros (hxz'.trans hxz.symm) m1
  obtain rfl : yz' = yz := eq_of_zeros (hyz'.trans hyz.symm) m4
  have px : xn.Perm xn' := hxn.trans hxn'.symm
  have py : yn.Perm yn' := hyn.trans hyn'.symm
  have lx : xn'.length ≤ x.length := by rw [hxn'.length_eq]; exact List.length_filter_le _ _
  have ly : yn'.length ≤ y.length := by rw [hyn'.length_eq]; exact List.length_filter_le _ _
  rw [convexDirs_parts ex ey m1 m2 m3 m4, convexDirs_parts ex' ey' m1 m2' m3' m4]
  by_cases hc : (xz'.length : Int) + yz'.length > n
  · rw [if_pos hc, if_pos hc]
  rw [if_neg hc, if_neg hc, expect_shuffle_of_perm (by omega) px]
  by_cases h0 : xz' = []
  · simp only [if_pos h0]
    have l1 := (hp' (fun z => decide (z = 0)) x).1.length_eq
    have l2 := (hp' (fun z => decide (z ≠ 0)) y).1.length_eq
    rw [ex', h0, List.nil_append] at l1
    rw [ey'] at l2
    exact expect_shuffle_zip (g := fun l => g (some l)) (by omega) (by omega) (py.append_right _) hg
  · simp only [if_neg h0]
    congr 1
    funext t
    exact expect_shuffle_of_perm (by omega) py _

theorem edges_polygon (s : Pt) (ds : List Pt) (h0 : ds.sum = 0) : edges (polygon s ds) = ds := by
  unfold edges
  refine List.ext_getElem (by simp) fun i h1 h2 => ?_
  rw [List.getElem_zipWith, List.getElem_rotate, polygon_get, polygon_get, polygon_length]
  have hstep := take_succ_sum ds i h2
  have key : (ds.take ((i + 1) % ds.length)).sum = (ds.take i).sum + ds[i] := by
    rcases Nat.lt_or_ge (i + 1) ds.length with h | h
    · rw [Nat.mod_eq_of_lt h, hstep]
    · have e1 : i + 1 = ds.length := by omega
      rw [← hstep, e1, Nat.mod_self, List.take_zero, List.take_length, h0, List.sum_nil]
  rw [key]
  refine Prod.ext ?_ ?_ <;> simp

/-- What `convexPlace` needs. -/
def Placeable (n dim : Int) (ds : List Pt) : Prop := ds.length = n.toNat ∧ (∀ d ∈ ds, d ≠ 0) ∧ Edges (2 * dim - 2) ds

theorem Placeable.perm {n dim : Int} {a b : List Pt} (h : Placeable n dim a) (hab : a.Perm b) : Placeable n dim b :=
  ⟨hab.length_eq ▸ h.1, fun d hd => h.2.1 d (hab.symm.subset hd), ⟨h.2.2.x.perm (hab.symm.map _), h.2.2.y.perm (hab.symm.map _)⟩⟩

/-- The bag of edges decides the value of `h`. -/
theorem place_value {sort sort' : (Pt → Pt → Bool) → List Pt → List Pt} (hs : SortContract sort) (hs' : SortContract sort') {n dim : Int}
    (h3 : 3 ≤ n) (hd1 : 2 ≤ dim) (hd : dim ≤ 0x3FFFFFFF) {h : List Pt → ℚ} (hh : ∀ a b, (edges a).Perm (edges b) → h a = h b)
    {a b : List Pt} (ha : Placeable n dim a) (hab : a.Perm b) :
    expect (Rand.lift (convexPlace sort dim a)) h = expect (Rand.lift (convexPlace sort' dim b)) h := by
  obtain ⟨s, ds, e, p, z, _⟩ := convexPlace_polygon hs h3 hd1 hd ha.1 ha.2.1 ha.2.2
  have hb := ha.perm hab
  obtain ⟨s', ds', e', p', z', _⟩ := convexPlace_polygon hs' h3 hd1 hd hb.1 hb.2.1 hb.2.2
  rw [e, e']
  show h _ = h _
  apply hh
  rw [edges_polygon s ds z, edges_polygon s' ds' z']
  exact p.trans (hab.trans p'.symm)

open Classical in
theorem convexLoop_law {part part' : (Int → Bool) → List Int → List Int} (hp : PartitionContract part) (hp' : PartitionContract part')
    {sort sort' : (Pt → Pt → Bool) → List Pt → List Pt} (hs : SortContract sort) (hs' : SortContract sort')
    {binom : Int → Rand Int} (hb : ∀ m, 0 ≤ m → SatOk (binom m) fun v => 0 ≤ v ∧ v ≤ m) {n dim : Int}
    (h3 : 3 ≤ n) (h1 : n ≤ 8 * dim - 8) (hd : dim ≤ 0x3FFFFFFF) {h : List Pt → ℚ} (hh : ∀ a b, (edges a).Perm (edges b) → h a = h b) : ∀ fuel,
    expect (convexLoop part sort binom n dim fuel) h = expect (convexLoop part' sort' binom n dim fuel) h
  | 0 => rfl
  | fuel + 1 => by
    have ih := convexLoop_law hp hp' hs hs' hb h3 h1 hd hh fuel
    unfold convexLoop
    rw [expect_bind, expect_bind]
    refine expect_congr_ok (convexDraw_sat hb h3 h1 hd) fun xy hxy => ?_
    rw [expect_bind, expect_bind]
    let G : Option (List Pt) → ℚ := fun o => match o with
      | none => expect (convexLoop part sort binom n dim fuel) h
      | some a => if Placeable n dim a then expect (Rand.lift (convexPlace sort dim a)) h else 0
    refine Eq.trans (b := expect (convexDirs part n xy.1 xy.2) G) (expect_congr_ok (convexDirs_sat hp (by omega) (by omega) hxy.1.1 hxy.2.1) fun r hr => ?_)
      (Eq.trans (b := expect (convexDirs part' n xy.1 xy.2) G) ?_
        (expect_congr_ok (convexDirs_sat hp' (by omega) (by omega) hxy.1.1 hxy.2.1) fun r hr => ?_))
    · rcases hr with ⟨rfl, _⟩ | ⟨ds, rfl, _, hl, hz, hx, hy⟩
      · rfl
      · exact (if_pos (c := Placeable n dim ds) ⟨hl, hz, ⟨hxy.1.2.perm hx, hxy.2.2.perm hy⟩⟩).symm
    · refine convexDirs_law hp hp' n _ _ (by rw [hxy.1.1]; omega) (by rw [hxy.1.1, hxy.2.1]) G fun a b hab => ?_
      show (if Placeable n dim a then _ else _) = if Placeable n dim b then _ else _
      by_cases ha : Placeable n dim a
      · rw [if_pos ha, if_pos (ha.perm hab)]
        exact place_value hs hs h3 (by omega) hd hh ha hab
      · rw [if_neg ha, if_neg fun hb' => ha (hb'.perm hab.symm)]
    · rcases hr with ⟨rfl, _⟩ | ⟨ds, rfl, _, hl, hz, hx, hy⟩
      · exact ih
      · have hpl : Placeable n dim ds := ⟨hl, hz, ⟨hxy.1.2.perm hx, hxy.2.2.perm hy⟩⟩
        exact (if_pos hpl).trans (place_value hs hs' h3 (by omega) hd hh hpl (List.Perm.refl _))

/-- **C97 for `Random::convex`, partial**: the law of the bag of edges does not depend on the partition and the sorting function.
Missing: equality for the same words of the engine, which is false, and the law of the order of parallel edges. -/
theorem C97_convex_partial (part part' : (Int → Bool) → List Int → List Int) (hp : PartitionContract part) (hp' : PartitionContract part')
    (sort sort' : (Pt → Pt → Bool) → List Pt → List Pt) (hs : SortContract sort) (hs' : SortContract sort')
    (binom : Int → Rand Int) (hb : ∀ m, 0 ≤ m → SatOk (binom m) fun v => 0 ≤ v ∧ v ≤ m) (n dim : Int)
    (h3 : 3 ≤ n) (h1 : n ≤ 8 * dim - 8) (hd : dim ≤ 0x3FFFFFFF) (h : List Pt → ℚ) (hh : ∀ a b, (edges a).Perm (edges b) → h a = h b) (fuel : Nat) :
    expect (convex part sort binom fuel n dim) h = expect (convex part' sort' binom fuel n dim) h := by
  rw [convex_unfold h3 h1 hd, convex_unfold h3 h1 hd]
  exact convexLoop_law hp hp' hs hs' hb h3 h1 hd hh fuel

/-! ## `Random::real` -/

section Real
open ICPC.Fp ICPC.Spec.Fp

theorem exponentLoop_le : ∀ {ws rest : List Nat} {e : Nat}, exponentLoop ws = some (e, rest) → e + 64 * rest.length ≤ 64 * ws.length
  | [], rest, e, h => by simp [exponentLoop] at h
  | x :: ws, rest, e, h => by
    have hz : ∀ y, trailingZeros y ≤ 64 := fun y => by
      unfold trailingZeros popcount64
      exact List.countP_le_length.trans (by simp)
    unfold exponentLoop at h
    split at h
    · rw [Option.map_eq_some_iff] at h
      obtain ⟨⟨e', r⟩, h1, h2⟩ := h
      have := exponentLoop_le h1
      have := hz 0
      injection h2 with h2 h3
      dsimp only at h2 h3
      subst h3
      rw [List.length_cons]
      omega
    · injection h with h
      injection h with h2 h3
      have := hz x
      subst h3
      rw [List.length_cons]
      omega

/-- The values of `real()` have 53 binary digits. -/
theorem realWords_digits {ws rest : List Nat} {x : ℚ} (hw : ∀ w ∈ ws, w < 2 ^ 64) (h : realWords ws = some (x, rest)) :
    ∃ q e : ℕ, q ≤ 2 ^ 53 ∧ e + 64 * rest.length ≤ 64 * ws.length ∧ x = q / 2 ^ (53 + e) := by
  cases ws with
  | nil => simp [realWords] at h
  | cons w ws =>
    unfold realWords at h
    rw [Option.map_eq_some_iff] at h
    obtain ⟨⟨e, r⟩, h1, h2⟩ := h
    injection h2 with h2 h3
    dsimp only at h2 h3
    subst h3
    have hlt : w ||| 2 ^ 63 < 2 ^ 64 := Nat.or_lt_two_pow (hw w (by simp)) (by norm_num)
    obtain ⟨q, hq, e2⟩ : ∃ q, q ≤ 2 ^ 53 ∧ toDouble (w ||| 2 ^ 63) = 2 ^ 11 * q := by
      refine ⟨_, ?_, rfl⟩
      split <;> omega
    refine ⟨q, e, hq, ?_, ?_⟩
    · have := exponentLoop_le h1
      rw [List.length_cons]
      omega
    · rw [← h2, e2, show 64 + e = 11 + (53 + e) by omega, pow_add (2 : ℚ) 11]
      push_cast
      field_simp
      norm_num [mul_comm]

/-- The product with a number of few digits is exact. -/
theorem mul_exact {F : Format} {m q e : ℕ} {k : ℤ} (hF : m * 2 ^ 53 ≤ 2 ^ F.p) (hq : q ≤ 2 ^ 53) (h1 : F.emin ≤ k - 53 - e) (h2 : k ≤ F.emax) :
    mul F (.fin ((q : ℚ) / 2 ^ (53 + e))) (.fin ((m : ℚ) * 2 ^ k)) = .fin ((q : ℚ) / 2 ^ (53 + e) * ((m : ℚ) * 2 ^ k)) := by
  show Fp.round F _ = _
  apply round_of_rep
  have hval : (q : ℚ) / 2 ^ (53 + e) * ((m : ℚ) * 2 ^ k) = ((q * m : ℕ) : ℤ) * (2 : ℚ) ^ (k - 53 - e) := by
    rw [show k - 53 - (e : ℤ) = k - ((53 + e : ℕ) : ℤ) by push_cast; ring, zpow_sub₀ two_ne_zero, zpow_natCast]
    push_cast
    field_simp
  have hle : q * m ≤ 2 ^ F.p := (Nat.mul_le_mul_right m hq).trans (by rw [Nat.mul_comm]; exact hF)
  rcases hle.lt_or_eq with h | h
  · exact ⟨(q * m : ℕ), k - 53 - e, by rw [abs_of_nonneg (by positivity)]; exact_mod_cast h, h1, by omega, hval⟩
  · rw [hval, h]
    rcases hp : F.p with _ | p
    · rw [hp] at hF h
      have : m = 0 := by
        by_contra hm
        have := Nat.mul_le_mul_right (2 ^ 53) (Nat.one_le_iff_ne_zero.2 hm)
        norm_num at this hF
        omega
      subst this
      simp at h
    · refine ⟨2 ^ p, k - 53 - e + 1, ?_, by omega, by omega, ?_⟩
      · rw [hp, abs_of_nonneg (by positivity)]
        exact pow_lt_pow_right₀ (by norm_num) (by omega)
      · rw [zpow_add_one₀ two_ne_zero]
        push_cast
        rw [pow_succ]
        ring

theorem realUpperLoop_same {F G : Format} {m : ℕ} {k : ℤ} (hF : m * 2 ^ 53 ≤ 2 ^ F.p) (hG : m * 2 ^ 53 ≤ 2 ^ G.p) (hF2 : k ≤ F.emax) (hG2 : k ≤ G.emax) :
    ∀ (fuel : ℕ) (ws : List Nat), (∀ w ∈ ws, w < 2 ^ 64) → F.emin ≤ k - 53 - 64 * (ws.length : ℤ) → G.emin ≤ k - 53 - 64 * (ws.length : ℤ) →
    realUpperLoop F (.fin (m * 2 ^ k)) fuel ws = realUpperLoop G (.fin (m * 2 ^ k)) fuel ws
  | 0, _, _, _, _ => rfl
  | fuel + 1, ws, hw, h1, h2 => by
    unfold realUpperLoop
    rcases hr : realWords ws with _ | ⟨x, rest⟩
    · rfl
    · obtain ⟨q, e, hq, he, rfl⟩ := realWords_digits hw hr
      dsimp only
      rw [mul_exact hF hq (by omega) hF2, mul_exact hG hq (by omega) hG2]
      split
      · rfl
      · refine realUpperLoop_same hF hG hF2 hG2 fuel rest ?_ (by omega) (by omega)
        obtain ⟨pre, rfl⟩ := realWords_suffix hr
        exact fun w hm => hw w (List.mem_append_right _ hm)

/-- **C97 for `Random::real(upper)`, partial**: two formats give the same result for the same words if the bound has so few digits that
the products are exact, for example a power of two, or a natural number below 2048 for two formats with 64 digits.
Missing: other bounds, for which it is false. -/
theorem C97_real_partial (F G : Format) (m : ℕ) (k : ℤ) (hF : m * 2 ^ 53 ≤ 2 ^ F.p) (hG : m * 2 ^ 53 ≤ 2 ^ G.p) (hF2 : k ≤ F.emax) (hG2 : k ≤ G.emax)
    (fuel : ℕ) (ws : List Nat) (hw : ∀ w ∈ ws, w < 2 ^ 64) (h1 : F.emin ≤ k - 53 - 64 * (ws.length : ℤ)) (h2 : G.emin ≤ k - 53 - 64 * (ws.length : ℤ)) :
    realUpper F fuel (.fin (m * 2 ^ k)) ws = realUpper G fuel (.fin (m * 2 ^ k)) ws := by
  unfold realUpper
  rw [realUpperLoop_same hF hG hF2 hG2 fuel ws hw h1 h2]

/-- The format of `double`, which some compilers use for `long double`. -/
def binary64 : Format := ⟨53, -1074, 971, by norm_num, by norm_num⟩

/-- The extended format of x87 and the format of `double`, which some compilers use for `long double`, for the bound 8. -/
example : realUpper x87 2 (.fin ((1 : ℕ) * 2 ^ (3 : ℤ))) [2 ^ 63 + 2 ^ 11, 1] =
    realUpper binary64 2 (.fin ((1 : ℕ) * 2 ^ (3 : ℤ))) [2 ^ 63 + 2 ^ 11, 1] :=
  C97_real_partial x87 binary64 1 3 (by norm_num [x87]) (by norm_num [binary64]) (by norm_num [x87]) (by norm_num [binary64]) 2 _ (by decide)
    (by norm_num [x87]) (by norm_num [binary64])

/-- **C97 fails for `Random::real`** where `long double` has different formats: x87 and `double` give different numbers below 3. -/
theorem C97_real_refuted : ∃ ws : List Nat, (∀ w ∈ ws, w < 2 ^ 64) ∧ ∃ a b : ℚ, a ≠ b ∧
    realUpper x87 1 (.fin 3) ws = some (.ok (.fin a), []) ∧ realUpper binary64 1 (.fin 3) ws = some (.ok (.fin b), []) :=
  ⟨[2 ^ 63 + 2 ^ 11, 1], by decide, 13510798882111491 / 9007199254740992, 3377699720527873 / 2251799813685248, by norm_num, by decide +kernel, by decide +kernel⟩

end Real

end ICPC.Props
