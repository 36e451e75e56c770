import Verif.Lemmas.Num

/-!
# Property theorems C23 - C26 (range, Thue-Morse, modular arithmetic)
-/

namespace ICPC.Props
open ICPC ICPC.Spec

/-- **C24.** `thueMorse(lower, upper)` with `0 ≤ lower < upper` returns exactly `t(lower), ..., t(upper-1)` of
the Thue-Morse sequence; other arguments throw. -/
theorem C24_thueMorse (lower upper : Int) (h1 : I64 lower) (h2 : I64 upper) :
    (0 ≤ lower ∧ lower < upper →
      ∃ xs, thueMorse lower upper = .ok xs ∧ xs.length = (upper - lower).toNat ∧
        ∀ i (h : i < xs.length), xs[i] = (thueMorseBit (lower.toNat + i) : Int)) ∧
    (¬ (0 ≤ lower ∧ lower < upper) → thueMorse lower upper = .error .throw) := by
  obtain ⟨hl1, hl2⟩ := h1; obtain ⟨hu1, hu2⟩ := h2
  constructor
  · rintro ⟨h0, hlt⟩
    refine ⟨thueMorseLoop (toU64 lower) (upper - lower).toNat, ?_, by simp [thueMorseLoop], ?_⟩
    · have hc : chk (upper - lower) = .ok (upper - lower) := chk_ok ⟨by omega, by omega⟩
      simp [thueMorse, judgeAssert, hlt, h0, hc, bind, Except.bind]
    · intro i h
      simp only [thueMorseLoop, List.length_map, List.length_range] at h
      simp only [thueMorseLoop, List.getElem_map, List.getElem_range]
      rw [toU64_nonneg h0 (by omega), Nat.mod_eq_of_lt (by omega : i + lower.toNat < 2 ^ 64),
        popcount64_parity _ (by omega), Nat.add_comm]
  · intro h
    by_cases hlt : lower < upper
    · have h0 : ¬ lower ≥ 0 := fun h0 => h ⟨h0, hlt⟩
      simp [thueMorse, judgeAssert, hlt, h0, bind, Except.bind]
    · simp [thueMorse, judgeAssert, hlt, bind, Except.bind]

example : thueMorse 4 12 = .ok [1, 0, 0, 1, 1, 0, 0, 1] := by decide

example : thueMorseBit 7 = 1 ∧ thueMorseBit 6 = 0 := by decide +kernel

/-! ### range -/

/-- **C23.** For 64-bit `from`, `to` and `step ∉ {0, -2^63}` the call `range(from, to, step)` returns (without
overflow) the progression `from, from+step, ...` of exactly those terms that lie strictly before `to`;
`step = 0` throws. -/
theorem C23_range (frm til step : Int) (h1 : I64 frm) (h2 : I64 til) (h3 : I64 step)
    (hstep : step ≠ 0) (hmin : step ≠ -2 ^ 63) :
    ∃ xs, range frm til step = .ok xs ∧ IsProgression frm step xs ∧
      (∀ x, x ∈ xs ↔ ∃ i : Nat, x = frm + (i : Int) * step ∧ Before step x til) := by
  obtain ⟨hf1, hf2⟩ := h1; obtain ⟨ht1, ht2⟩ := h2; obtain ⟨hs1, hs2⟩ := h3
  by_cases hempty : (step > 0 ∧ til ≤ frm) ∨ (step < 0 ∧ frm ≤ til)
  · refine ⟨[], ?_, by intro i h; simp at h, ?_⟩
    · rcases hempty with h | h
      · simp [range, judgeAssert, hstep, h, bind, Except.bind, pure, Except.pure]
      · have : ¬ (step > 0 ∧ til ≤ frm) := by omega
        simp [range, judgeAssert, hstep, h, this, bind, Except.bind, pure, Except.pure]
    · intro x
      simp only [List.not_mem_nil, false_iff]
      rintro ⟨i, rfl, hb⟩
      rcases hempty with h | h
      · rcases hb with hb | hb
        · have : 0 ≤ (i : Int) * step := Int.mul_nonneg (by omega) (by omega)
          omega
        · omega
      · rcases hb with hb | hb
        · omega
        · have : (i : Int) * step ≤ 0 := by
            have := Int.mul_nonneg (by omega : 0 ≤ (i : Int)) (by omega : 0 ≤ -step)
            rw [Int.mul_neg] at this; omega
          omega
  · -- the distance and the absolute step
    obtain ⟨D, hD, hDdef⟩ : ∃ D : Int, 0 < D ∧ D = if step < 0 then frm - til else til - frm := by
      refine ⟨_, ?_, rfl⟩
      split <;> omega
    obtain ⟨s, hs, hsdef⟩ : ∃ s : Int, 0 < s ∧ s = (step.natAbs : Int) := ⟨_, by omega, rfl⟩
    have hDlt : D < 2 ^ 64 := by rw [hDdef]; split <;> omega
    have hchk : chk (step.natAbs : Int) = .ok s := by rw [← hsdef]; exact chk_ok ⟨by omega, by omega⟩
    have hn := range_distance frm til step hf1 hf2 ht1 ht2 (by omega)
    rw [← hDdef] at hn
    have hsz := range_size D s hD hDlt hs (by omega)
    obtain ⟨K, hK⟩ : ∃ K : Nat, K = ((D - 1) / s).toNat := ⟨_, rfl⟩
    have e3 : 0 ≤ (D - 1) / s := Int.ediv_nonneg (by omega) (by omega)
    have hKc : (K : Int) = (D - 1) / s := by omega
    obtain ⟨c1, c2⟩ := count_bounds D s hs
    rw [← hKc] at c1 c2
    have hcond : ∀ i : Nat, Before step (frm + (i : Int) * step) til ↔ i ≤ K := by
      intro i
      have hiff : Before step (frm + (i : Int) * step) til ↔ (i : Int) * s < D := by
        unfold Before
        rw [hDdef]
        by_cases hneg : step < 0
        · have : s = -step := by omega
          rw [this, if_pos hneg, Int.mul_neg]; omega
        · have : s = step := by omega
          rw [this, if_neg hneg]; omega
      rw [hiff]
      constructor
      · intro h
        by_contra hc
        have : ((K : Int) + 1) * s ≤ (i : Int) * s := Int.mul_le_mul_of_nonneg_right (by omega) (by omega)
        omega
      · intro h
        have : (i : Int) * s ≤ (K : Int) * s := Int.mul_le_mul_of_nonneg_right (by omega) (by omega)
        omega
    have hrange := range_unfold frm til step s D K hstep (fun h => hempty (Or.inl h)) (fun h => hempty (Or.inr h))
      hchk hn (by rw [hsz, ← hK])
    have hterm : ∀ i : Nat, i ≤ K → I64 (frm + (i : Int) * step) := by
      intro i hi
      have hb := (hcond i).2 hi
      have h0 : 0 ≤ (i : Int) := by omega
      rcases hb with hb | hb
      · have : 0 ≤ (i : Int) * step := Int.mul_nonneg h0 (by omega)
        exact ⟨by omega, by omega⟩
      · have : (i : Int) * step ≤ 0 := by
          have := Int.mul_nonneg h0 (by omega : 0 ≤ -step)
          rw [Int.mul_neg] at this; omega
        exact ⟨by omega, by omega⟩
    refine ⟨(List.range (K + 1)).map fun i : Nat => frm + (i : Int) * step, ?_, ?_, ?_⟩
    · rw [hrange, rangeLoop_spec step K frm (fun i hi => by
        have := hterm (i + 1) (by omega)
        push_cast at this; exact this)]
      simp only [bind, Except.bind, pure, Except.pure]
      rw [List.range_succ_eq_map]
      simp [List.map_map, Function.comp_def]
    · intro i h
      simp
    · intro x
      simp only [List.mem_map, List.mem_range]
      constructor
      · rintro ⟨i, hi, rfl⟩
        exact ⟨i, rfl, (hcond i).2 (by omega)⟩
      · rintro ⟨i, rfl, hb⟩
        exact ⟨i, by have := (hcond i).1 hb; omega, rfl⟩

example : range 10 (-2) (-5) = .ok [10, 5, 0] := by decide +kernel

example : range (2 ^ 63 - 3) (2 ^ 63 - 1) 1 = .ok [2 ^ 63 - 3, 2 ^ 63 - 2] := by decide +kernel

/-- `step = -2^63` is undefined behaviour (`std::abs`). -/
example : range 5 0 (-2 ^ 63) = .error .ub := by decide +kernel

example : range 0 5 0 = .error .throw := by decide

/-- **C23, step zero** throws whatever the bounds are. -/
theorem C23_zero (frm til : Int) : range frm til 0 = .error .throw := rfl

/-- **C23, `range(upper)`**: the numbers `0, ..., upper - 1`, none for `upper ≤ 0`. -/
theorem C23_upper (upper : Int) (h : I64 upper) : rangeUpper upper = .ok ((List.range upper.toNat).map fun i : Nat => (i : Int)) := by
  obtain ⟨xs, h1, h2, h3⟩ := C23_range 0 upper 1 (by decide) h (by decide) (by decide) (by decide)
  unfold rangeUpper
  rw [h1]
  have hget : ∀ i (hi : i < xs.length), xs[i] = (i : Int) := by
    intro i hi
    have := h2 i hi
    simpa using this
  have hlen : xs.length = upper.toNat := by
    rcases Nat.lt_trichotomy xs.length upper.toNat with hlt | heq | hgt
    · have hm := (h3 (xs.length : Int)).2 ⟨xs.length, by ring, Or.inl ⟨by decide, by omega⟩⟩
      obtain ⟨j, hj, he⟩ := List.mem_iff_getElem.1 hm
      rw [hget j hj] at he
      omega
    · exact heq
    · have hm := List.getElem_mem hgt
      obtain ⟨i, hi, hb⟩ := (h3 _).1 hm
      rw [hget _ hgt] at hi hb
      rcases hb with hb | hb
      · have := h.1; omega
      · omega
  congr 1
  apply List.ext_getElem
  · simp [hlen]
  · intro i h1 h2
    rw [hget i h1]
    simp

example : rangeUpper 3 = .ok [0, 1, 2] ∧ rangeUpper (-4) = .ok [] := by decide +kernel

/-- **C23, the excluded step.** For `step = -2^63` the call is undefined (`std::abs` overflows) exactly if the progression is not
empty. -/
theorem C23_min_undefined (frm til : Int) :
    (til < frm → range frm til (-2 ^ 63) = .error .ub) ∧ (frm ≤ til → range frm til (-2 ^ 63) = .ok []) := by
  constructor
  · intro h
    have h1 : ¬ frm ≤ til := by omega
    unfold range
    rw [decide_eq_true (by decide), judgeAssert_true, ok_bind, if_neg (by omega), if_neg (by omega)]
    simp only [chk]
    rw [if_neg (by decide)]
    rfl
  · intro h
    unfold range
    rw [decide_eq_true (by decide), judgeAssert_true, ok_bind, if_neg (by omega), if_pos ⟨by decide, h⟩]
    rfl

/-! ### modular arithmetic -/

/-- **C25 (applyMod).** For `mod > 0` the result is the representative in `[0, mod)`. -/
theorem C25_applyMod (x mod : Int) (h : 0 < mod) :
    0 ≤ applyMod x mod ∧ applyMod x mod < mod ∧ applyMod x mod ≡ x [ZMOD mod] := by
  rw [applyMod_eq x mod h]
  exact ⟨Int.emod_nonneg _ (by omega), Int.emod_lt_of_pos _ h, Int.mod_modEq _ _⟩

example : applyMod (-7) 5 = 3 ∧ applyMod (-10) 5 = 0 ∧ applyMod 5 5 = 0 := by decide

/-- **C25 (mulMod).** With and without 128-bit arithmetic, `mulMod(a, b, m)` is the representative of `a*b`
in `[0, m)` for all 64-bit arguments with `m > 0`; it throws for `m ≤ 0`. -/
theorem C25_mulMod (i128 : Bool) (lhs rhs mod : Int) (hm : I64 mod) :
    (0 < mod → ∃ r, mulMod i128 lhs rhs mod = .ok r ∧ 0 ≤ r ∧ r < mod ∧ r ≡ lhs * rhs [ZMOD mod]) ∧
    (mod ≤ 0 → mulMod i128 lhs rhs mod = .error .throw) := by
  obtain ⟨_, hm2⟩ := hm
  constructor
  · intro h0
    have hl := C25_applyMod lhs mod h0
    have hr := C25_applyMod rhs mod h0
    have el := toU64_nonneg hl.1 (by omega)
    have er := toU64_nonneg hr.1 (by omega)
    have em := toU64_nonneg (x := mod) (by omega) (by omega)
    have hlt := Nat.mod_lt ((applyMod lhs mod).toNat * (applyMod rhs mod).toNat) (by omega : 0 < mod.toNat)
    have hr0 : mulMod i128 lhs rhs mod =
        .ok (((applyMod lhs mod).toNat * (applyMod rhs mod).toNat % mod.toNat : Nat) : Int) := by
      simp only [mulMod, judgeAssert, h0, decide_true, if_true, bind, Except.bind, el, er, em]
      rw [detailsMulMod_eq i128 _ _ _ (by omega) (by omega) (by omega), toI64_small (by omega)]
    refine ⟨_, hr0, by omega, by omega, ?_⟩
    rw [Int.natCast_mod, Int.toNat_of_nonneg (by omega)]
    refine (Int.mod_modEq _ _).trans ?_
    rw [Nat.cast_mul, Int.toNat_of_nonneg hl.1, Int.toNat_of_nonneg hr.1]
    exact Int.ModEq.mul hl.2.2 hr.2.2
  · intro h0
    have : ¬ mod > 0 := by omega
    simp [mulMod, judgeAssert, this, bind, Except.bind]

example : mulMod false (2 ^ 62 + 1) (2 ^ 62 - 5) (2 ^ 63 - 25) = .ok ((2 ^ 62 + 1) * (2 ^ 62 - 5) % (2 ^ 63 - 25)) := by
  decide +kernel

/-- **C25 (powMod), partial.** `powMod(b, e, m)` is the representative of `b^e` in `[0, m)` for all 64-bit
arguments with `m > 0`, `e ≥ 0` except for the single case `m = 1, e = 0`; other arguments throw. -/
theorem C25_powMod_partial (i128 : Bool) (base exp mod : Int) (hm : I64 mod) (he : I64 exp) :
    (0 < mod → 0 ≤ exp → ¬ (mod = 1 ∧ exp = 0) →
      ∃ r, powMod i128 base exp mod = .ok r ∧ 0 ≤ r ∧ r < mod ∧ r ≡ base ^ exp.toNat [ZMOD mod]) ∧
    (mod ≤ 0 ∨ exp < 0 → powMod i128 base exp mod = .error .throw) := by
  obtain ⟨_, hm2⟩ := hm; obtain ⟨_, he2⟩ := he
  constructor
  · intro h0 h1 hne
    have hl := C25_applyMod base mod h0
    have el := toU64_nonneg hl.1 (by omega)
    have ee := toU64_nonneg h1 (by omega)
    have em := toU64_nonneg (x := mod) (by omega) (by omega)
    obtain ⟨R, hR⟩ : ∃ R : Nat, R = if exp.toNat = 0 then 1 else (applyMod base mod).toNat ^ exp.toNat % mod.toNat := ⟨_, rfl⟩
    have hlt : R < mod.toNat := by
      rw [hR]; split
      · omega
      · exact Nat.mod_lt _ (by omega)
    have hr0 : powMod i128 base exp mod = .ok (R : Int) := by
      simp only [powMod, judgeAssert, h0, h1, decide_true, if_true, bind, Except.bind, el, ee, em]
      rw [detailsPowMod_eq i128 _ _ _ (by omega) (by omega) (by omega) (by omega), ← hR, toI64_small (by omega)]
    refine ⟨_, hr0, by omega, by omega, ?_⟩
    rw [hR]
    split
    · rename_i hz; rw [hz]; simp [Int.ModEq]
    · rw [Int.natCast_mod, Int.toNat_of_nonneg (by omega : 0 ≤ mod)]
      refine (Int.mod_modEq _ _).trans ?_
      rw [Nat.cast_pow, Int.toNat_of_nonneg hl.1]
      exact Int.ModEq.pow _ hl.2.2
  · intro h
    by_cases hm : mod > 0
    · have : ¬ exp ≥ 0 := by omega
      simp [powMod, judgeAssert, hm, this, bind, Except.bind]
    · simp [powMod, judgeAssert, hm, bind, Except.bind]

example : powMod true (-2) 2 (2 ^ 33 - 9) = .ok 4 ∧ powMod false (-2) 3 (2 ^ 33 - 9) = .ok (2 ^ 33 - 17) := by decide +kernel

example : powMod true (-3) 5 1000 = .ok 757 := by decide +kernel

/-- **C25 is violated in one corner**: `powMod(x, 0, 1)` is 1, which is not in `[0, 1)`. -/
theorem C25_powMod_mod_one_refuted :
    ¬ (∀ (i128 : Bool) (base exp mod : Int), I64 base → I64 exp → I64 mod → 0 < mod → 0 ≤ exp →
        ∃ r, powMod i128 base exp mod = .ok r ∧ 0 ≤ r ∧ r < mod) := by
  intro h
  obtain ⟨r, hr, _, hlt⟩ := h true 5 0 1 (by decide) (by decide) (by decide) (by decide) (by decide)
  have : powMod true 5 0 1 = .ok 1 := by decide +kernel
  rw [this] at hr
  cases hr
  exact absurd hlt (by decide)

/-! ### extended Euclid -/

/-- **C26, partial** (`n ≥ 0`; for negative `n` see below). `multInv(n, m)` returns the inverse of `n` in
`[0, m)` if `n` and `m` are coprime and `-1` otherwise, without overflow. -/
theorem C26_multInv_partial (n mod : Int) (hn0 : 0 ≤ n) (hn : I64 n) (hm0 : 0 < mod) (hm : I64 mod) :
    (Int.gcd n mod = 1 → ∃ r, multInv n mod = .ok r ∧ 0 ≤ r ∧ r < mod ∧ n * r ≡ 1 [ZMOD mod]) ∧
    (Int.gcd n mod ≠ 1 → multInv n mod = .ok (-1)) := by
  obtain ⟨d, x, y, he, hlin, _, _, hd, hpos, _⟩ :=
    extendedEuclid_spec _ n mod rfl (by omega) (by have := hn.2; omega) (by have := hm.2; omega)
  have hdpos := hpos hn0 hm0
  constructor
  · intro hg
    have hd1 : d = 1 := by omega
    subst hd1
    have ha := C25_applyMod x mod hm0
    refine ⟨applyMod x mod, ?_, ha.1, ha.2.1, ?_⟩
    · simp [multInv, judgeAssert, hm0, he, bind, Except.bind]
    · refine (Int.ModEq.mul_left n ha.2.2).trans ?_
      rw [Int.modEq_iff_dvd]
      exact ⟨y, by rw [← hlin]; ring⟩
  · intro hg
    have : d ≠ 1 := by omega
    simp [multInv, judgeAssert, hm0, he, this, bind, Except.bind]

example : multInv 3 7 = .ok 5 ∧ multInv 4 6 = .ok (-1) := by decide +kernel

/-- **C26 for arbitrary sign, partial.** Whatever `multInv` returns for a 64-bit `n` (other than `-2^63`), it is
either a correct inverse in `[0, m)` or `-1`; if no inverse exists it is `-1`. -/
theorem C26_multInv_sound_partial (n mod : Int) (hn : I64 n) (hmin : n ≠ -2 ^ 63) (hm0 : 0 < mod) (hm : I64 mod) :
    ∃ r, multInv n mod = .ok r ∧ (r ≠ -1 → 0 ≤ r ∧ r < mod ∧ n * r ≡ 1 [ZMOD mod]) ∧
      (Int.gcd n mod ≠ 1 → r = -1) := by
  obtain ⟨d, x, y, he, hlin, _, _, hd, _, _⟩ :=
    extendedEuclid_spec _ n mod rfl (by omega) (by have := hn.1; have := hn.2; omega) (by have := hm.2; omega)
  by_cases hd1 : d = 1
  · subst hd1
    have ha := C25_applyMod x mod hm0
    refine ⟨applyMod x mod, ?_, fun _ => ⟨ha.1, ha.2.1, ?_⟩, fun h => by simp at hd; omega⟩
    · simp [multInv, judgeAssert, hm0, he, bind, Except.bind]
    · refine (Int.ModEq.mul_left n ha.2.2).trans ?_
      rw [Int.modEq_iff_dvd]
      exact ⟨y, by rw [← hlin]; ring⟩
  · exact ⟨-1, by simp [multInv, judgeAssert, hm0, he, hd1, bind, Except.bind], fun h => absurd rfl h, fun _ => rfl⟩

/-- **C26 is violated for negative `n`**: `multInv(-1, 7)` answers "not invertible" although `-1 * 6 ≡ 1 (mod 7)`. -/
theorem C26_multInv_negative_refuted :
    multInv (-1) 7 = .ok (-1) ∧ (-1) * 6 ≡ 1 [ZMOD 7] := by
  constructor
  · decide +kernel
  · decide

end ICPC.Props
