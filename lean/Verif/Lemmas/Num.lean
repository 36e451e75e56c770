import Verif.Model.Num
import Verif.Spec.Num
import Mathlib.Tactic.Ring
import Mathlib.Tactic.Linarith
import Mathlib.Tactic.NormNum

namespace ICPC
open ICPC.Spec

theorem toU64_nonneg {x : Int} (h0 : 0 ≤ x) (h1 : x < 2 ^ 64) : toU64 x = x.toNat := by
  simp only [toU64]; congr 1; omega

theorem toI64_small {x : Nat} (h : x < 2 ^ 63) : toI64 x = (x : Int) := by
  unfold toI64
  have : x % 2 ^ 64 = x := Nat.mod_eq_of_lt (by omega)
  simp only [this]; rw [if_pos h]

/-! ### Thue-Morse -/

theorem countP_testBit_succ (k x : Nat) :
    (List.range (k + 1)).countP (fun i => x.testBit i) = x % 2 + (List.range k).countP (fun i => (x / 2).testBit i) := by
  rw [List.range_succ_eq_map, List.countP_cons, List.countP_map]
  have h1 : (List.range k).countP ((fun i => x.testBit i) ∘ Nat.succ) = (List.range k).countP (fun i => (x / 2).testBit i) := by
    congr 1; funext i; simp [Nat.testBit_succ]
  rw [h1, Nat.testBit_zero]
  rcases Nat.mod_two_eq_zero_or_one x with h | h <;> simp [h]; omega

theorem countP_testBit_parity (k : Nat) : ∀ x, x < 2 ^ k →
    (List.range k).countP (fun i => x.testBit i) % 2 = thueMorseBit x := by
  induction k with
  | zero => intro x hx; have : x = 0 := by omega
            subst this; simp [thueMorseBit]
  | succ k ih =>
    intro x hx
    rw [countP_testBit_succ]
    have := ih (x / 2) (by rw [Nat.pow_succ] at hx; omega)
    have hlt : thueMorseBit (x / 2) < 2 := by rw [← this]; exact Nat.mod_lt _ (by omega)
    by_cases h0 : x = 0
    · subst h0; simp [thueMorseBit] at this ⊢
    · conv_rhs => rw [thueMorseBit]
      rw [if_neg h0]
      split <;> omega

theorem popcount64_parity (x : Nat) (h : x < 2 ^ 64) : popcount64 x % 2 = thueMorseBit x :=
  countP_testBit_parity 64 x h

theorem rangeLoop_spec (step : Int) : ∀ (n : Nat) (prev : Int),
    (∀ i, i < n → I64 (prev + ((i : Int) + 1) * step)) →
    rangeLoop step n prev = .ok ((List.range n).map fun i : Nat => prev + ((i : Int) + 1) * step) := by
  intro n
  induction n with
  | zero => intro prev _; rfl
  | succ n ih =>
    intro prev h
    have h0 := h 0 (by omega)
    simp only [Nat.cast_zero, zero_add, one_mul] at h0
    unfold rangeLoop
    rw [chk_ok h0, ]
    simp only [bind, Except.bind]
    rw [ih (prev + step) (by
      intro i hi
      have := h (i + 1) (by omega)
      have e : prev + step + ((i : Int) + 1) * step = prev + (((i + 1 : Nat) : Int) + 1) * step := by
        push_cast; ring
      rw [e]; exact this)]
    rw [List.range_succ_eq_map]
    simp only [List.map_cons, List.map_map]
    congr 2
    · simp
    · apply List.map_congr_left
      intro i _
      simp only [Function.comp]
      push_cast; ring

/-- number of elements of the progression with distance `D > 0` and step `s > 0` -/
theorem count_bounds (D s : Int) (hs : 0 < s) :
    ((D - 1) / s) * s < D ∧ D ≤ ((D - 1) / s + 1) * s := by
  have h1 := Int.mul_ediv_add_emod (D - 1) s
  have h2 := Int.emod_nonneg (D - 1) (by omega : s ≠ 0)
  have h3 := Int.emod_lt_of_pos (D - 1) hs
  constructor
  · rw [mul_comm]; omega
  · rw [add_mul, mul_comm]; omega

theorem range_distance (frm til step : Int) (hf1 : -(2 ^ 63) ≤ frm) (hf2 : frm < 2 ^ 63) (ht1 : -(2 ^ 63) ≤ til)
    (ht2 : til < 2 ^ 63) (hne : (step < 0 → til < frm) ∧ (¬ step < 0 → frm < til)) :
    rangeDistance frm til step = (if step < 0 then frm - til else til - frm).toNat := by
  simp only [toU64, rangeDistance]
  split <;> omega

theorem range_size (D s : Int) (hD : 0 < D) (hDlt : D < 2 ^ 64) (hs : 0 < s) (hs2 : s < 2 ^ 64) :
    rangeSize D.toNat (toU64 s) = ((D - 1) / s).toNat + 1 := by
  have hm1 : (D.toNat + 2 ^ 64 - 1) % 2 ^ 64 = (D - 1).toNat := by omega
  rw [rangeSize, hm1]
  rw [toU64_nonneg (by omega) (by omega)]
  obtain ⟨d, rfl⟩ : ∃ d : Nat, D = (d : Int) + 1 := ⟨(D - 1).toNat, by omega⟩
  obtain ⟨t, rfl⟩ : ∃ t : Nat, s = (t : Int) := ⟨s.toNat, by omega⟩
  have e1 : (d : Int) + 1 - 1 = (d : Int) := by omega
  rw [e1, ← Int.natCast_ediv, Int.toNat_natCast, Int.toNat_natCast, Int.toNat_natCast]
  have := Nat.div_le_self d t
  rw [Nat.mod_eq_of_lt (by omega)]; omega

theorem range_unfold (frm til step s D : Int) (K : Nat) (hstep : step ≠ 0)
    (n1 : ¬ (step > 0 ∧ til ≤ frm)) (n2 : ¬ (step < 0 ∧ frm ≤ til))
    (hchk : chk (step.natAbs : Int) = .ok s)
    (hn : rangeDistance frm til step = D.toNat) (hsz : rangeSize D.toNat (toU64 s) = K + 1) :
    range frm til step = (do
        let rest ← rangeLoop step K frm
        return frm :: rest) := by
  unfold range
  rw [show decide (step ≠ 0) = true by simp [hstep], judgeAssert_true, ok_bind, if_neg n1, if_neg n2, hchk, ok_bind]
  simp only []
  rw [hn, hsz, if_neg (Nat.succ_ne_zero K), Nat.add_sub_cancel]

theorem applyMod_eq (x mod : Int) (h : 0 < mod) : applyMod x mod = x % mod := by
  have h1 := Int.mul_tdiv_add_tmod x mod
  have h2 : (x.tmod mod).natAbs < mod.natAbs := by
    rw [Int.natAbs_tmod]; exact Nat.mod_lt _ (by omega)
  unfold applyMod
  simp only []
  split
  · rename_i hneg
    have := ((Int.ediv_emod_unique (a := x) (b := mod) (r := x.tmod mod + mod) (q := x.tdiv mod - 1) h).2
      ⟨by rw [Int.mul_sub]; omega, by omega, by omega⟩).2
    exact this.symm
  · have := ((Int.ediv_emod_unique (a := x) (b := mod) (r := x.tmod mod) (q := x.tdiv mod) h).2
      ⟨by omega, by omega, by omega⟩).2
    exact this.symm

theorem mulModLoop_eq (mod : Nat) (h0 : 0 < mod) (h63 : mod ≤ 2 ^ 63) : ∀ (rhs lhs res : Nat),
    lhs < mod → res < mod → mulModLoop lhs rhs mod res = (lhs * rhs + res) % mod := by
  intro rhs
  induction rhs using Nat.strong_induction_on with
  | _ rhs ih =>
    intro lhs res hl hr
    rw [mulModLoop]
    by_cases hz : 0 < rhs
    · rw [if_pos hz]
      have e1 : (lhs + lhs) % 2 ^ 64 = lhs + lhs := Nat.mod_eq_of_lt (by omega)
      have e2 : (lhs + res) % 2 ^ 64 = lhs + res := Nat.mod_eq_of_lt (by omega)
      rw [e1, e2, ih (rhs / 2) (by omega) _ _ (Nat.mod_lt _ h0) (by split; exact Nat.mod_lt _ h0; exact hr)]
      have hdm := Nat.div_add_mod rhs 2
      rcases Nat.mod_two_eq_zero_or_one rhs with hp | hp
      · simp only [hp, Nat.zero_ne_one, if_false]
        rw [Nat.add_mod, Nat.mod_mul_mod, ← Nat.add_mod]
        congr 2
        have : rhs = 2 * (rhs / 2) := by omega
        conv_rhs => rw [this]
        ring
      · simp only [hp, if_true]
        rw [Nat.add_mod, Nat.mod_mul_mod, Nat.mod_mod, ← Nat.add_mod]
        congr 1
        have : rhs = 2 * (rhs / 2) + 1 := by omega
        conv_rhs => rw [this]
        ring
    · have : rhs = 0 := by omega
      subst this
      rw [if_neg (by omega), Nat.mul_zero, Nat.zero_add, Nat.mod_eq_of_lt hr]

theorem detailsMulMod_eq (i128 : Bool) (lhs rhs mod : Nat) (h63 : mod ≤ 2 ^ 63)
    (hl : lhs < mod) (hr : rhs < mod) : detailsMulMod i128 lhs rhs mod = lhs * rhs % mod := by
  have h0 : 0 < mod := by omega
  unfold detailsMulMod
  cases i128 with
  | true =>
    simp only [if_true]
    have : lhs * rhs < 2 ^ 128 := by
      calc lhs * rhs < 2 ^ 63 * 2 ^ 63 := Nat.mul_lt_mul'' (by omega) (by omega)
        _ < 2 ^ 128 := by norm_num
    rw [Nat.mod_eq_of_lt this]
    apply Nat.mod_eq_of_lt
    have := Nat.mod_lt (lhs * rhs) h0
    omega
  | false =>
    simp only [Bool.false_eq_true, if_false]
    rw [mulModLoop_eq mod h0 h63 rhs lhs 0 hl h0, Nat.add_zero]

theorem powModLoop_eq (i128 : Bool) (mod : Nat) (h0 : 0 < mod) (h63 : mod ≤ 2 ^ 63) :
    ∀ (exp base res : Nat), (mod ≤ 0x100000000 → base < 2 ^ 32 ∧ res < 2 ^ 32) →
      (0x100000000 < mod → base < mod ∧ res < mod) →
      powModLoop i128 base exp mod res = if exp = 0 then res else base ^ exp * res % mod := by
  intro exp
  induction exp using Nat.strong_induction_on with
  | _ exp ih =>
    intro base res hsmall hbig
    rw [powModLoop]
    by_cases hz : 0 < exp
    · rw [if_pos hz, if_neg (by omega : ¬ exp = 0)]
      -- both branches compute the same numbers
      have key : ∀ b' r', b' = base * base % mod → r' = (if exp % 2 = 1 then base * res % mod else res) →
          powModLoop i128 b' (exp / 2) mod r' = base ^ exp * res % mod := by
        intro b' r' hb hr
        have hb' : b' < mod := hb ▸ Nat.mod_lt _ h0
        have hr' : mod ≤ 0x100000000 → r' < 2 ^ 32 := by
          intro hm; rw [hr]; split
          · have := Nat.mod_lt (base * res) h0; omega
          · exact (hsmall hm).2
        have hr'' : 0x100000000 < mod → r' < mod := by
          intro hm; rw [hr]; split
          · exact Nat.mod_lt _ h0
          · exact (hbig hm).2
        rw [ih (exp / 2) (by omega) b' r' (fun hm => ⟨by omega, hr' hm⟩) (fun hm => ⟨hb', hr'' hm⟩)]
        by_cases h1 : exp / 2 = 0
        · have : exp = 1 := by omega
          subst this
          simp [hr]
        · rw [if_neg h1, hb, Nat.mul_mod, ← Nat.pow_mod, ← Nat.mul_mod, hr]
          rcases Nat.mod_two_eq_zero_or_one exp with hp | hp
          · simp only [hp, Nat.zero_ne_one, if_false]
            congr 2
            rw [← pow_two, ← pow_mul]
            congr 1; omega
          · simp only [hp, if_true]
            rw [Nat.mul_mod_mod, ← Nat.mul_assoc]
            congr 2
            rw [← pow_two, ← pow_mul, ← pow_succ]
            congr 1; omega
      by_cases hm : mod ≤ 0x100000000
      · rw [if_pos hm]
        obtain ⟨hb, hr⟩ := hsmall hm
        have e1 : base * base % 2 ^ 64 = base * base :=
          Nat.mod_eq_of_lt (by calc base * base < 2 ^ 32 * 2 ^ 32 := Nat.mul_lt_mul'' hb hb
                               _ = 2 ^ 64 := by norm_num)
        have e2 : base * res % 2 ^ 64 = base * res :=
          Nat.mod_eq_of_lt (by calc base * res < 2 ^ 32 * 2 ^ 32 := Nat.mul_lt_mul'' hb hr
                               _ = 2 ^ 64 := by norm_num)
        exact key _ _ (by rw [e1]) (by rw [e2])
      · rw [if_neg hm]
        obtain ⟨hb, hr⟩ := hbig (by omega)
        exact key _ _ (detailsMulMod_eq i128 _ _ _ h63 hb hb) (by rw [detailsMulMod_eq i128 _ _ _ h63 hb hr])
    · have : exp = 0 := by omega
      subst this
      simp

theorem detailsPowMod_eq (i128 : Bool) (base exp mod : Nat) (h0 : 0 < mod) (h63 : mod ≤ 2 ^ 63)
    (h1 : mod ≤ 0x100000000 → base < 2 ^ 32) (h2 : 0x100000000 < mod → base < mod) :
    detailsPowMod i128 base exp mod = if exp = 0 then 1 else base ^ exp % mod := by
  rw [detailsPowMod, powModLoop_eq i128 mod h0 h63 exp base 1 (fun h => ⟨h1 h, by omega⟩) (fun h => ⟨h2 h, by omega⟩)]
  simp

theorem extendedEuclid_spec (k : Nat) : ∀ (a b : Int), a.natAbs = k → b ≠ 0 → a.natAbs < 2 ^ 63 → b.natAbs < 2 ^ 63 →
    ∃ d x y, extendedEuclid a b = .ok (d, x, y) ∧ a * x + b * y = d ∧ x.natAbs ≤ b.natAbs ∧
      y.natAbs ≤ max a.natAbs 1 ∧ d.natAbs = Int.gcd a b ∧ (0 ≤ a → 0 < b → 0 < d) ∧ (a = 0 → x = 0 ∧ y = 1) := by
  induction k using Nat.strong_induction_on with
  | _ k ih =>
    intro a b hk hb ha63 hb63
    by_cases ha : a = 0
    · subst ha
      refine ⟨b, 0, 1, by rw [extendedEuclid]; simp, by ring, by simp, by simp, by simp, fun _ h => h, by simp⟩
    · have hmod : (b.tmod a).natAbs = b.natAbs % a.natAbs := Int.natAbs_tmod b a
      have hdiv : (b.tdiv a).natAbs = b.natAbs / a.natAbs := Int.natAbs_tdiv b a
      have hlt : (b.tmod a).natAbs < a.natAbs := by rw [hmod]; exact Nat.mod_lt _ (by omega)
      obtain ⟨d, x1, y1, he, hlin, hx1, hy1, hd, hpos, hz⟩ := ih _ (by omega) (b.tmod a) a rfl ha (by omega) ha63
      have hdm := Int.mul_tdiv_add_tmod b a
      have hN := Nat.div_add_mod b.natAbs a.natAbs
      have hqx : (b.tdiv a * x1).natAbs ≤ a.natAbs * (b.natAbs / a.natAbs) := by
        rw [Int.natAbs_mul, hdiv, Nat.mul_comm]
        exact Nat.mul_le_mul_right _ hx1
      have hxb : (y1 - b.tdiv a * x1).natAbs ≤ b.natAbs := by
        by_cases h0 : b.tmod a = 0
        · obtain ⟨e1, e2⟩ := hz h0
          subst e1; subst e2; simp; omega
        · have : y1.natAbs ≤ b.natAbs % a.natAbs := by
            have : max (b.tmod a).natAbs 1 = b.natAbs % a.natAbs := by omega
            omega
          have := Int.natAbs_sub_le y1 (b.tdiv a * x1)
          omega
      have hq : (b.tdiv a).natAbs ≤ b.natAbs := by rw [hdiv]; exact Nat.div_le_self _ _
      have c1 : chk (b.tdiv a) = .ok (b.tdiv a) := chk_ok ⟨by omega, by omega⟩
      have c2 : chk (b.tdiv a * x1) = .ok (b.tdiv a * x1) := chk_ok ⟨by omega, by omega⟩
      have c3 : chk (y1 - b.tdiv a * x1) = .ok (y1 - b.tdiv a * x1) := chk_ok ⟨by omega, by omega⟩
      refine ⟨d, y1 - b.tdiv a * x1, x1, ?_, ?_, hxb, by omega, ?_, ?_, fun h => absurd h ha⟩
      · rw [extendedEuclid, if_neg ha, he]
        simp only [bind, Except.bind, c1, c2, c3]
      · rw [← hlin]
        have : b.tmod a = b - a * b.tdiv a := by omega
        rw [this]; ring
      · rw [hd]
        have : b.tmod a = b - a * b.tdiv a := by omega
        rw [this, Int.gcd_comm, sub_eq_add_neg, ← Int.mul_neg]
        rw [Int.gcd_add_mul_left_right]
      · intro h1 h2
        exact hpos (Int.tmod_nonneg _ (by omega)) (by omega)

end ICPC
