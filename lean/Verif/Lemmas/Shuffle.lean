import Verif.Model.RandSeq
import Verif.Lemmas.Rand
import Verif.Lemmas.Seq
import Verif.Props.Num
import Mathlib.Data.Nat.Factorial.Basic
import Mathlib.Data.List.Nodup
import Mathlib.Data.List.Basic

namespace ICPC
open ICPC.Spec

theorem i64_of_le {a b x : Int} (ha : I64 a) (hb : I64 b) (h1 : a ≤ x) (h2 : x ≤ b) : I64 x :=
  ⟨by have := ha.1; omega, by have := hb.2; omega⟩

theorem i64_nat {n : Nat} (h : n < 2 ^ 63) : I64 n := ⟨by omega, by omega⟩

theorem i64_mk {x : Int} (h1 : -9223372036854775808 ≤ x) (h2 : x < 9223372036854775808) : I64 x := ⟨by omega, by omega⟩

theorem i64_zero : I64 0 := by decide

theorem i64_one : I64 1 := by decide

theorem swapAt_ok {α : Type} {l : List α} {i j : Nat} (hi : i < l.length) (hj : j < l.length) :
    swapAt l i j = .ok ((l.set i l[j]).set j l[i]) := by
  unfold swapAt
  rw [List.getElem?_eq_getElem hi, List.getElem?_eq_getElem hj]

theorem swap_getElem {α : Type} {l : List α} {i j k : Nat} (hi : i < l.length) (hj : j < l.length) (hk : k < l.length) :
    ((l.set i l[j]).set j l[i])[k]'(by simpa using hk) = if k = j then l[i] else if k = i then l[j] else l[k] := by
  rw [List.getElem_set]
  by_cases h : j = k
  · simp [h]
  · rw [if_neg h, if_neg (Ne.symm h), List.getElem_set]
    by_cases h' : i = k
    · simp [h']
    · rw [if_neg h', if_neg (Ne.symm h')]

theorem swap_perm {α : Type} {l : List α} {i j : Nat} (hi : i < l.length) (hj : j < l.length) :
    ((l.set i l[j]).set j l[i]).Perm l := by
  by_cases h : i = j
  · subst h; simp
  · classical
    rw [List.perm_iff_count]
    intro a
    rw [List.count_set (by simpa using hj), List.count_set hi, List.getElem_set, if_neg h]
    have hci : l[i] = a → 0 < l.count a := fun e => by rw [← e]; exact List.count_pos_iff.2 (List.getElem_mem hi)
    have hcj : l[j] = a → 0 < l.count a := fun e => by rw [← e]; exact List.count_pos_iff.2 (List.getElem_mem hj)
    by_cases h1 : l[i] = a
    · by_cases h2 : l[j] = a
      · have := hci h1; simp [h1, h2]; omega
      · have := hci h1; simp [h1, h2]; omega
    · by_cases h2 : l[j] = a
      · have := hcj h2; simp [h1, h2]
      · simp [h1, h2]

/-- the loop leaves the entries behind `i` in place and permutes the others -/
theorem shuffleLoop_sat {α : Type} : ∀ (i : Nat) (l : List α), i < l.length ∨ i = 0 → l.length < 2 ^ 63 →
    SatOk (shuffleLoop i l) fun l' => l'.Perm l ∧ l'.drop (i + 1) = l.drop (i + 1) := by
  intro i
  induction i with
  | zero => intro l _ _; exact satOk_done ⟨List.Perm.refl _, rfl⟩
  | succ i ih =>
    intro l hi hlen
    have hi : i + 1 < l.length := by omega
    unfold shuffleLoop
    have hu : I64 ((i : Int) + 2) := i64_mk (by omega) (by omega)
    have hlt : (0 : Int) < (i : Int) + 2 := by omega
    apply SatOk.bind (integer_satOk i64_zero hu hlt)
    rintro j ⟨h1, h2⟩
    have hj : j.toNat < l.length := by omega
    rw [swapAt_ok hi hj, Rand.lift_ok, Rand.bind_done_ok]
    refine SatOk.mono (ih _ (by simp; omega) (by simpa using hlen)) fun l' hl' => ?_
    refine ⟨hl'.1.trans (swap_perm hi hj), ?_⟩
    have := congrArg (List.drop 1) hl'.2
    rw [List.drop_drop, List.drop_drop] at this
    rw [show i + 1 + 1 = i + 1 + 1 from rfl, this]
    apply List.ext_getElem
    · simp
    · intro k hk1 hk2
      simp only [List.length_drop] at hk2
      rw [List.getElem_drop, List.getElem_drop, swap_getElem hi hj (by omega), if_neg (by omega), if_neg (by omega)]

theorem shuffleLoop_prob {α : Type} [DecidableEq α] : ∀ (i : Nat) (l l' : List α), i < l.length ∨ i = 0 → l.length < 2 ^ 63 →
    l.Nodup → l'.Perm l → l'.drop (i + 1) = l.drop (i + 1) → prob (shuffleLoop i l) l' = 1 / ((i + 1).factorial : ℚ) := by
  intro i
  induction i with
  | zero =>
    intro l l' _ _ hnd hp hd
    have : l' = l := by
      cases l with
      | nil => simpa using hp
      | cons a l =>
        cases l' with
        | nil => simp at hp
        | cons b l' =>
          simp at hd
          subst hd
          have hb : b ∈ a :: l' := hp.subset (by simp)
          have ha : a ∈ b :: l' := hp.symm.subset (by simp)
          rcases List.mem_cons.1 hb with h | h
          · rw [h]
          · have : (b :: l').Nodup := (hp.nodup_iff).2 hnd
            exact absurd h (List.nodup_cons.1 this).1
    rw [this]
    show prob (.done (.ok l)) l = _
    rw [prob_done, if_pos rfl]; simp
  | succ i ih =>
    intro l l' hi hlen hnd hp hd
    have hi : i + 1 < l.length := by omega
    have hl' : l'.length = l.length := hp.length_eq
    have hnd' : l'.Nodup := (hp.nodup_iff).2 hnd
    -- the position of the target's entry
    obtain ⟨j, hj, hje⟩ := List.getElem_of_mem (hp.subset (List.getElem_mem (show i + 1 < l'.length by omega)))
    have hgt : ∀ k (h1 : k < l.length) (h2 : k < l'.length), i + 1 < k → l'[k] = l[k] := by
      intro k h1 h2 hk
      have e1 := List.getElem_drop (xs := l') (i := i + 1 + 1) (j := k - (i + 2)) (h := by simp; omega)
      have e2 := List.getElem_drop (xs := l) (i := i + 1 + 1) (j := k - (i + 2)) (h := by simp; omega)
      simp only [show i + 1 + 1 + (k - (i + 2)) = k by omega] at e1 e2
      rw [← e1, ← e2]
      simp only [hd]
    have hji : j ≤ i + 1 := by
      by_contra hlt
      have h1 := hgt j hj (by omega) (by omega)
      rw [hje] at h1
      have := (hnd'.getElem_inj_iff).1 h1
      omega
    unfold shuffleLoop
    have hfac : 1 / ((i + 1 + 1).factorial : ℚ) = (1 / ((i + 1).factorial : ℚ)) / ((((i : Int) + 2 - 0 : Int)) : ℚ) := by
      rw [Nat.factorial_succ (i + 1)]
      push_cast
      rw [div_div, sub_zero, mul_comm, show (i : ℚ) + 1 + 1 = i + 2 by ring]
    rw [hfac]
    refine prob_integer_unique (v := (j : Int)) i64_zero (i64_mk (by omega) (by omega)) (by omega) (by omega) ?_ ?_
    · rw [Int.toNat_natCast, swapAt_ok hi hj, Rand.lift_ok, Rand.bind_done_ok]
      refine ih _ l' (by simp; omega) (by simpa using hlen) ?_ (hp.trans (swap_perm hi hj).symm) ?_
      · exact ((swap_perm hi hj).nodup_iff).2 hnd
      · apply List.ext_getElem
        · simp [hl']
        · intro k hk1 hk2
          simp only [List.length_drop] at hk1
          rw [List.getElem_drop, List.getElem_drop, swap_getElem hi hj (by omega)]
          by_cases hk : k = 0
          · subst hk
            simp only [Nat.add_zero]
            by_cases hij : i + 1 = j
            · subst hij; rw [if_pos rfl]; exact hje.symm
            · rw [if_neg hij]; simp only [if_true]; exact hje.symm
          · rw [if_neg (by omega), if_neg (by omega)]
            exact hgt _ (by omega) (by omega) (by omega)
    · intro w hw1 hw2 hne
      have hw : w.toNat < l.length := by omega
      rw [swapAt_ok hi hw, Rand.lift_ok, Rand.bind_done_ok]
      refine prob_eq_zero (P := fun m => m.drop (i + 1) = ((l.set (i + 1) l[w.toNat]).set w.toNat l[i + 1]).drop (i + 1)) ?_ ?_
      · refine Sat.mono (shuffleLoop_sat i _ (by simp; omega) (by simpa using hlen)) ?_
        rintro o ⟨a, rfl, h⟩ b hb
        cases hb
        exact h.2
      · intro hcontra
        have e1 := List.getElem_drop (xs := l') (i := i + 1) (j := 0) (h := by simp; omega)
        have e2 := List.getElem_drop (xs := (l.set (i + 1) l[w.toNat]).set w.toNat l[i + 1]) (i := i + 1) (j := 0) (h := by simp; omega)
        simp only [hcontra] at e1
        rw [e1] at e2
        simp only [Nat.add_zero] at e2
        rw [swap_getElem hi hw hi] at e2
        have : l[w.toNat] = l'[i + 1] := by
          rw [e2]
          split
          · rename_i h; simp only [h]
          · simp
        rw [← hje] at this
        have := (hnd.getElem_inj_iff).1 this
        omega

/-- apply a function to the result of a program -/
theorem swapAt_map {α β : Type} (f : α → β) (l : List α) (i j : Nat) :
    swapAt (l.map f) i j = (swapAt l i j).map (List.map f) := by
  unfold swapAt
  rw [List.getElem?_map, List.getElem?_map]
  cases l[i]? <;> cases l[j]? <;> simp [Except.map, List.map_set]

theorem shuffleLoop_map {α β : Type} (f : α → β) : ∀ (i : Nat) (l : List α),
    shuffleLoop i (l.map f) = shuffleLoop i l >>= fun r => pure (r.map f) := by
  intro i
  induction i with
  | zero => intro l; rfl
  | succ i ih =>
    intro l
    unfold shuffleLoop
    rw [Rand.bind_assoc]
    congr 1
    funext j
    rw [swapAt_map]
    cases hs : swapAt l (i + 1) j.toNat with
    | error e => rfl
    | ok m => exact ih m

theorem range_interval {offset : Int} {n : Nat} (h1 : I64 offset) (h2 : I64 (offset + n)) :
    range offset (offset + n) 1 = .ok (interval offset n) := by
  obtain ⟨xs, h, hp, hm⟩ := Props.C23_range offset (offset + n) 1 h1 h2 i64_one (by decide) (by decide)
  rw [h]
  congr 1
  have hlen : xs.length = n := by
    rcases Nat.lt_trichotomy xs.length n with hlt | heq | hgt
    · have : offset + xs.length ∈ xs := (hm _).2 ⟨xs.length, by omega, Or.inl ⟨by omega, by omega⟩⟩
      obtain ⟨i, hi, he⟩ := List.getElem_of_mem this
      rw [hp i hi] at he; omega
    · exact heq
    · have := (hm _).1 (List.getElem_mem hgt)
      obtain ⟨i, hi, hb⟩ := this
      rw [hp n hgt] at hb
      rcases hb with hb | hb <;> omega
  apply List.ext_getElem
  · simp [hlen]
  · intro i hi1 hi2
    rw [hp i hi1]; simp [interval]

end ICPC
