import Verif.Model.Seq
import Verif.Spec.Seq
import Mathlib.Data.List.Count
import Mathlib.Data.List.Perm.Basic
import Mathlib.Data.List.Perm.Subperm
import Mathlib.Data.List.Dedup
import Mathlib.Data.List.Sort

namespace ICPC
open Spec

/-- What the loop of `isPerm` has established: `seen` marks exactly the values in `pre`. -/
theorem isPermLoop_spec (offset : Int) (count : Nat) (xs : List Int) : ∀ (pre : List Int) (seen : List Bool),
    seen.length = count →
    (∀ i, i < count → (seen[i]? = some true ↔ offset + (i : Int) ∈ pre)) →
    pre.Nodup → (∀ x ∈ pre, offset ≤ x ∧ x < offset + count) →
    (∀ x ∈ xs, x - offset < 2 ^ 63) → count < 2 ^ 63 →
    ∃ b, isPermLoop offset count xs seen = .ok b ∧
      (b.value = true ↔ (pre ++ xs).Nodup ∧ ∀ x ∈ xs, offset ≤ x ∧ x < offset + count) ∧
      (b.value = false → ∃ x ∈ xs, b.reason = some x ∧
        (x < offset ∨ offset + count ≤ x ∨ 2 ≤ (pre ++ xs).count x)) := by
  induction xs with
  | nil =>
    intro pre seen _ _ hnd _ _ _
    exact ⟨_, rfl, by simp [hnd], by simp⟩
  | cons x xs ih =>
    intro pre seen hlen hseen hnd hpre hsmall hcount
    unfold isPermLoop
    by_cases h1 : x < offset
    · refine ⟨{ value := false, reason := some x }, by simp [h1], ?_, ?_⟩
      · simp only [Bool.false_eq_true, false_iff]
        intro h
        have := h.2 x (by simp)
        omega
      · intro _; exact ⟨x, by simp, rfl, Or.inl h1⟩
    · have hx := hsmall x (by simp)
      have hchk : chk (x - offset) = .ok (x - offset) := chk_ok ⟨by omega, hx⟩
      rw [if_neg h1, hchk]
      simp only [bind, Except.bind]
      by_cases h2 : x - offset ≥ (count : Int)
      · refine ⟨{ value := false, reason := some x }, by simp [h2], ?_, ?_⟩
        · simp only [Bool.false_eq_true, false_iff]
          intro h
          have := h.2 x (by simp)
          omega
        · intro _; exact ⟨x, by simp, rfl, Or.inr (Or.inl (by omega))⟩
      · rw [if_neg h2]
        have hidx : (x - offset).toNat < count := by omega
        have hval : offset + (((x - offset).toNat : Nat) : Int) = x := by omega
        have hs := hseen _ hidx
        rw [hval] at hs
        have hget : ∃ v, seen[(x - offset).toNat]? = some v := ⟨_, List.getElem?_eq_getElem (by omega)⟩
        obtain ⟨v, hv⟩ := hget
        cases v with
        | true =>
          have hmem : x ∈ pre := hs.1 hv
          rw [hv]
          refine ⟨{ value := false, reason := some x }, rfl, ?_, ?_⟩
          · simp only [Bool.false_eq_true, false_iff]
            intro h
            have := List.nodup_append.1 h.1
            exact this.2.2 x hmem x (by simp) rfl
          · intro _
            refine ⟨x, by simp, rfl, Or.inr (Or.inr ?_)⟩
            have := List.count_pos_iff.2 hmem
            simp [List.count_append]; omega
        | false =>
          have hmem : x ∉ pre := by
            intro h; have := hs.2 h; rw [hv] at this; simp at this
          rw [hv]
          obtain ⟨b, hb, hbt, hbf⟩ := ih (pre ++ [x]) (seen.set (x - offset).toNat true)
            (by simp [hlen])
            (by
              intro i hi
              rw [List.getElem?_set]
              by_cases hix : (x - offset).toNat = i
              · have : offset + (i : Int) = x := by omega
                simp [hix, hlen, hi, this]
              · have : offset + (i : Int) ≠ x := by omega
                simp [hix, this, hseen i hi])
            (by
              rw [List.nodup_append]
              refine ⟨hnd, by simp, ?_⟩
              intro a ha c hc; simp at hc; subst hc; intro h; subst h; exact hmem ha)
            (by
              intro y hy
              rcases List.mem_append.1 hy with hy | hy
              · exact hpre y hy
              · simp at hy; subst hy; omega)
            (fun y hy => hsmall y (by simp [hy])) hcount
          refine ⟨b, hb, ?_, ?_⟩
          · rw [hbt]
            constructor
            · rintro ⟨h1', h2'⟩
              refine ⟨by simpa using h1', ?_⟩
              intro y hy
              rcases List.mem_cons.1 hy with hy | hy
              · subst hy; omega
              · exact h2' y hy
            · rintro ⟨h1', h2'⟩
              exact ⟨by simpa using h1', fun y hy => h2' y (by simp [hy])⟩
          · intro h
            obtain ⟨y, hy, hr, hcase⟩ := hbf h
            refine ⟨y, by simp [hy], hr, ?_⟩
            simpa using hcase

theorem mem_interval {offset : Int} {n : Nat} {x : Int} :
    x ∈ interval offset n ↔ offset ≤ x ∧ x < offset + n := by
  simp only [interval, List.mem_map, List.mem_range]
  constructor
  · rintro ⟨i, hi, rfl⟩; omega
  · rintro ⟨h1, h2⟩; exact ⟨(x - offset).toNat, by omega, by omega⟩

theorem nodup_interval (offset : Int) (n : Nat) : (interval offset n).Nodup := by
  unfold interval
  apply List.Nodup.map _ List.nodup_range
  intro a b h; simp at h; omega

@[simp] theorem length_interval (offset : Int) (n : Nat) : (interval offset n).length = n := by
  simp [interval]

/-- pigeonhole: a duplicate-free list of the right length inside the interval is a permutation of it -/
theorem isPermutationFrom_iff {offset : Int} {xs : List Int} :
    IsPermutationFrom offset xs ↔ xs.Nodup ∧ ∀ x ∈ xs, offset ≤ x ∧ x < offset + xs.length := by
  constructor
  · intro h
    exact ⟨h.nodup_iff.2 (nodup_interval _ _), fun x hx => mem_interval.1 (h.subset hx)⟩
  · rintro ⟨hnd, hr⟩
    have hsub : xs.Subperm (interval offset xs.length) :=
      List.subperm_of_subset hnd (fun x hx => mem_interval.2 (hr x hx))
    exact hsub.perm_of_length_le (by simp)

theorem anyAdjacentLoop_spec {α : Type} (p : α → α → Bool) (xs : List α) : ∀ k : Int,
    ((anyAdjacentLoop p xs k).value = true ↔ ¬ AllNeighbours (fun x y => ¬ p x y = true) xs) ∧
    ((anyAdjacentLoop p xs k).value = true →
      ∃ m, (anyAdjacentLoop p xs k).reason = some (k + m - 1) ∧ FirstNeighbour (fun x y => p x y = true) xs m) ∧
    ((anyAdjacentLoop p xs k).value = false → (anyAdjacentLoop p xs k).reason = none) := by
  induction xs with
  | nil => intro k; simp [anyAdjacentLoop, AllNeighbours]
  | cons x xs ih =>
    intro k
    cases xs with
    | nil => simp [anyAdjacentLoop, AllNeighbours]
    | cons y rest =>
      unfold anyAdjacentLoop
      by_cases hp : p x y = true
      · simp only [hp, if_true]
        refine ⟨?_, ?_, by simp⟩
        · simp only [true_iff]
          intro h
          exact h 0 (by simp) (by simpa using hp)
        · intro _
          exact ⟨1, by simp, 0, by simp, by simp, by simpa using hp, by intro j hj; omega⟩
      · simp only [hp, if_false, Bool.false_eq_true]
        obtain ⟨h1, h2, h3⟩ := ih (k + 1)
        refine ⟨?_, ?_, h3⟩
        · rw [h1, not_iff_not]
          constructor
          · intro h i hi
            cases i with
            | zero => simpa using hp
            | succ i => exact h i (by simpa using hi)
          · intro h i hi
            exact h (i + 1) (by simpa using hi)
        · intro h
          obtain ⟨m, hr, i, hmi, hlt, hpi, hfirst⟩ := h2 h
          refine ⟨m + 1, by rw [hr]; congr 1; omega, i + 1, by simp [hmi], by simpa using hlt, by simpa using hpi, ?_⟩
          intro j hj
          cases j with
          | zero => simpa using hp
          | succ j => simpa using hfirst j (by omega)

theorem anyAdjacent_spec {α : Type} (p : α → α → Bool) (xs : List α) :
    ((anyAdjacent p xs).value = true ↔ ¬ AllNeighbours (fun x y => ¬ p x y = true) xs) ∧
    ((anyAdjacent p xs).value = true →
      ∃ m, (anyAdjacent p xs).reason = some m ∧ FirstNeighbour (fun x y => p x y = true) xs m) ∧
    ((anyAdjacent p xs).value = false → (anyAdjacent p xs).reason = none) := by
  obtain ⟨h1, h2, h3⟩ := anyAdjacentLoop_spec p xs 1
  refine ⟨h1, fun h => ?_, h3⟩
  obtain ⟨m, hm, hf⟩ := h2 h
  exact ⟨m, by rw [anyAdjacent, hm]; congr 1; omega, hf⟩

/-- for a transitive relation "all neighbours" is the same as "all pairs" -/
theorem allNeighbours_iff_pairs {α : Type} {R : α → α → Prop} (htrans : ∀ a b c, R a b → R b c → R a c)
    (xs : List α) : AllNeighbours R xs ↔
      ∀ i j (hi : i < xs.length) (hj : j < xs.length), i < j → R xs[i] xs[j] := by
  constructor
  · intro h i j hi hj hij
    induction j with
    | zero => omega
    | succ j ih =>
      by_cases hc : i = j
      · subst hc; exact h i hj
      · exact htrans _ _ _ (ih (by omega) (by omega)) (h j hj)
  · intro h i hi
    exact h i (i + 1) (by omega) hi (by omega)

theorem firstDiff_spec {α : Type} [DecidableEq α] : ∀ (a b : List α), a.length = b.length →
    ((firstDiff a b).value = true ↔ a = b) ∧
    ((firstDiff a b).value = false → ∃ i x, (firstDiff a b).reason = some x ∧ a[i]? = some x ∧ b[i]? ≠ some x ∧
       a.take i = b.take i) := by
  intro a
  induction a with
  | nil => intro b h; cases b <;> simp_all [firstDiff]
  | cons x a ih =>
    intro b h
    cases b with
    | nil => simp at h
    | cons y b =>
      unfold firstDiff
      by_cases hxy : x = y
      · subst hxy
        obtain ⟨h1, h2⟩ := ih b (by simpa using h)
        simp only [ne_eq, not_true_eq_false, if_false]
        refine ⟨by rw [h1]; simp, fun hf => ?_⟩
        obtain ⟨i, z, hr, ha, hb, ht⟩ := h2 hf
        exact ⟨i + 1, z, hr, by simpa using ha, by simpa using hb, by simpa using ht⟩
      · simp only [ne_eq, hxy, not_false_eq_true, if_true]
        refine ⟨by simp [hxy], fun _ => ⟨0, x, rfl, by simp, by simpa using fun h => hxy h.symm, by simp⟩⟩

end ICPC
