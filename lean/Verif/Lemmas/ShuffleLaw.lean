import Verif.Props.PermFix

/-!
# The law of `Random::shuffle` as an average over all permutations of the positions
-/

namespace ICPC
open Spec Props

theorem exists_map_perm {α β : Type} (w : α → β) : ∀ (l : List α) (l' : List β), l'.Perm (l.map w) → ∃ l₀ : List α, l₀.Perm l ∧ l' = l₀.map w
  | [], l', h => ⟨[], List.Perm.refl _, by simpa using h⟩
  | a :: l, l', h => by
    have hm : w a ∈ l' := h.symm.subset (by simp)
    obtain ⟨s, t, rfl⟩ := List.append_of_mem hm
    have h1 : (w a :: (s ++ t)).Perm (w a :: l.map w) := List.perm_middle.symm.trans h
    obtain ⟨l₀, hp, he⟩ := exists_map_perm w l (s ++ t) h1.cons_inv
    obtain ⟨s0, t0, rfl, rfl, rfl⟩ := List.map_eq_append_iff.1 he.symm
    exact ⟨s0 ++ a :: t0, List.perm_middle.trans (hp.cons a), by simp⟩

/-- Rearrangements of all positions are permutations. -/
theorem exists_equiv {n : ℕ} {l : List (Fin n)} (h : l.Perm (List.finRange n)) : ∃ σ : Equiv.Perm (Fin n), l = List.ofFn σ := by
  have hlen : l.length = n := by rw [h.length_eq, List.length_finRange]
  have hnd : l.Nodup := h.nodup_iff.2 (List.nodup_finRange n)
  let f : Fin n → Fin n := fun i => l[i.val]'(by rw [hlen]; exact i.isLt)
  have hf : Function.Injective f := fun i j hij => Fin.ext ((hnd.getElem_inj_iff).1 hij)
  refine ⟨Equiv.ofBijective f (Finite.injective_iff_bijective.1 hf), ?_⟩
  refine List.ext_getElem (by simp [hlen]) fun i h1 h2 => ?_
  rw [List.getElem_ofFn]
  rfl

/-- Two lists are rearrangements of each other exactly if a permutation of the positions takes one to the other. -/
theorem exists_comp {β : Type} {n : ℕ} {w : Fin n → β} {l : List β} (h : l.Perm (List.ofFn w)) :
    ∃ σ : Equiv.Perm (Fin n), l = List.ofFn (w ∘ σ) := by
  rw [List.ofFn_eq_map] at h
  obtain ⟨l₀, hp, rfl⟩ := exists_map_perm w _ _ h
  obtain ⟨σ, rfl⟩ := exists_equiv hp
  exact ⟨σ, by rw [List.map_ofFn]⟩

/-- All permutations of the positions are equally likely. -/
theorem expect_shuffle_ofFn {β : Type} {n : ℕ} (hn : n < 2 ^ 63) (v : Fin n → β) (g : List β → ℚ) :
    expect (shuffle (List.ofFn v)) g = 1 / (n.factorial : ℚ) * ∑ π : Equiv.Perm (Fin n), g (List.ofFn (v ∘ π)) := by
  rw [List.ofFn_eq_map, expect_shuffle_map, expect_shuffle_nodup _ (by simpa using hn) (List.nodup_finRange n), ← Finset.mul_sum,
    List.length_finRange]
  congr 1
  symm
  refine Finset.sum_bij (fun π _ => List.ofFn π) ?_ ?_ ?_ ?_
  · intro π _
    rw [List.mem_toFinset, List.mem_permutations]
    have := Equiv.Perm.ofFn_comp_perm π (id : Fin n → Fin n)
    rwa [List.ofFn_id] at this
  · intro π _ τ _ h
    exact Equiv.ext fun i => congrFun (List.ofFn_injective h) i
  · intro a ha
    rw [List.mem_toFinset, List.mem_permutations] at ha
    obtain ⟨σ, rfl⟩ := exists_equiv ha
    exact ⟨σ, Finset.mem_univ _, rfl⟩
  · intro π _
    rw [List.map_ofFn]

theorem eq_ofFn {β : Type} {l : List β} {n : ℕ} (h : l.length = n) : ∃ v : Fin n → β, l = List.ofFn v := by
  subst h
  exact ⟨l.get, (List.ofFn_get l).symm⟩

/-- Shuffling does not depend on the order before. -/
theorem expect_shuffle_of_perm {β : Type} {l l' : List β} (hlen : l.length < 2 ^ 63) (h : l'.Perm l) (g : List β → ℚ) :
    expect (shuffle l') g = expect (shuffle l) g := by
  obtain ⟨n, hn⟩ : ∃ n, l.length = n := ⟨_, rfl⟩
  obtain ⟨v, rfl⟩ := eq_ofFn hn
  rw [hn] at hlen
  obtain ⟨σ, rfl⟩ := exists_comp h
  rw [expect_shuffle_ofFn hlen, expect_shuffle_ofFn hlen]
  congr 1
  exact Fintype.sum_equiv (Equiv.mulLeft σ) _ _ fun π => rfl

/-- Pairing a shuffled list with another list: the order of the other list does not matter, if the order of the pairs does not. -/
theorem expect_shuffle_zip {β γ : Type} {l : List β} {y y' : List γ} (hlen : l.length < 2 ^ 63) (hy : y.length = l.length) (h : y'.Perm y)
    (g : List (β × γ) → ℚ) (hg : ∀ a b, a.Perm b → g a = g b) :
    (expect (shuffle l) fun a => g (a.zip y')) = expect (shuffle l) fun a => g (a.zip y) := by
  obtain ⟨n, hn⟩ : ∃ n, l.length = n := ⟨_, rfl⟩
  rw [hn] at hlen hy
  obtain ⟨v, rfl⟩ := eq_ofFn hn
  obtain ⟨w, rfl⟩ := eq_ofFn hy
  obtain ⟨σ, rfl⟩ := exists_comp h
  rw [expect_shuffle_ofFn hlen, expect_shuffle_ofFn hlen]
  congr 1
  have hz : ∀ (a : Fin n → β) (b : Fin n → γ), (List.ofFn a).zip (List.ofFn b) = List.ofFn fun i => (a i, b i) := fun a b => by
    refine List.ext_getElem (by simp) fun i h1 h2 => ?_
    simp
  refine Fintype.sum_equiv (Equiv.mulRight σ⁻¹) _ _ fun π => ?_
  rw [hz, hz]
  refine hg _ _ ?_
  have := Equiv.Perm.ofFn_comp_perm σ fun i => (v ((π * σ⁻¹) i), w i)
  convert this using 3
  · simp
  · rfl

end ICPC
