import Verif.Lemmas.Rand
import Mathlib.Tactic.Positivity
import Mathlib.Tactic.Linarith
import Mathlib.Algebra.Order.BigOperators.Group.Finset

/-!
# Expected values: order
-/

namespace ICPC

variable {α β : Type}

theorem expect_nonneg (r : Rand α) {g : α → ℚ} (hg : ∀ a, 0 ≤ g a) : 0 ≤ expect r g := by
  induction r with
  | done o => cases o with
    | ok a => exact hg a
    | error e => exact le_refl _
  | draw l u k ih =>
    unfold expect
    rcases lt_or_ge l u with h | h
    · have : (0 : ℚ) < ((u - l : Int) : ℚ) := by exact_mod_cast (by omega : 0 < u - l)
      exact div_nonneg (Finset.sum_nonneg fun v _ => ih v) this.le
    · rw [Finset.Ico_eq_empty (by omega), Finset.sum_empty, zero_div]
  | coin k ih =>
    unfold expect
    have := ih true
    have := ih false
    linarith

theorem expect_neg (r : Rand α) (g : α → ℚ) : expect r (fun a => - g a) = - expect r g := by
  have := expect_smul r (-1) g
  simpa using this

theorem expect_le_of {r : Rand α} {P : α → Prop} {g h : α → ℚ} (hs : SatOk r P) (hgh : ∀ a, P a → g a ≤ h a) : expect r g ≤ expect r h := by
  classical
  have h1 : expect r g + expect r (fun a => if P a then h a - g a else 0) = expect r h := by
    rw [← expect_add]
    exact expect_congr_ok hs fun a ha => by rw [if_pos ha]; ring
  have h2 : 0 ≤ expect r (fun a => if P a then h a - g a else 0) := by
    refine expect_nonneg r fun a => ?_
    split
    · rename_i ha; have := hgh a ha; linarith
    · exact le_refl _
  linarith

theorem expect_const {r : Rand α} {P : α → Prop} (hs : SatOk r P) (c : ℚ) : expect r (fun _ => c) = c := by
  induction r with
  | done o => obtain ⟨a, rfl, _⟩ := hs; rfl
  | draw l u k ih =>
    obtain ⟨_, _, h, hk⟩ := hs
    unfold expect
    have : (0 : ℚ) < ((u - l : Int) : ℚ) := by exact_mod_cast (by omega : 0 < u - l)
    rw [Finset.sum_congr rfl (g := fun _ => c) fun v hv => ih v (hk v (Finset.mem_Ico.1 hv).1 (Finset.mem_Ico.1 hv).2),
      Finset.sum_const, Int.card_Ico, nsmul_eq_mul, show (((u - l).toNat : Nat) : ℚ) = ((u - l : Int) : ℚ) by
        exact_mod_cast (by omega : ((u - l).toNat : Int) = u - l)]
    field_simp
  | coin k ih =>
    unfold expect
    rw [ih false (hs false), ih true (hs true)]
    ring

theorem expect_le_const {r : Rand α} {P : α → Prop} {g : α → ℚ} {c : ℚ} (hs : SatOk r P) (hg : ∀ a, P a → g a ≤ c) : expect r g ≤ c :=
  (expect_le_of hs hg).trans_eq (expect_const hs c)

theorem prob_mul_le [DecidableEq α] (r : Rand α) (a : α) {g : α → ℚ} (hg : ∀ b, 0 ≤ g b) : prob r a * g a ≤ expect r g := by
  have h1 : expect r (fun b => g a * if b = a then 1 else 0) + expect r (fun b => if b = a then 0 else g b) = expect r g := by
    rw [← expect_add]
    congr 1
    funext b
    by_cases h : b = a
    · subst h; simp
    · simp [h]
  rw [expect_smul] at h1
  have h2 : 0 ≤ expect r (fun b => if b = a then 0 else g b) := expect_nonneg r fun b => by split; exact le_refl _; exact hg b
  unfold prob
  linarith

theorem expect_bind_pos [DecidableEq α] {r : Rand α} {f : α → Rand β} {g : β → ℚ} (a : α) (hp : 0 < prob r a) (hg : ∀ b, 0 ≤ g b)
    (hf : 0 < expect (f a) g) : 0 < expect (r >>= f) g := by
  rw [expect_bind]
  exact lt_of_lt_of_le (mul_pos hp hf) (prob_mul_le r a (g := fun a => expect (f a) g) fun b => expect_nonneg _ hg)

end ICPC
