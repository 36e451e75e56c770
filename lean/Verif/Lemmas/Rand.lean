import Verif.Spec.Rand
import Mathlib.Tactic.Ring
import Mathlib.Tactic.FieldSimp
import Mathlib.Tactic.Linarith

namespace ICPC
namespace Rand
variable {α β γ : Type}

@[simp] theorem bind_done_ok (a : α) (f : α → Rand β) : ((Rand.done (.ok a) : Rand α) >>= f) = f a := rfl
@[simp] theorem bind_done_error (e : Stop) (f : α → Rand β) : ((Rand.done (.error e) : Rand α) >>= f) = .done (.error e) := rfl
@[simp] theorem bind_draw (l u : Int) (k : Int → Rand α) (f : α → Rand β) :
    (Rand.draw l u k >>= f) = .draw l u fun v => k v >>= f := rfl
@[simp] theorem bind_coin (k : Bool → Rand α) (f : α → Rand β) :
    (Rand.coin k >>= f) = .coin fun v => k v >>= f := rfl
@[simp] theorem pure_def (a : α) : (pure a : Rand α) = .done (.ok a) := rfl
@[simp] theorem lift_ok (a : α) : (lift (.ok a) : Rand α) = .done (.ok a) := rfl
@[simp] theorem lift_error (e : Stop) : (lift (.error e) : Rand α) = .done (.error e) := rfl

theorem bind_assoc (r : Rand α) (f : α → Rand β) (g : β → Rand γ) :
    (r >>= f) >>= g = r >>= fun a => f a >>= g := by
  induction r with
  | done o => cases o <;> rfl
  | draw l u k ih => simp only [bind_draw]; congr; funext v; exact ih v
  | coin k ih => simp only [bind_coin]; congr; funext v; exact ih v

theorem bind_pure (r : Rand α) : (r >>= fun a => (Rand.done (.ok a) : Rand α)) = r := by
  induction r with
  | done o => cases o <;> rfl
  | draw l u k ih => simp only [bind_draw]; congr; funext v; exact ih v
  | coin k ih => simp only [bind_coin]; congr; funext v; exact ih v

end Rand

section
variable {α β : Type}

theorem Sat.mono {r : Rand α} {P Q : Out α → Prop} (h : Sat r P) (hPQ : ∀ o, P o → Q o) : Sat r Q := by
  induction r with
  | done o => exact hPQ _ h
  | draw l u k ih => exact ⟨h.1, h.2.1, h.2.2.1, fun v h1 h2 => ih v (h.2.2.2 v h1 h2)⟩
  | coin k ih => exact fun v => ih v (h v)

theorem Sat.and {r : Rand α} {P Q : Out α → Prop} (h : Sat r P) (h' : Sat r Q) : Sat r fun o => P o ∧ Q o := by
  induction r with
  | done o => exact ⟨h, h'⟩
  | draw l u k ih => exact ⟨h.1, h.2.1, h.2.2.1, fun v h1 h2 => ih v (h.2.2.2 v h1 h2) (h'.2.2.2 v h1 h2)⟩
  | coin k ih => exact fun v => ih v (h v) (h' v)

theorem Sat.bind {r : Rand α} {f : α → Rand β} {P : Out α → Prop} {Q : Out β → Prop} (h : Sat r P)
    (hok : ∀ a, P (.ok a) → Sat (f a) Q) (herr : ∀ e, P (.error e) → Q (.error e)) : Sat (r >>= f) Q := by
  induction r with
  | done o =>
    cases o with
    | ok a => exact hok a h
    | error e => exact herr e h
  | draw l u k ih => exact ⟨h.1, h.2.1, h.2.2.1, fun v h1 h2 => ih v (h.2.2.2 v h1 h2)⟩
  | coin k ih => exact fun v => ih v (h v)

theorem SatOk.bind {r : Rand α} {f : α → Rand β} {P : α → Prop} {Q : Out β → Prop} (h : SatOk r P)
    (hok : ∀ a, P a → Sat (f a) Q) : Sat (r >>= f) Q :=
  Sat.bind h (fun a ⟨b, e, hb⟩ => by cases e; exact hok _ hb) (fun e ⟨b, h, _⟩ => by cases h)

theorem SatOk.mono {r : Rand α} {P Q : α → Prop} (h : SatOk r P) (hPQ : ∀ o, P o → Q o) : SatOk r Q :=
  Sat.mono h fun _ ⟨a, e, ha⟩ => ⟨a, e, hPQ a ha⟩

theorem satOk_done {a : α} {P : α → Prop} (h : P a) : SatOk (.done (.ok a)) P := ⟨a, rfl, h⟩

theorem integer_eq {l u : Int} (hl : I64 l) (hu : I64 u) (h : l < u) :
    integer l u = .draw l u fun v => .done (.ok v) := by
  unfold integer
  rw [if_pos ⟨hl, hu⟩, if_pos h]

theorem integer_throw {l u : Int} (hl : I64 l) (hu : I64 u) (h : ¬ l < u) : integer l u = .done (.error .throw) := by
  unfold integer; rw [if_pos ⟨hl, hu⟩, if_neg h]

theorem integer_satOk {l u : Int} (hl : I64 l) (hu : I64 u) (h : l < u) : SatOk (integer l u) fun v => l ≤ v ∧ v < u := by
  rw [integer_eq hl hu h]
  exact ⟨hl, hu, h, fun v h1 h2 => ⟨v, rfl, h1, h2⟩⟩

theorem integer_cases (l u : Int) : integer l u = .done (.error .ub) ∨ integer l u = .done (.error .throw) ∨
    (I64 l ∧ I64 u ∧ l < u) := by
  unfold integer
  split
  · rename_i h
    split
    · rename_i h'; exact Or.inr (Or.inr ⟨h.1, h.2, h'⟩)
    · exact Or.inr (Or.inl rfl)
  · exact Or.inl rfl

/-- a draw that is followed by another program -/
theorem sat_integer_bind {l u : Int} {f : Int → Rand β} {Q : Out β → Prop} (hl : I64 l) (hu : I64 u) (h : l < u)
    (hok : ∀ v, l ≤ v → v < u → Sat (f v) Q) : Sat (integer l u >>= f) Q :=
  SatOk.bind (integer_satOk hl hu h) fun v hv => hok v hv.1 hv.2

@[simp] theorem expect_done_ok (a : α) (g : α → ℚ) : expect (.done (.ok a)) g = g a := rfl
@[simp] theorem expect_done_error (e : Stop) (g : α → ℚ) : expect (.done (.error e)) g = 0 := rfl

theorem expect_bind (r : Rand α) (f : α → Rand β) (g : β → ℚ) :
    expect (r >>= f) g = expect r fun a => expect (f a) g := by
  induction r with
  | done o => cases o <;> rfl
  | draw l u k ih =>
    show (∑ v ∈ Finset.Ico l u, expect (k v >>= f) g) / _ = _
    simp only [ih]; rfl
  | coin k ih =>
    show (expect (k false >>= f) g + expect (k true >>= f) g) / 2 = _
    simp only [ih]; rfl

theorem expect_congr {r : Rand α} {P : α → Prop} {g h : α → ℚ} (hs : Sat r fun o => ∀ a, o = .ok a → P a)
    (hgh : ∀ a, P a → g a = h a) : expect r g = expect r h := by
  induction r with
  | done o =>
    cases o with
    | ok a => exact hgh a (hs a rfl)
    | error e => rfl
  | draw l u k ih =>
    unfold expect
    congr 1
    apply Finset.sum_congr rfl
    intro v hv
    rw [Finset.mem_Ico] at hv
    exact ih v (hs.2.2.2 v hv.1 hv.2)
  | coin k ih =>
    unfold expect
    rw [ih _ (hs false), ih _ (hs true)]

theorem expect_congr_ok {r : Rand α} {P : α → Prop} {g h : α → ℚ} (hs : SatOk r P)
    (hgh : ∀ a, P a → g a = h a) : expect r g = expect r h :=
  expect_congr (Sat.mono hs fun _ ⟨a, e, ha⟩ b hb => by rw [hb] at e; cases e; exact ha) hgh

theorem expect_zero (r : Rand α) : expect r (fun _ => 0) = 0 := by
  induction r with
  | done o => cases o <;> rfl
  | draw l u k ih => simp [expect, ih]
  | coin k ih => simp [expect, ih]

theorem expect_add (r : Rand α) (g h : α → ℚ) : expect r (fun a => g a + h a) = expect r g + expect r h := by
  induction r with
  | done o => cases o <;> simp [expect]
  | draw l u k ih => simp only [expect, ih, Finset.sum_add_distrib, add_div]
  | coin k ih => simp only [expect, ih]; ring

theorem expect_smul (r : Rand α) (c : ℚ) (g : α → ℚ) : expect r (fun a => c * g a) = c * expect r g := by
  induction r with
  | done o => cases o <;> simp [expect]
  | draw l u k ih => simp only [expect, ih, ← Finset.mul_sum, mul_div_assoc]
  | coin k ih => simp only [expect, ih]; ring

theorem expect_sum {ι : Type} (r : Rand α) (s : Finset ι) (g : ι → α → ℚ) :
    expect r (fun a => ∑ i ∈ s, g i a) = ∑ i ∈ s, expect r (g i) := by
  classical
  induction s using Finset.induction_on with
  | empty => simp [expect_zero]
  | insert i s hi ih => simp only [Finset.sum_insert hi, expect_add, ih]

theorem expect_integer {l u : Int} (hl : I64 l) (hu : I64 u) (h : l < u) (g : Int → ℚ) :
    expect (integer l u) g = (∑ v ∈ Finset.Ico l u, g v) / ((u - l : Int) : ℚ) := by
  rw [integer_eq hl hu h]; rfl

theorem prob_bind [DecidableEq β] (r : Rand α) (f : α → Rand β) (b : β) :
    prob (r >>= f) b = expect r fun a => prob (f a) b := expect_bind _ _ _

theorem prob_done [DecidableEq α] (a b : α) : prob (.done (.ok a)) b = if a = b then 1 else 0 := rfl

/-- a draw of which exactly one value can lead to the target -/
theorem prob_integer_unique [DecidableEq α] {l u : Int} {f : Int → Rand α} {b : α} {v : Int} {q : ℚ}
    (hl : I64 l) (hu : I64 u) (h1 : l ≤ v) (h2 : v < u) (hv : prob (f v) b = q) (hne : ∀ w, l ≤ w → w < u → w ≠ v → prob (f w) b = 0) :
    prob (integer l u >>= f) b = q / ((u - l : Int) : ℚ) := by
  rw [prob_bind, expect_integer hl hu (by omega)]
  congr 1
  rw [Finset.sum_eq_single_of_mem v (Finset.mem_Ico.2 ⟨h1, h2⟩), hv]
  intro w hw hwv
  rw [Finset.mem_Ico] at hw
  exact hne w hw.1 hw.2 hwv

theorem prob_integer_zero [DecidableEq α] {l u : Int} {f : Int → Rand α} {b : α}
    (hne : ∀ w, l ≤ w → w < u → prob (f w) b = 0) :
    prob (integer l u >>= f) b = 0 := by
  rcases integer_cases l u with h | h | ⟨h1, h2, h3⟩
  · rw [h]; rfl
  · rw [h]; rfl
  · have := expect_integer h1 h2 h3 fun v => prob (f v) b
    rw [prob_bind, this, Finset.sum_eq_zero, zero_div]
    intro w hw
    rw [Finset.mem_Ico] at hw
    exact hne w hw.1 hw.2

/-- outcomes that violate a guaranteed property have probability 0 -/
theorem prob_eq_zero [DecidableEq α] {r : Rand α} {P : α → Prop} (hs : Sat r fun o => ∀ a, o = .ok a → P a)
    {b : α} (hb : ¬ P b) : prob r b = 0 := by
  unfold prob
  rw [expect_congr hs (h := fun _ => 0), expect_zero]
  intro a ha
  rw [if_neg]
  rintro rfl
  exact hb ha

end
end ICPC
