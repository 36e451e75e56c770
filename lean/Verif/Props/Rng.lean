import Verif.Lemmas.XoshiroPeriod
import Verif.Spec.Rng
import Mathlib.SetTheory.Cardinal.Finite

/-!
# C57 and C58: xoshiro256**

The state update is `fun s => s.next.2`, one call of `operator()`; `f^[n]` is the `n`-fold composition.
-/

namespace ICPC.Props

open ICPC ICPC.Xo Spec

/-! ## C57 -/

/-- `jump()` is `2^128` calls of `operator()`, for every state. -/
theorem C57_jump (s : Xoshiro) : s.jump = (fun t : Xoshiro => t.next.2)^[2 ^ 128] s := by
  rw [jump_steps, steps_iterate]
  rfl

/-- The streams of a generator and of its jumped copy do not meet within their first `2^128` states, and neither do those of
repeated jumps. -/
theorem C57_disjoint (s : Xoshiro) (hs : s ≠ ⟨0, 0, 0, 0⟩) (a b i j : Nat) (ha : a < 2 ^ 127) (hb : b < 2 ^ 127) (hi : i < 2 ^ 128)
    (hj : j < 2 ^ 128) (h : (fun t : Xoshiro => t.next.2)^[i] (Xoshiro.jump^[a] s) = (fun t : Xoshiro => t.next.2)^[j] (Xoshiro.jump^[b] s)) :
    a = b ∧ i = j := by
  have hj' : ∀ c, Xoshiro.jump^[c] s = Xoshiro.steps (2 ^ 128 * c) s := by
    intro c
    induction c with
    | zero => rfl
    | succ c ih => rw [Function.iterate_succ_apply', ih, jump_steps, ← steps_add]; rfl
  have h' : Xoshiro.steps (2 ^ 128 * a + i) s = Xoshiro.steps (2 ^ 128 * b + j) s := by
    rw [steps_add, steps_add, ← hj', ← hj', steps_iterate, steps_iterate]
    exact h
  have key : ∀ m n : Nat, m ≤ n → n < 2 ^ 255 → Xoshiro.steps m s = Xoshiro.steps n s → m = n := by
    intro m n hmn hn he
    by_contra hne
    have h2 : Xoshiro.steps (n - m) s = s := by
      apply steps_injective m
      rw [← steps_add, Nat.sub_add_cancel hmn, he]
    exact steps_ne s hs (n - m) (by omega) (by omega) h2
  have e : 2 ^ 128 * a + i = 2 ^ 128 * b + j := by
    rcases Nat.le_total (2 ^ 128 * a + i) (2 ^ 128 * b + j) with hle | hle
    · exact key _ _ hle (by omega) h'
    · exact (key _ _ hle (by omega) h'.symm).symm
  omega

/-- `n` results of `operator()`. -/
def outputs : Nat → Xoshiro → List Nat
  | 0, _ => []
  | n + 1, s => s.next.1.toNat :: outputs n s.next.2

/-- The published test vector of the generator. -/
example : outputs 5 ⟨1, 2, 3, 4⟩ = [11520, 0, 1509978240, 1215971899390074240, 1216172134540287360] := by decide +kernel

/-- `jump()` on a concrete state. -/
example : (⟨1, 2, 3, 4⟩ : Xoshiro).jump = ⟨0x8c7a153956b5f3d1, 0x701f1a713401d85e, 0x6527f66a65469085, 0x8386b786c4408050⟩ := by
  decide +kernel

example : (⟨1, 2, 3, 4⟩ : Xoshiro).jump = (fun t : Xoshiro => t.next.2)^[2 ^ 128] ⟨1, 2, 3, 4⟩ := C57_jump _

/-! ## C58 -/

/-- Every state except zero has period exactly `2^256 - 1`. -/
theorem C58_period (s : Xoshiro) (hs : s ≠ ⟨0, 0, 0, 0⟩) : PeriodExactly (fun t : Xoshiro => t.next.2) (2 ^ 256 - 1) s := by
  refine ⟨by decide, ?_, ?_⟩
  · have := steps_period s
    rwa [steps_iterate] at this
  · intro k hk hlt
    have := steps_ne s hs k hk hlt
    rwa [steps_iterate] at this

/-- The state update is a bijection. -/
theorem C58_bijective : Function.Bijective (fun t : Xoshiro => t.next.2) := by
  constructor
  · intro s t h
    exact steps_injective 1 s t h
  · intro s
    exact ⟨poly invPoly s, T_inv s⟩

/-- A state as four numbers. -/
def xoshiroEquiv : Xoshiro ≃ Fin (2 ^ 64) × Fin (2 ^ 64) × Fin (2 ^ 64) × Fin (2 ^ 64) where
  toFun s := (s.s0.toFin, s.s1.toFin, s.s2.toFin, s.s3.toFin)
  invFun p := ⟨⟨p.1⟩, ⟨p.2.1⟩, ⟨p.2.2.1⟩, ⟨p.2.2.2⟩⟩
  left_inv _ := rfl
  right_inv _ := rfl

/-- Every state except zero is reached from every other: the nonzero states form one cycle. -/
theorem C58_one_cycle (s t : Xoshiro) (hs : s ≠ ⟨0, 0, 0, 0⟩) (ht : t ≠ ⟨0, 0, 0, 0⟩) :
    ∃ n, n < 2 ^ 256 - 1 ∧ (fun t : Xoshiro => t.next.2)^[n] s = t := by
  let f : Option (Fin (2 ^ 256 - 1)) → Xoshiro := fun o => o.elim Xoshiro.zero (fun n => Xoshiro.steps n.1 s)
  have hz : ∀ n, Xoshiro.steps n s ≠ Xoshiro.zero := by
    intro n h
    rw [← steps_zero n] at h
    exact hs (steps_injective _ _ _ h)
  have hinj : Function.Injective f := by
    have key : ∀ m n : Nat, m ≤ n → n < 2 ^ 256 - 1 → Xoshiro.steps m s = Xoshiro.steps n s → m = n := by
      intro m n hmn hn he
      by_contra hne
      have h2 : Xoshiro.steps (n - m) s = s := by
        apply steps_injective m
        rw [← steps_add, Nat.sub_add_cancel hmn, he]
      exact steps_ne s hs (n - m) (by omega) (by omega) h2
    intro a b h
    cases a with
    | none =>
      cases b with
      | none => rfl
      | some n => exact absurd h.symm (hz _)
    | some m =>
      cases b with
      | none => exact absurd h (hz _)
      | some n =>
        have hmn : m.1 = n.1 := by
          rcases Nat.le_total m.1 n.1 with hle | hle
          · exact key _ _ hle n.2 h
          · exact (key _ _ hle m.2 h.symm).symm
        rw [Fin.ext hmn]
  have hcard : Nat.card Xoshiro = 2 ^ 256 := by
    rw [Nat.card_congr xoshiroEquiv, Nat.card_prod, Nat.card_prod, Nat.card_prod, Nat.card_fin]
    decide
  have : Finite Xoshiro := Nat.finite_of_card_ne_zero (by rw [hcard]; decide)
  have hbij := hinj.bijective_of_nat_card_le (by rw [hcard, Finite.card_option, Nat.card_fin]; decide)
  obtain ⟨o, ho⟩ := hbij.2 t
  cases o with
  | none => exact absurd ho.symm ht
  | some n => exact ⟨n.1, n.2, by rw [← ho]; exact (steps_iterate n.1 s).symm⟩

/-- No seed leads to the state zero, at the start or later. -/
theorem C58_seed (seed : BitVec 64) (n : Nat) : (fun t : Xoshiro => t.next.2)^[n] (Xoshiro.ofSeed seed) ≠ ⟨0, 0, 0, 0⟩ := by
  intro h
  rw [Xoshiro.ofSeed, jump_steps] at h
  have h2 : Xoshiro.steps (2 ^ 128 + n) (Xoshiro.pi.xor ⟨seed, seed, seed, seed⟩) = Xoshiro.steps (2 ^ 128 + n) Xoshiro.zero := by
    rw [steps_zero, steps_add, steps_iterate n]
    exact h
  have h3 := steps_injective _ _ _ h2
  have h4 := Xoshiro.eq_of_xor_zero h3
  have e0 : Xoshiro.pi.s0 = seed := congrArg Xoshiro.s0 h4
  have e1 : Xoshiro.pi.s1 = seed := congrArg Xoshiro.s1 h4
  rw [← e0] at e1
  revert e1
  decide

/-- Different seeds give different states. -/
theorem C58_seed_injective (a b : BitVec 64) (h : Xoshiro.ofSeed a = Xoshiro.ofSeed b) : a = b := by
  rw [Xoshiro.ofSeed, Xoshiro.ofSeed, jump_steps, jump_steps] at h
  have h2 := congrArg (Xoshiro.xor Xoshiro.pi) (steps_injective _ _ _ h)
  rw [Xoshiro.xor_cancel, Xoshiro.xor_cancel] at h2
  exact congrArg Xoshiro.s0 h2

/-- The state zero has period one, so the hypothesis of `C58_period` is needed; the constructor which takes an array accepts it. -/
example : (⟨0, 0, 0, 0⟩ : Xoshiro).next.2 = ⟨0, 0, 0, 0⟩ := by decide +kernel

example : PeriodExactly (fun t : Xoshiro => t.next.2) (2 ^ 256 - 1) ⟨0, 0, 0, 1⟩ := C58_period _ (by decide)

end ICPC.Props
