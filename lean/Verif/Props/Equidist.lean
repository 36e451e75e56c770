import Verif.Lemmas.XoshiroOut
import Verif.Props.Rng

/-!
# C68: the outputs of xoshiro256** over one period

`(fun t => t.next.2)^[n] s` is the state after `n` calls of `operator()`, `.next.1` the result of the call after that.
-/

namespace ICPC.Props

open ICPC ICPC.Xo Spec

theorem out_state (s : Xoshiro) (n k : Nat) : (fun t : Xoshiro => t.next.2)^[n + k] s = (fun t : Xoshiro => t.next.2)^[k] ((fun t : Xoshiro => t.next.2)^[n] s) := by
  rw [Nat.add_comm, Function.iterate_add_apply]

/-- The four words of output from a state on. -/
def quad (s : Xoshiro) : BitVec 64 × BitVec 64 × BitVec 64 × BitVec 64 := (s.next.1, s.next.2.next.1, s.next.2.next.2.next.1, s.next.2.next.2.next.2.next.1)

theorem quad_injective : Function.Injective quad := by
  intro s t h
  simp only [quad, Prod.mk.injEq, next_fst] at h
  have inj : ∀ x y, scramble x = scramble y → x = y := fun x y e => by rw [← unscramble_scramble x, e, unscramble_scramble]
  exact s1_determine s t (inj _ _ h.1) (inj _ _ h.2.1) (inj _ _ h.2.2.1) (inj _ _ h.2.2.2)

theorem card_xoshiro : Nat.card Xoshiro = 2 ^ 256 := by
  rw [Nat.card_congr xoshiroEquiv, Nat.card_prod, Nat.card_prod, Nat.card_prod, Nat.card_fin]
  decide

theorem quad_bijective : Function.Bijective quad := by
  have : Finite Xoshiro := Nat.finite_of_card_ne_zero (by rw [card_xoshiro]; decide)
  have hw : Nat.card (BitVec 64) = 2 ^ 64 := by
    rw [Nat.card_congr ⟨BitVec.toFin, BitVec.ofFin, fun _ => rfl, fun _ => rfl⟩, Nat.card_fin]
  have hc : Nat.card (BitVec 64 × BitVec 64 × BitVec 64 × BitVec 64) = 2 ^ 256 := by
    rw [Nat.card_prod, Nat.card_prod, Nat.card_prod, hw]
    decide
  have : Finite (BitVec 64 × BitVec 64 × BitVec 64 × BitVec 64) := Nat.finite_of_card_ne_zero (by rw [hc]; decide)
  exact quad_injective.bijective_of_nat_card_le (by rw [hc, card_xoshiro])

theorem quad_zero : quad ⟨0, 0, 0, 0⟩ = (0, 0, 0, 0) := by decide +kernel

/-- Within one period two times with the same state are equal. -/
theorem time_unique (s : Xoshiro) (hs : s ≠ ⟨0, 0, 0, 0⟩) (m n : Nat) (hm : m < 2 ^ 256 - 1) (hn : n < 2 ^ 256 - 1)
    (h : (fun t : Xoshiro => t.next.2)^[m] s = (fun t : Xoshiro => t.next.2)^[n] s) : m = n := by
  have key : ∀ m n : Nat, m ≤ n → n < 2 ^ 256 - 1 → Xoshiro.steps m s = Xoshiro.steps n s → m = n := by
    intro m n hmn hn he
    by_contra hne
    have h2 : Xoshiro.steps (n - m) s = s := by
      apply steps_injective m
      rw [← steps_add, Nat.sub_add_cancel hmn, he]
    exact steps_ne s hs (n - m) (by omega) (by omega) h2
  have e : Xoshiro.steps m s = Xoshiro.steps n s := by
    rw [steps_iterate, steps_iterate]
    exact h
  rcases Nat.le_total m n with hle | hle
  · exact key _ _ hle hn e
  · exact (key _ _ hle hm e.symm).symm

theorem state_ne_zero (s : Xoshiro) (hs : s ≠ ⟨0, 0, 0, 0⟩) (n : Nat) : (fun t : Xoshiro => t.next.2)^[n] s ≠ ⟨0, 0, 0, 0⟩ := by
  intro h
  have h' : Xoshiro.steps n s = Xoshiro.steps n Xoshiro.zero := by
    rw [steps_zero, steps_iterate]
    exact h
  exact hs (steps_injective _ _ _ h')

/-- Over one period, from every state but zero, every sequence of four words except four zeros is returned by four consecutive calls exactly
once; four zeros are never returned. -/
theorem C68_quadruples (s : Xoshiro) (hs : s ≠ ⟨0, 0, 0, 0⟩) (v : Fin 4 → BitVec 64) :
    (v ≠ 0 → ∃! n, n < 2 ^ 256 - 1 ∧ ∀ k : Fin 4, ((fun t : Xoshiro => t.next.2)^[n + k] s).next.1 = v k) ∧
    (v = 0 → ∀ n, ¬ ∀ k : Fin 4, ((fun t : Xoshiro => t.next.2)^[n + k] s).next.1 = v k) := by
  have hq : ∀ n, (∀ k : Fin 4, ((fun t : Xoshiro => t.next.2)^[n + k] s).next.1 = v k) ↔
      quad ((fun t : Xoshiro => t.next.2)^[n] s) = (v 0, v 1, v 2, v 3) := by
    intro n
    have e : ∀ k : Fin 4, ((fun t : Xoshiro => t.next.2)^[n + k] s).next.1 =
        ((fun t : Xoshiro => t.next.2)^[(k : Nat)] ((fun t : Xoshiro => t.next.2)^[n] s)).next.1 := fun k => by rw [out_state]
    simp only [e]
    generalize (fun t : Xoshiro => t.next.2)^[n] s = u
    simp only [quad, Prod.mk.injEq]
    constructor
    · intro h
      exact ⟨h 0, h 1, h 2, h 3⟩
    · rintro ⟨h0, h1, h2, h3⟩ k
      match k with
      | 0 => exact h0
      | 1 => exact h1
      | 2 => exact h2
      | 3 => exact h3
  constructor
  · intro hv
    obtain ⟨t, ht⟩ := quad_bijective.2 (v 0, v 1, v 2, v 3)
    have htz : t ≠ ⟨0, 0, 0, 0⟩ := by
      rintro rfl
      rw [quad_zero] at ht
      simp only [Prod.mk.injEq] at ht
      apply hv
      funext k
      match k with
      | 0 => exact ht.1.symm
      | 1 => exact ht.2.1.symm
      | 2 => exact ht.2.2.1.symm
      | 3 => exact ht.2.2.2.symm
    obtain ⟨n, hn, hnt⟩ := C58_one_cycle s t hs htz
    refine ⟨n, ⟨hn, (hq n).2 (by rw [hnt, ht])⟩, ?_⟩
    rintro m ⟨hm, hmv⟩
    have := (hq m).1 hmv
    rw [← ht] at this
    exact time_unique s hs m n hm hn (by rw [quad_injective this, hnt])
  · rintro rfl n h
    have := (hq n).1 h
    rw [show ((0 : Fin 4 → BitVec 64) 0, (0 : Fin 4 → BitVec 64) 1, (0 : Fin 4 → BitVec 64) 2, (0 : Fin 4 → BitVec 64) 3) = (0, 0, 0, 0) from rfl,
      ← quad_zero] at this
    exact state_ne_zero s hs n (quad_injective this)

theorem s1_of_output (t : Xoshiro) (v : BitVec 64) (h : t.next.1 = v) : unscramble v = t.s1 := by
  rw [← h, next_fst, unscramble_scramble]

theorem output_of_s1 (t : Xoshiro) (v : BitVec 64) (h : t.s1 = unscramble v) : t.next.1 = v := by
  rw [next_fst, h, scramble_unscramble]

theorem card_words : Nat.card (BitVec 64 × BitVec 64 × BitVec 64) = 2 ^ 192 := by
  have hw : Nat.card (BitVec 64) = 2 ^ 64 := by
    rw [Nat.card_congr ⟨BitVec.toFin, BitVec.ofFin, fun _ => rfl, fun _ => rfl⟩, Nat.card_fin]
  rw [Nat.card_prod, Nat.card_prod, hw]
  decide

/-- The states with a given output. -/
theorem card_output (v : BitVec 64) : Nat.card {t : Xoshiro // t.next.1 = v} = 2 ^ 192 := by
  let f : {t : Xoshiro // t.next.1 = v} → BitVec 64 × BitVec 64 × BitVec 64 := fun t => (t.1.s0, t.1.s2, t.1.s3)
  have hf : Function.Bijective f := by
    constructor
    · rintro ⟨s, hs⟩ ⟨t, ht⟩ h
      simp only [f, Prod.mk.injEq] at h
      exact Subtype.ext (Xoshiro.ext h.1 ((s1_of_output s v hs).symm.trans (s1_of_output t v ht)) h.2.1 h.2.2)
    · rintro ⟨a, b, c⟩
      exact ⟨⟨⟨a, unscramble v, b, c⟩, output_of_s1 _ v rfl⟩, rfl⟩
  rw [Nat.card_congr (Equiv.ofBijective f hf), card_words]

/-- Over one period, from every state but zero, every word except zero is returned exactly `2^192` times and zero one time less. -/
theorem C68_values (s : Xoshiro) (hs : s ≠ ⟨0, 0, 0, 0⟩) (v : BitVec 64) :
    Nat.card {n : Fin (2 ^ 256 - 1) // ((fun t : Xoshiro => t.next.2)^[(n : Nat)] s).next.1 = v} = if v = 0 then 2 ^ 192 - 1 else 2 ^ 192 := by
  have : Finite Xoshiro := Nat.finite_of_card_ne_zero (by rw [card_xoshiro]; decide)
  let f : {n : Fin (2 ^ 256 - 1) // ((fun t : Xoshiro => t.next.2)^[(n : Nat)] s).next.1 = v} → {t : Xoshiro // t ≠ ⟨0, 0, 0, 0⟩ ∧ t.next.1 = v} :=
    fun n => ⟨(fun t : Xoshiro => t.next.2)^[(n.1 : Nat)] s, state_ne_zero s hs _, n.2⟩
  have hf : Function.Bijective f := by
    constructor
    · intro a b h
      have := congrArg Subtype.val h
      exact Subtype.ext (Fin.ext (time_unique s hs _ _ a.1.2 b.1.2 this))
    · rintro ⟨t, ht, hv⟩
      obtain ⟨n, hn, e⟩ := C58_one_cycle s t hs ht
      exact ⟨⟨⟨n, hn⟩, by rw [e]; exact hv⟩, Subtype.ext e⟩
  rw [Nat.card_congr (Equiv.ofBijective f hf)]
  have hset : Nat.card {t : Xoshiro // t ≠ ⟨0, 0, 0, 0⟩ ∧ t.next.1 = v} = ({t : Xoshiro | t.next.1 = v} \ {⟨0, 0, 0, 0⟩}).ncard := by
    rw [← Nat.card_coe_set_eq]
    exact Nat.card_congr (Equiv.subtypeEquivRight fun t => by simp [and_comm])
  have hall : ({t : Xoshiro | t.next.1 = v}).ncard = 2 ^ 192 := by
    rw [← Nat.card_coe_set_eq]
    exact card_output v
  rw [hset]
  split
  · next h =>
    subst h
    rw [Set.ncard_sdiff_singleton_of_mem (show (⟨0, 0, 0, 0⟩ : Xoshiro) ∈ {t : Xoshiro | t.next.1 = 0} from scramble_zero), hall]
  · next h =>
    rw [Set.sdiff_singleton_eq_self, hall]
    intro h0
    exact h (Eq.trans (Eq.symm h0) scramble_zero)

/-- The state 1, 2, 3, 4 returns 11520 as often as every other word. -/
example : Nat.card {n : Fin (2 ^ 256 - 1) // ((fun t : Xoshiro => t.next.2)^[(n : Nat)] ⟨1, 2, 3, 4⟩).next.1 = 11520} = 2 ^ 192 :=
  C68_values _ (by decide) _

/-- The first four results from that state are not returned in this order again within the period. -/
example (n : Nat) (hn : n < 2 ^ 256 - 1)
    (h : ∀ k : Fin 4, ((fun t : Xoshiro => t.next.2)^[n + k] ⟨1, 2, 3, 4⟩).next.1 = ![11520, 0, 1509978240, 1215971899390074240] k) : n = 0 := by
  refine ((C68_quadruples ⟨1, 2, 3, 4⟩ (by decide) ![11520, 0, 1509978240, 1215971899390074240]).1 (by decide +kernel)).unique ⟨hn, h⟩
    ⟨by decide, ?_⟩
  intro k
  match k with
  | 0 => decide +kernel
  | 1 => decide +kernel
  | 2 => decide +kernel
  | 3 => decide +kernel

end ICPC.Props
