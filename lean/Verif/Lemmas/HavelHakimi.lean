import Verif.Spec.GraphGen
import Mathlib.Data.Finset.Card
import Mathlib.Order.Interval.Finset.Defs
import Mathlib.Data.Int.Interval

/-!
# The theorem of Havel and Hakimi

Graphs on `[0, n)` are boolean relations here.
-/

namespace ICPC.Gen

open Spec.EdgeMap

/-- The neighbours of `u`. -/
def nb (n : Nat) (b : Int → Int → Bool) (u : Int) : Finset Int := (Finset.Ico 0 (n : Int)).filter fun v => b u v

structure Sim (n : Nat) (b : Int → Int → Bool) : Prop where
  symm : ∀ u v, b u v = true → b v u = true
  inn : ∀ u v, b u v = true → In 0 n u ∧ In 0 n v ∧ u ≠ v

variable {n : Nat} {b : Int → Int → Bool}

theorem in_iff {u : Int} : In 0 n u ↔ u ∈ Finset.Ico 0 (n : Int) := by unfold In; rw [Finset.mem_Ico]; omega

theorem Sim.mem (h : Sim n b) {u v : Int} : v ∈ nb n b u ↔ b u v = true := by
  unfold nb
  rw [Finset.mem_filter]
  exact ⟨fun h => h.2, fun hb => ⟨in_iff.1 (h.inn _ _ hb).2.1, hb⟩⟩

theorem Sim.comm (h : Sim n b) (u v : Int) : b u v = b v u := by
  rw [Bool.eq_iff_iff]
  exact ⟨h.symm _ _, h.symm _ _⟩

/-- The edges `xy` and `zw` are replaced by `xw` and `zy`. -/
def sw (b : Int → Int → Bool) (x y z w : Int) (u v : Int) : Bool :=
  if (u = x ∧ v = y) ∨ (u = y ∧ v = x) ∨ (u = z ∧ v = w) ∨ (u = w ∧ v = z) then false
  else if (u = x ∧ v = w) ∨ (u = w ∧ v = x) ∨ (u = z ∧ v = y) ∨ (u = y ∧ v = z) then true
  else b u v

theorem card_exchange {s t : Finset Int} {a c : Int} (ha : a ∈ s) (hc : c ∉ s) (h : ∀ v, v ∈ t ↔ v = c ∨ (v ∈ s ∧ v ≠ a)) : t.card = s.card := by
  have : t = insert c (s.erase a) := by
    ext v
    rw [h, Finset.mem_insert, Finset.mem_erase, and_comm]
  rw [this, Finset.card_insert_of_notMem (fun hh => hc (Finset.mem_of_mem_erase hh)), Finset.card_erase_of_mem ha]
  have := Finset.card_pos.2 ⟨a, ha⟩
  omega

theorem sw_ok (h : Sim n b) {x y z w : Int} (hxy : b x y = true) (hzw : b z w = true) (h1 : x ≠ w) (h2 : b x w = false) (h3 : z ≠ y)
    (h4 : b z y = false) : Sim n (sw b x y z w) ∧ ∀ u, (nb n (sw b x y z w) u).card = (nb n b u).card := by
  have e1 := h.inn _ _ hxy
  have e2 := h.inn _ _ hzw
  have e3 : x ≠ z := by rintro rfl; rw [hzw] at h2; cases h2
  have e4 : y ≠ w := by rintro rfl; rw [hxy] at h2; cases h2
  have hs : Sim n (sw b x y z w) := by
    constructor
    · intro u v huv
      unfold sw at huv ⊢
      split at huv
      · cases huv
      · next c1 =>
        rw [if_neg (by omega)]
        split at huv
        · rw [if_pos (by omega)]
        · rw [if_neg (by omega)]
          exact h.symm _ _ huv
    · intro u v huv
      unfold sw at huv
      split at huv
      · cases huv
      · split at huv
        · next c2 =>
          rcases c2 with ⟨rfl, rfl⟩ | ⟨rfl, rfl⟩ | ⟨rfl, rfl⟩ | ⟨rfl, rfl⟩
          · exact ⟨e1.1, e2.2.1, h1⟩
          · exact ⟨e2.2.1, e1.1, h1.symm⟩
          · exact ⟨e2.1, e1.2.1, h3⟩
          · exact ⟨e1.2.1, e2.1, h3.symm⟩
        · exact h.inn _ _ huv
  refine ⟨hs, fun u => ?_⟩
  have hyx := h.symm _ _ hxy
  have hwz := h.symm _ _ hzw
  have h2' : b w x = false := by rw [h.comm]; exact h2
  have h4' : b y z = false := by rw [h.comm]; exact h4
  have e5 := e1.2.2
  have e6 := e2.2.2
  by_cases c1 : u = x
  · subst c1
    refine card_exchange (h.mem.2 hxy) (c := w) (by rw [h.mem, h2]; simp) fun v => ?_
    rw [hs.mem, h.mem]
    unfold sw
    split
    · constructor
      · intro hh; cases hh
      · intro hh; omega
    · split
      · refine ⟨fun _ => Or.inl (by omega), fun _ => rfl⟩
      · refine ⟨fun hh => Or.inr ⟨hh, by omega⟩, fun hh => hh.elim (fun _ => by omega) fun hh => hh.1⟩
  by_cases c2 : u = y
  · subst c2
    refine card_exchange (h.mem.2 hyx) (c := z) (by rw [h.mem, h4']; simp) fun v => ?_
    rw [hs.mem, h.mem]
    unfold sw
    split
    · constructor
      · intro hh; cases hh
      · intro hh; omega
    · split
      · refine ⟨fun _ => Or.inl (by omega), fun _ => rfl⟩
      · refine ⟨fun hh => Or.inr ⟨hh, by omega⟩, fun hh => hh.elim (fun _ => by omega) fun hh => hh.1⟩
  by_cases c3 : u = z
  · subst c3
    refine card_exchange (h.mem.2 hzw) (c := y) (by rw [h.mem, h4]; simp) fun v => ?_
    rw [hs.mem, h.mem]
    unfold sw
    split
    · constructor
      · intro hh; cases hh
      · intro hh; omega
    · split
      · refine ⟨fun _ => Or.inl (by omega), fun _ => rfl⟩
      · refine ⟨fun hh => Or.inr ⟨hh, by omega⟩, fun hh => hh.elim (fun _ => by omega) fun hh => hh.1⟩
  by_cases c4 : u = w
  · subst c4
    refine card_exchange (h.mem.2 hwz) (c := x) (by rw [h.mem, h2']; simp) fun v => ?_
    rw [hs.mem, h.mem]
    unfold sw
    split
    · constructor
      · intro hh; cases hh
      · intro hh; omega
    · split
      · refine ⟨fun _ => Or.inl (by omega), fun _ => rfl⟩
      · refine ⟨fun hh => Or.inr ⟨hh, by omega⟩, fun hh => hh.elim (fun _ => by omega) fun hh => hh.1⟩
  · congr 1
    ext v
    rw [hs.mem, h.mem]
    unfold sw
    rw [if_neg (by omega), if_neg (by omega)]

/-- The neighbours of `c` can be made to be any set `T` of the right size with vertices of the largest degrees. -/
theorem exists_neighbours (k : Nat) : ∀ b, Sim n b → ∀ c (T : Finset Int), In 0 n c → (∀ y ∈ T, In 0 n y) → c ∉ T → T.card = (nb n b c).card →
    (∀ y ∈ T, ∀ z, In 0 n z → z ∉ T → z ≠ c → (nb n b z).card ≤ (nb n b y).card) → (T \ nb n b c).card = k →
    ∃ b', Sim n b' ∧ (∀ u, (nb n b' u).card = (nb n b u).card) ∧ nb n b' c = T := by
  induction k with
  | zero =>
    intro b hb c T hc hT hcT hcard hdom hk
    refine ⟨b, hb, fun _ => rfl, ?_⟩
    have : T ⊆ nb n b c := Finset.sdiff_eq_empty_iff_subset.1 (Finset.card_eq_zero.1 hk)
    exact (Finset.eq_of_subset_of_card_le this (by omega)).symm
  | succ k ih =>
    intro b hb c T hc hT hcT hcard hdom hk
    obtain ⟨y, hy⟩ : (T \ nb n b c).Nonempty := Finset.card_pos.1 (by omega)
    obtain ⟨hyT, hyc⟩ := Finset.mem_sdiff.1 hy
    obtain ⟨z, hz⟩ : (nb n b c \ T).Nonempty := by
      refine Finset.card_pos.1 ?_
      have h1 := Finset.card_sdiff_add_card_inter T (nb n b c)
      have h2 := Finset.card_sdiff_add_card_inter (nb n b c) T
      rw [Finset.inter_comm] at h2
      omega
    obtain ⟨hzc, hzT⟩ := Finset.mem_sdiff.1 hz
    have hcz := hb.mem.1 hzc
    have hcy : b c y = false := by rw [hb.mem] at hyc; simpa using hyc
    have hyz : y ≠ z := by rintro rfl; exact hzT hyT
    have hcy' : c ≠ y := by rintro rfl; exact hcT hyT
    have hle := hdom y hyT z (hb.inn _ _ hcz).2.1 hzT (hb.inn _ _ hcz).2.2.symm
    obtain ⟨w, hw1, hw2, hw3⟩ : ∃ w, b y w = true ∧ b z w = false ∧ w ≠ z := by
      by_contra hno
      push Not at hno
      have hsub : (nb n b y).erase z ⊆ ((nb n b z).erase y).erase c := by
        intro w hw
        rw [Finset.mem_erase, hb.mem] at hw
        have hzw : b z w = true := by
          by_contra hh
          exact hw.1 (hno w hw.2 (by simpa using hh))
        rw [Finset.mem_erase, Finset.mem_erase, hb.mem]
        refine ⟨?_, ?_, hzw⟩
        · rintro rfl
          rw [hb.comm, hcy] at hw
          simp at hw
        · rintro rfl
          exact (hb.inn _ _ hw.2).2.2 rfl
      have h1 := Finset.card_le_card hsub
      have hcin : c ∈ (nb n b z).erase y := by
        rw [Finset.mem_erase, hb.mem]
        exact ⟨hcy', hb.symm _ _ hcz⟩
      rw [Finset.card_erase_of_mem hcin] at h1
      have hpos := Finset.card_pos.2 ⟨c, hcin⟩
      rw [Finset.card_erase_eq_ite, Finset.card_erase_eq_ite] at h1
      have hpos2 : 0 < (nb n b z).card := Finset.card_pos.2 ⟨c, Finset.mem_of_mem_erase hcin⟩
      rw [Finset.card_erase_eq_ite] at hpos
      by_cases hh : b y z = true
      · rw [if_pos (hb.mem.2 hh), if_pos (hb.mem.2 (hb.symm _ _ hh))] at h1
        rw [if_pos (hb.mem.2 (hb.symm _ _ hh))] at hpos
        omega
      · rw [if_neg (by rw [hb.mem]; exact hh), if_neg (by rw [hb.mem, hb.comm]; exact hh)] at h1
        omega
    have hs := sw_ok hb (x := c) (y := z) (z := w) (w := y) hcz (hb.symm _ _ hw1) hcy' hcy hw3 (by rw [hb.comm]; exact hw2)
    have hcz' : c ≠ z := (hb.inn _ _ hcz).2.2
    have hwc : w ≠ c := by
      rintro rfl
      rw [hb.comm, hcy] at hw1
      cases hw1
    obtain ⟨b', k1, k2, k3⟩ := ih (sw b c z w y) hs.1 c T hc hT hcT (by rw [hs.2]; exact hcard) (by
      intro y' hy' z' hz' h1 h2
      rw [hs.2, hs.2]
      exact hdom y' hy' z' hz' h1 h2) (by
      have : T \ nb n (sw b c z w y) c = (T \ nb n b c).erase y := by
        ext v
        rw [Finset.mem_sdiff, Finset.mem_erase, Finset.mem_sdiff, hs.1.mem, hb.mem]
        constructor
        · rintro ⟨hv, hn⟩
          unfold sw at hn
          split at hn
          · next h5 => exact absurd (by rcases h5 with h5 | h5 | h5 | h5 <;> first | exact h5.2 | omega : v = z) (by rintro rfl; exact hzT hv)
          · split at hn
            · exact absurd rfl hn
            · exact ⟨by omega, hv, hn⟩
        · rintro ⟨hvy, hv, hn⟩
          refine ⟨hv, ?_⟩
          have hvz : v ≠ z := by rintro rfl; exact hzT hv
          unfold sw
          rw [if_neg (by omega), if_neg (by omega)]
          exact hn
      rw [this, Finset.card_erase_of_mem hy]
      omega)
    exact ⟨b', k1, fun u => by rw [k2, hs.2], k3⟩

/-- `b` is a graph with the degrees `r`. -/
def Real' (n : Nat) (b : Int → Int → Bool) (r : Int → Nat) : Prop := Sim n b ∧ ∀ u, In 0 n u → (nb n b u).card = r u

/-- Havel and Hakimi. -/
theorem hh_reduce {r : Int → Nat} (h : Real' n b r) {c : Int} {T : Finset Int} (hc : In 0 n c) (hT : ∀ y ∈ T, In 0 n y) (hcT : c ∉ T)
    (hcard : T.card = r c) (hdom : ∀ y ∈ T, ∀ z, In 0 n z → z ∉ T → z ≠ c → r z ≤ r y) :
    ∃ b', Real' n b' fun u => if u = c then 0 else if u ∈ T then r u - 1 else r u := by
  obtain ⟨hb, hr⟩ := h
  obtain ⟨b', h1, h2, h3⟩ := exists_neighbours _ b hb c T hc hT hcT (by rw [hcard, hr c hc]) (by
    intro y hy z hz k1 k2
    rw [hr z hz, hr y (hT y hy)]
    exact hdom y hy z hz k1 k2) rfl
  have hs : Sim n fun u v => b' u v && decide (u ≠ c) && decide (v ≠ c) := by
    constructor
    · intro u v huv
      simp only [Bool.and_eq_true, decide_eq_true_eq] at huv ⊢
      exact ⟨⟨h1.symm _ _ huv.1.1, huv.2⟩, huv.1.2⟩
    · intro u v huv
      simp only [Bool.and_eq_true, decide_eq_true_eq] at huv
      exact h1.inn _ _ huv.1.1
  refine ⟨_, hs, fun u hu => ?_⟩
  have hu' := hr u hu
  rw [← h2] at hu'
  show _ = if u = c then 0 else if u ∈ T then r u - 1 else r u
  split
  · next e =>
    rw [Finset.card_eq_zero, Finset.eq_empty_iff_forall_notMem]
    intro v hv
    rw [hs.mem] at hv
    simp [e] at hv
  · next e =>
    have heq : nb n (fun u v => b' u v && decide (u ≠ c) && decide (v ≠ c)) u = (nb n b' u).erase c := by
      ext v
      rw [hs.mem, Finset.mem_erase, h1.mem]
      simp only [Bool.and_eq_true, decide_eq_true_eq]
      exact ⟨fun hh => ⟨hh.2, hh.1.1⟩, fun hh => ⟨⟨hh.2, e⟩, hh.1⟩⟩
    have hiff : c ∈ nb n b' u ↔ u ∈ T := by rw [← h3, h1.mem, h1.mem, h1.comm]
    rw [heq, Finset.card_erase_eq_ite, hu']
    by_cases hh : u ∈ T
    · rw [if_pos (hiff.2 hh), if_pos hh]
    · rw [if_neg (fun k => hh (hiff.1 k)), if_neg hh]

/-- Enough vertices have a positive degree. -/
theorem real_le {r : Int → Nat} (h : Real' n b r) {c : Int} (hc : In 0 n c) {T : Finset Int}
    (hT : ∀ v, In 0 n v → v ≠ c → 0 < r v → v ∈ T) : r c ≤ T.card := by
  rw [← h.2 c hc]
  refine Finset.card_le_card fun v hv => ?_
  have hb := h.1.mem.1 hv
  have hin := h.1.inn _ _ hb
  refine hT v hin.2.1 hin.2.2.symm ?_
  rw [← h.2 v hin.2.1]
  exact Finset.card_pos.2 ⟨c, h.1.mem.2 (h.1.symm _ _ hb)⟩

end ICPC.Gen
