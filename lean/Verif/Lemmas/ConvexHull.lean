import Mathlib.Data.List.Chain
import Mathlib.Tactic.Linarith
import Mathlib.Tactic.Ring
import Verif.Model.ConvexHull
import Verif.Spec.Hull

/-!
# Monotone chains
-/

namespace ICPC.Archive

open Spec

/-- `a` is before `b` in the order of the scan; `s` is `1` or `-1`. -/
def Prec (s : Int) (a b : Pt) : Prop := 0 < s * (b.1 - a.1) ∨ (b.1 = a.1 ∧ 0 < s * (b.2 - a.2))

/-- A direction of the scan. -/
def Fwd (s x y : Int) : Prop := 0 < s * x ∨ (x = 0 ∧ 0 < s * y)

theorem fwd_neg {s x y : Int} : Fwd (-s) (-x) (-y) ↔ Fwd s x y := by
  unfold Fwd
  rw [neg_mul_neg, neg_mul_neg, neg_eq_zero]

private theorem trans1 {ux uy vx vy wx wy : Int} (hu : Fwd 1 ux uy) (hv : Fwd 1 vx vy) (hw : Fwd 1 wx wy)
    (h1 : 0 ≤ ux * vy - uy * vx) (h2 : 0 ≤ vx * wy - vy * wx) :
    0 ≤ ux * wy - uy * wx ∧ (0 < ux * vy - uy * vx ∨ 0 < vx * wy - vy * wx → 0 < ux * wy - uy * wx) := by
  unfold Fwd at *
  simp only [one_mul] at *
  rcases hv with hv | ⟨hv0, hv⟩
  · have key : vx * (ux * wy - uy * wx) = ux * (vx * wy - vy * wx) + wx * (ux * vy - uy * vx) := by ring
    have hux : 0 ≤ ux := by rcases hu with h | h <;> omega
    have hwx : 0 ≤ wx := by rcases hw with h | h <;> omega
    constructor
    · by_contra hn
      push Not at hn
      have := mul_neg_of_pos_of_neg hv hn
      have := mul_nonneg hux h2
      have := mul_nonneg hwx h1
      omega
    · intro hs
      have : 0 < vx * (ux * wy - uy * wx) := by
        rw [key]
        have a1 := mul_nonneg hux h2
        have a2 := mul_nonneg hwx h1
        rcases hs with hs | hs
        · rcases hw with hw | ⟨hw0, hw⟩
          · have := mul_pos hw hs; omega
          · rcases hu with hu | ⟨hu0, hu⟩
            · have h3 : 0 < vx * wy - vy * wx := by rw [hw0, mul_zero, sub_zero]; exact mul_pos hv hw
              have := mul_pos hu h3; omega
            · exfalso
              rw [hu0, zero_mul, zero_sub] at hs
              have := mul_pos hu hv
              omega
        · rcases hu with hu | ⟨hu0, hu⟩
          · have := mul_pos hu hs; omega
          · exfalso
            rw [hu0, zero_mul, zero_sub] at h1
            have := mul_pos hu hv
            omega
      by_contra hn
      push Not at hn
      have := mul_nonpos_of_nonneg_of_nonpos hv.le hn
      omega
  · subst hv0
    rw [zero_mul, zero_sub] at h2
    have hwx : wx = 0 := by
      rcases hw with h | h
      · have := mul_pos hv h; omega
      · exact h.1
    subst hwx
    have hwy : 0 < wy := by rcases hw with h | h <;> omega
    have hux : 0 ≤ ux := by rcases hu with h | h <;> omega
    rw [mul_zero, sub_zero] at *
    refine ⟨mul_nonneg hux hwy.le, ?_⟩
    rintro (hs | hs)
    · refine mul_pos ?_ hwy
      by_contra hn
      have : ux = 0 := by omega
      rw [this, zero_mul] at hs
      omega
    · simp at hs

theorem cross_trans {s ux uy vx vy wx wy : Int} (hs : s = 1 ∨ s = -1) (hu : Fwd s ux uy) (hv : Fwd s vx vy) (hw : Fwd s wx wy)
    (h1 : 0 ≤ ux * vy - uy * vx) (h2 : 0 ≤ vx * wy - vy * wx) :
    0 ≤ ux * wy - uy * wx ∧ (0 < ux * vy - uy * vx ∨ 0 < vx * wy - vy * wx → 0 < ux * wy - uy * wx) := by
  rcases hs with rfl | rfl
  · exact trans1 hu hv hw h1 h2
  · have hu' := (fwd_neg (s := -1)).2 hu
    have hv' := (fwd_neg (s := -1)).2 hv
    have hw' := (fwd_neg (s := -1)).2 hw
    rw [neg_neg] at hu' hv' hw'
    have := trans1 hu' hv' hw' (by rw [neg_mul_neg, neg_mul_neg]; exact h1) (by rw [neg_mul_neg, neg_mul_neg]; exact h2)
    simpa only [neg_mul_neg] using this

theorem prec_irrefl (s : Int) (a : Pt) : ¬Prec s a a := by
  unfold Prec
  simp

theorem prec_trans {s : Int} (hs : s = 1 ∨ s = -1) {a b c : Pt} (h1 : Prec s a b) (h2 : Prec s b c) : Prec s a c := by
  unfold Prec at *
  rcases hs with rfl | rfl <;> omega

theorem prec_total {s : Int} (hs : s = 1 ∨ s = -1) (a b : Pt) : a = b ∨ Prec s a b ∨ Prec s b a := by
  unfold Prec
  rw [Prod.ext_iff]
  rcases hs with rfl | rfl <;> omega

theorem prec_fwd {s : Int} {a b : Pt} (h : Prec s a b) : Fwd s (b.1 - a.1) (b.2 - a.2) := by
  rcases h with h | ⟨h1, h2⟩
  · exact Or.inl h
  · exact Or.inr ⟨by omega, h2⟩

theorem prec_flip {s : Int} {a b : Pt} : Prec (-s) a b ↔ Prec s b a := by
  unfold Prec
  rw [show -s * (b.1 - a.1) = s * (a.1 - b.1) by ring, show -s * (b.2 - a.2) = s * (a.2 - b.2) by ring, eq_comm]

/-- No point of `S` is on the right of the edge from `a` to `b`, and no other one is on it. -/
def Edge (s : Int) (S : List Pt) (b a : Pt) : Prop :=
  ∀ p ∈ S, 0 ≤ turn a b p ∧ (Prec s a p → Prec s p b → 0 < turn a b p)

/-- `h` (last point first) is the chain of the points `S`. -/
structure Good (s : Int) (S h : List Pt) : Prop where
  sorted : h.Pairwise fun b a => Prec s a b
  sub : ∀ x ∈ h, x ∈ S
  top : ∀ x ∈ h.head?, ∀ p ∈ S, p = x ∨ Prec s p x
  bottom : ∀ x ∈ h.getLast?, ∀ p ∈ S, p = x ∨ Prec s x p
  edges : h.IsChain (Edge s S)

/-- `popLoop` without the failures, for `t = 1`. -/
def pop (p : Pt) : List Pt → List Pt
  | b :: a :: rest => if turn a b p < 0 then pop p (a :: rest) else b :: a :: rest
  | h => h

variable {s : Int} {S : List Pt}

/-- What is known while points are popped for the new point `q`. -/
structure Popping (s : Int) (S : List Pt) (q c : Pt) (rest : List Pt) : Prop where
  sorted : (c :: rest).Pairwise fun b a => Prec s a b
  sub : ∀ x ∈ c :: rest, x ∈ S
  bottom : ∀ x ∈ (c :: rest).getLast?, ∀ p ∈ S, p = x ∨ Prec s x p
  edges : (c :: rest).IsChain (Edge s S)
  left : ∀ p ∈ S, Prec s c p → 0 < turn c q p

theorem popping_pop (hs : s = 1 ∨ s = -1) {q c a : Pt} {rest : List Pt} (hq : ∀ p ∈ S, Prec s p q) (h : Popping s S q c (a :: rest))
    (ht : turn a c q < 0) : Popping s S q a rest := by
  have hac : Prec s a c := (List.pairwise_cons.1 h.sorted).1 a (by simp)
  have hcS : c ∈ S := h.sub c (by simp)
  have haS : a ∈ S := h.sub a (by simp)
  have hcq := hq c hcS
  refine ⟨(List.pairwise_cons.1 h.sorted).2, fun x hx => h.sub x (List.mem_cons_of_mem _ hx), ?_, ?_, ?_⟩
  · have := h.bottom
    rwa [List.getLast?_cons_cons] at this
  · exact (List.isChain_cons_cons.1 h.edges).2
  · intro p hp hap
    have e := (List.isChain_cons_cons.1 h.edges).1 p hp
    have hpq := hq p hp
    unfold turn at *
    -- `w × v > 0` for `v = c - a`, `w = q - c`
    have hwv : 0 < (q.1 - c.1) * (c.2 - a.2) - (q.2 - c.2) * (c.1 - a.1) := by
      have : (c.1 - a.1) * (q.2 - a.2) - (c.2 - a.2) * (q.1 - a.1) = -((q.1 - c.1) * (c.2 - a.2) - (q.2 - c.2) * (c.1 - a.1)) := by ring
      omega
    rcases prec_total hs p c with rfl | hpc | hcp
    · have : (q.1 - a.1) * (p.2 - a.2) - (q.2 - a.2) * (p.1 - a.1) = (q.1 - p.1) * (p.2 - a.2) - (q.2 - p.2) * (p.1 - a.1) := by ring
      omega
    · -- `r = p - a`
      have hvr := e.2 hap hpc
      have := (cross_trans hs (prec_fwd hcq) (prec_fwd hac) (prec_fwd hap) hwv.le hvr.le).2 (Or.inl hwv)
      have e2 : (q.1 - a.1) * (p.2 - a.2) - (q.2 - a.2) * (p.1 - a.1) =
          ((q.1 - c.1) * (p.2 - a.2) - (q.2 - c.2) * (p.1 - a.1)) + ((c.1 - a.1) * (p.2 - a.2) - (c.2 - a.2) * (p.1 - a.1)) := by ring
      omega
    · -- `r = p - c`, `d = q - p`
      have hwr := h.left p hp hcp
      unfold turn at hwr
      have hdw : 0 < (q.1 - p.1) * (q.2 - c.2) - (q.2 - p.2) * (q.1 - c.1) := by
        have : (q.1 - p.1) * (q.2 - c.2) - (q.2 - p.2) * (q.1 - c.1) = (q.1 - c.1) * (p.2 - c.2) - (q.2 - c.2) * (p.1 - c.1) := by ring
        omega
      have := (cross_trans hs (prec_fwd hpq) (prec_fwd hcq) (prec_fwd hac) hdw.le hwv.le).1
      have e2 : (q.1 - a.1) * (p.2 - a.2) - (q.2 - a.2) * (p.1 - a.1) =
          ((q.1 - p.1) * (c.2 - a.2) - (q.2 - p.2) * (c.1 - a.1)) + ((q.1 - c.1) * (p.2 - c.2) - (q.2 - c.2) * (p.1 - c.1)) := by ring
      omega

theorem edges_extend (hs : s = 1 ∨ s = -1) {q : Pt} (hq : ∀ p ∈ S, Prec s p q) : ∀ {b : Pt} {rest : List Pt},
    (b :: rest).Pairwise (fun b a => Prec s a b) → (∀ x ∈ b :: rest, x ∈ S) → (b :: rest).IsChain (Edge s S) →
    (∀ a ∈ rest.head?, 0 ≤ turn a b q) → (b :: rest).IsChain (Edge s (q :: S)) := by
  intro b rest
  induction rest generalizing b with
  | nil => intro _ _ _ _; exact List.isChain_singleton _
  | cons a rest ih =>
    intro hp hsub hc ht
    have hab : Prec s a b := (List.pairwise_cons.1 hp).1 a (by simp)
    have htq := ht a (by simp)
    have hbq := hq b (hsub b (by simp))
    rw [List.isChain_cons_cons] at hc ⊢
    refine ⟨?_, ih (List.pairwise_cons.1 hp).2 (fun x hx => hsub x (List.mem_cons_of_mem _ hx)) hc.2 ?_⟩
    · intro p hpm
      rcases List.mem_cons.1 hpm with rfl | hpm
      · refine ⟨htq, fun _ h => ?_⟩
        exact absurd (prec_trans hs h hbq) (prec_irrefl _ _)
      · exact hc.1 p hpm
    · intro z hz
      cases rest with
      | nil => cases hz
      | cons z' rest =>
        cases hz
        have hza : Prec s z a := (List.pairwise_cons.1 (List.pairwise_cons.1 hp).2).1 z (by simp)
        have hzab : 0 ≤ turn z a b := ((List.isChain_cons_cons.1 hc.2).1 b (hsub b (by simp))).1
        unfold turn at *
        have h1 : 0 ≤ (a.1 - z.1) * (b.2 - a.2) - (a.2 - z.2) * (b.1 - a.1) := by
          have : (a.1 - z.1) * (b.2 - z.2) - (a.2 - z.2) * (b.1 - z.1) = (a.1 - z.1) * (b.2 - a.2) - (a.2 - z.2) * (b.1 - a.1) := by ring
          omega
        have h2 : 0 ≤ (b.1 - a.1) * (q.2 - b.2) - (b.2 - a.2) * (q.1 - b.1) := by
          have : (b.1 - a.1) * (q.2 - a.2) - (b.2 - a.2) * (q.1 - a.1) = (b.1 - a.1) * (q.2 - b.2) - (b.2 - a.2) * (q.1 - b.1) := by ring
          omega
        have h3 := (cross_trans hs (prec_fwd hza) (prec_fwd hab) (prec_fwd hbq) h1 h2).1
        have : (a.1 - z.1) * (q.2 - z.2) - (a.2 - z.2) * (q.1 - z.1) =
            ((a.1 - z.1) * (b.2 - a.2) - (a.2 - z.2) * (b.1 - a.1)) + ((a.1 - z.1) * (q.2 - b.2) - (a.2 - z.2) * (q.1 - b.1)) := by ring
        omega

theorem popping_done (hs : s = 1 ∨ s = -1) {q b : Pt} {rest : List Pt} (hq : ∀ p ∈ S, Prec s p q) (h : Popping s S q b rest)
    (ht : ∀ a ∈ rest.head?, 0 ≤ turn a b q) : Good s (q :: S) (q :: b :: rest) := by
  have hbS : b ∈ S := h.sub b (by simp)
  have hbq := hq b hbS
  refine ⟨?_, ?_, ?_, ?_, ?_⟩
  · refine List.pairwise_cons.2 ⟨fun x hx => hq x (h.sub x hx), h.sorted⟩
  · intro x hx
    rcases List.mem_cons.1 hx with rfl | hx
    · simp
    · exact List.mem_cons_of_mem _ (h.sub x hx)
  · intro x hx p hp
    cases hx
    rcases List.mem_cons.1 hp with rfl | hp
    · exact Or.inl rfl
    · exact Or.inr (hq p hp)
  · rw [List.getLast?_cons_cons]
    intro x hx p hp
    rcases List.mem_cons.1 hp with rfl | hp
    · exact Or.inr (hq x (h.sub x (List.mem_of_getLast? hx)))
    · exact h.bottom x hx p hp
  · rw [List.isChain_cons_cons]
    refine ⟨?_, edges_extend hs hq h.sorted h.sub h.edges ht⟩
    intro p hp
    rcases List.mem_cons.1 hp with rfl | hp
    · refine ⟨?_, fun _ h => absurd h (prec_irrefl _ _)⟩
      unfold turn
      have : (p.1 - b.1) * (p.2 - b.2) - (p.2 - b.2) * (p.1 - b.1) = 0 := by ring
      omega
    · rcases prec_total hs p b with rfl | hpb | hbp
      · refine ⟨?_, fun h => absurd h (prec_irrefl _ _)⟩
        unfold turn
        have : (q.1 - p.1) * (p.2 - p.2) - (q.2 - p.2) * (p.1 - p.1) = 0 := by ring
        omega
      · refine ⟨?_, fun h => absurd (prec_trans hs h hpb) (prec_irrefl _ _)⟩
        cases rest with
        | nil =>
          rcases h.bottom b (by simp) p hp with rfl | hb
          · exact absurd hpb (prec_irrefl _ _)
          · exact absurd (prec_trans hs hb hpb) (prec_irrefl _ _)
        | cons a rest =>
          have hab : Prec s a b := (List.pairwise_cons.1 h.sorted).1 a (by simp)
          have h1 := ((List.isChain_cons_cons.1 h.edges).1 p hp).1
          have h2 := ht a (by simp)
          unfold turn at *
          have h1' : 0 ≤ (b.1 - p.1) * (b.2 - a.2) - (b.2 - p.2) * (b.1 - a.1) := by
            have : (b.1 - p.1) * (b.2 - a.2) - (b.2 - p.2) * (b.1 - a.1) = (b.1 - a.1) * (p.2 - a.2) - (b.2 - a.2) * (p.1 - a.1) := by ring
            omega
          have h2' : 0 ≤ (b.1 - a.1) * (q.2 - b.2) - (b.2 - a.2) * (q.1 - b.1) := by
            have : (b.1 - a.1) * (q.2 - b.2) - (b.2 - a.2) * (q.1 - b.1) = (b.1 - a.1) * (q.2 - a.2) - (b.2 - a.2) * (q.1 - a.1) := by ring
            omega
          have h3 := (cross_trans hs (prec_fwd hpb) (prec_fwd hab) (prec_fwd hbq) h1' h2').1
          have : (q.1 - b.1) * (p.2 - b.2) - (q.2 - b.2) * (p.1 - b.1) = (b.1 - p.1) * (q.2 - b.2) - (b.2 - p.2) * (q.1 - b.1) := by ring
          omega
      · exact ⟨(h.left p hp hbp).le, fun _ _ => h.left p hp hbp⟩

theorem pop_good (hs : s = 1 ∨ s = -1) {q : Pt} (hq : ∀ p ∈ S, Prec s p q) : ∀ {c : Pt} {rest : List Pt}, Popping s S q c rest →
    Good s (q :: S) (q :: pop q (c :: rest)) := by
  intro c rest
  induction rest generalizing c with
  | nil =>
    intro h
    rw [pop]
    · exact popping_done hs hq h (by simp)
    · simp
  | cons a rest ih =>
    intro h
    rw [pop]
    split
    · rename_i ht
      exact ih (popping_pop hs hq h ht)
    · rename_i ht
      refine popping_done hs hq h fun x hx => ?_
      cases hx
      omega

theorem push_good (hs : s = 1 ∨ s = -1) {q : Pt} {h : List Pt} (hq : ∀ p ∈ S, Prec s p q) (hne : h ≠ []) (hg : Good s S h) :
    Good s (q :: S) (q :: pop q h) := by
  cases h with
  | nil => exact absurd rfl hne
  | cons c rest =>
    refine pop_good hs hq ⟨hg.sorted, hg.sub, hg.bottom, hg.edges, fun p hp hcp => ?_⟩
    rcases hg.top c (by simp) p hp with rfl | h
    · exact absurd hcp (prec_irrefl _ _)
    · exact absurd (prec_trans hs hcp h) (prec_irrefl _ _)

/-- `chain` without the failures, for `t = 1`. -/
def scan : List Pt → List Pt → List Pt
  | [], h => h
  | p :: ps, h => scan ps (p :: pop p h)

theorem scan_good (hs : s = 1 ∨ s = -1) : ∀ {todo S h : List Pt}, todo.Pairwise (Prec s) → (∀ p ∈ S, ∀ q ∈ todo, Prec s p q) → h ≠ [] →
    Good s S h → Good s (todo.reverse ++ S) (scan todo h) := by
  intro todo
  induction todo with
  | nil => intro S h _ _ _ hg; exact hg
  | cons q todo ih =>
    intro S h hp hq hne hg
    rw [List.pairwise_cons] at hp
    have := ih (S := q :: S) (h := q :: pop q h) hp.2 (by
      intro p hpS q' hq'
      rcases List.mem_cons.1 hpS with rfl | hpS
      · exact hp.1 q' hq'
      · exact hq p hpS q' (List.mem_cons_of_mem _ hq')) (by simp) (push_good hs (fun p hpS => hq p hpS q (by simp)) hne hg)
    rw [List.reverse_cons, List.append_assoc]
    exact this

theorem good_single (p : Pt) : Good s [p] [p] :=
  ⟨List.pairwise_singleton _ _, fun x hx => hx, fun x hx q hq => by cases hx; exact Or.inl (by simpa using hq),
    fun x hx q hq => by cases hx; exact Or.inl (by simpa using hq), List.isChain_singleton _⟩

/-- The chain of points given in the order of the scan. -/
theorem scan_chain (hs : s = 1 ∨ s = -1) {p : Pt} {ps : List Pt} (h : (p :: ps).Pairwise (Prec s)) :
    Good s (ps.reverse ++ [p]) (scan ps [p]) := by
  rw [List.pairwise_cons] at h
  exact scan_good hs h.2 (fun x hx q hq => by rw [List.mem_singleton] at hx; subst hx; exact h.1 q hq) (by simp) (good_single p)

theorem scan_head : ∀ (todo h : List Pt), (scan todo h).head? = (todo.reverse ++ h).head? ∧ (∀ x, h.getLast? = some x → (scan todo h).getLast? = some x)
  | [], h => ⟨rfl, fun _ h => h⟩
  | p :: ps, h => by
    obtain ⟨h1, h2⟩ := scan_head ps (p :: pop p h)
    have hp : ∀ h : List Pt, ∀ x, h.getLast? = some x → (pop p h).getLast? = some x := by
      intro h
      induction h with
      | nil => intro x hx; exact hx
      | cons b h ih =>
        intro x hx
        cases h with
        | nil => rw [pop]; exact hx; simp
        | cons a rest =>
          rw [pop]
          split
          · exact ih x (by rwa [List.getLast?_cons_cons] at hx)
          · exact hx
    refine ⟨?_, fun x hx => h2 x ?_⟩
    · rw [scan, h1, List.reverse_cons, List.append_assoc]
      cases hr : ps.reverse with
      | nil => rfl
      | cons a l => rfl
    · have := hp h x hx
      cases hq : pop p h with
      | nil => rw [hq] at this; cases this
      | cons a l => rw [List.getLast?_cons_cons, ← hq]; exact this

/-! ### The functions -/

theorem popLoop_eq {C : Pt → Prop} (hC : ∀ a b c, C a → C b → C c → crossP a b c = .ok (turn a b c)) {q m : Pt} {base : List Pt} (hq : C q) (hm : C m) :
    ∀ {u : List Pt}, (∀ x ∈ u, C x) → ∃ u', popLoop (base.length + 1) q (u ++ m :: base) = .ok (u' ++ m :: base) ∧ pop q (u ++ [m]) = u' ++ [m] ∧ ∀ x ∈ u', C x := by
  intro u
  induction u with
  | nil =>
    intro _
    refine ⟨[], ?_, ?_, by simp⟩
    · cases base with
      | nil => rfl
      | cons a rest =>
        rw [List.nil_append, popLoop, if_neg]
        simp
    · rfl
  | cons b u ih =>
    intro hu
    obtain ⟨u', h1, h2, h3⟩ := ih fun x hx => hu x (List.mem_cons_of_mem _ hx)
    cases u with
    | nil =>
      simp only [List.cons_append, List.nil_append] at h1 h2 ⊢
      rw [popLoop, if_pos (by omega), hC _ _ _ hm (hu b (by simp)) hq, ok_bind, pop]
      split
      · exact ⟨u', h1, h2, h3⟩
      · exact ⟨[b], rfl, rfl, hu⟩
    | cons a u =>
      simp only [List.cons_append] at h1 h2 ⊢
      rw [popLoop, if_pos (by simp; omega), hC _ _ _ (hu a (by simp)) (hu b (by simp)) hq, ok_bind, pop]
      split
      · exact ⟨u', h1, h2, h3⟩
      · exact ⟨b :: a :: u, rfl, rfl, hu⟩

theorem chain_eq {C : Pt → Prop} (hC : ∀ a b c, C a → C b → C c → crossP a b c = .ok (turn a b c)) {m : Pt} {base : List Pt} (hm : C m) :
    ∀ {todo u : List Pt}, (∀ x ∈ todo, C x) → (∀ x ∈ u, C x) →
      ∃ u', chain (base.length + 1) todo (u ++ m :: base) = .ok (u' ++ m :: base) ∧ scan todo (u ++ [m]) = u' ++ [m] := by
  intro todo
  induction todo with
  | nil => intro u _ _; exact ⟨u, rfl, rfl⟩
  | cons q todo ih =>
    intro u ht hu
    obtain ⟨u1, h1, h2, h3⟩ := popLoop_eq hC (base := base) (ht q (by simp)) hm hu
    obtain ⟨u', h4, h5⟩ := ih (u := q :: u1) (fun x hx => ht x (List.mem_cons_of_mem _ hx)) (by
      intro x hx
      rcases List.mem_cons.1 hx with rfl | hx
      · exact ht x (by simp)
      · exact h3 x hx)
    refine ⟨u', ?_, ?_⟩
    · rw [chain, h1, ok_bind]
      exact h4
    · rw [scan, h2]
      exact h5

theorem ptLess_iff {a b : Pt} : ptLess a b = true ↔ Prec 1 a b := by
  unfold ptLess Prec
  split <;> simp <;> omega

theorem ptLess_false {a b : Pt} : ptLess b a = false ↔ a = b ∨ Prec 1 a b := by
  rw [← Bool.not_eq_true, ptLess_iff]
  rcases prec_total (s := 1) (Or.inl rfl) a b with rfl | h | h
  · simp [prec_irrefl]
  · simp only [h, or_true, iff_true]
    exact fun h' => prec_irrefl _ _ (prec_trans (Or.inl rfl) h h')
  · simp only [h, not_true_eq_false, false_iff, not_or]
    exact ⟨fun e => by subst e; exact prec_irrefl _ _ h, fun h' => prec_irrefl _ _ (prec_trans (Or.inl rfl) h h')⟩

theorem mem_unique {x : Pt} : ∀ {l : List Pt}, x ∈ unique l ↔ x ∈ l
  | [] => Iff.rfl
  | [_] => Iff.rfl
  | a :: b :: l => by
    rw [unique]
    split
    · rename_i e
      rw [mem_unique, e]
      simp
    · rw [List.mem_cons, mem_unique]
      simp

theorem unique_sorted : ∀ {l : List Pt}, l.Pairwise (fun a b => a = b ∨ Prec 1 a b) → (unique l).Pairwise (Prec 1)
  | [], _ => List.Pairwise.nil
  | [_], _ => List.pairwise_singleton _ _
  | a :: b :: l, h => by
    rw [unique]
    rw [List.pairwise_cons] at h
    split
    · exact unique_sorted h.2
    · rename_i hne
      refine List.pairwise_cons.2 ⟨fun x hx => ?_, unique_sorted h.2⟩
      rw [mem_unique] at hx
      have hab := (h.1 b (by simp)).resolve_left hne
      rcases List.mem_cons.1 hx with rfl | hx
      · exact hab
      · rcases (List.pairwise_cons.1 h.2).1 x hx with rfl | hbx
        · exact hab
        · exact prec_trans (Or.inl rfl) hab hbx

theorem points_sorted (pts : List Pt) : (unique (sortPts pts)).Pairwise (Prec 1) := by
  refine unique_sorted ?_
  have : Std.Total fun a b : Pt => ptLess b a = false := ⟨fun a b => by
    rw [ptLess_false, ptLess_false]
    rcases prec_total (s := 1) (Or.inl rfl) a b with h | h | h
    · exact Or.inl (Or.inl h)
    · exact Or.inl (Or.inr h)
    · exact Or.inr (Or.inr h)⟩
  have : IsTrans Pt fun a b : Pt => ptLess b a = false := ⟨fun a b c h1 h2 => by
    rw [ptLess_false] at *
    rcases h1 with rfl | h1
    · exact h2
    · rcases h2 with rfl | h2
      · exact Or.inr h1
      · exact Or.inr (prec_trans (Or.inl rfl) h1 h2)⟩
  refine List.Pairwise.imp (fun {a b} h => ptLess_false.1 h) (List.pairwise_insertionSort _ pts)

theorem points_mem {pts : List Pt} {x : Pt} : x ∈ unique (sortPts pts) ↔ x ∈ pts := by
  rw [mem_unique]
  exact (List.perm_insertionSort _ pts).mem_iff

/-! ### The hull -/

theorem good_bracket (hs : s = 1 ∨ s = -1) {p : Pt} : ∀ {c : Pt} {rest : List Pt}, (c :: rest).IsChain (Edge s S) → (p = c ∨ Prec s p c) →
    (∀ x ∈ (c :: rest).getLast?, p = x ∨ Prec s x p) →
    p ∈ c :: rest ∨ ∃ a ∈ c :: rest, ∃ b ∈ c :: rest, Edge s S b a ∧ Prec s a p ∧ Prec s p b := by
  intro c rest
  induction rest generalizing c with
  | nil =>
    intro _ h1 h2
    left
    rcases h1 with rfl | h1
    · simp
    · rcases h2 c (by simp) with rfl | h2
      · simp
      · exact absurd (prec_trans hs h1 h2) (prec_irrefl _ _)
  | cons a rest ih =>
    intro hc h1 h2
    rcases h1 with rfl | h1
    · left; simp
    · rw [List.isChain_cons_cons] at hc
      rw [List.getLast?_cons_cons] at h2
      rcases prec_total hs p a with rfl | h | h
      · left; simp
      · rcases ih hc.2 (Or.inr h) h2 with h3 | ⟨x, hx, y, hy, h3⟩
        · exact Or.inl (List.mem_cons_of_mem _ h3)
        · exact Or.inr ⟨x, List.mem_cons_of_mem _ hx, y, List.mem_cons_of_mem _ hy, h3⟩
      · exact Or.inr ⟨a, by simp, c, by simp, hc.1, h, h1⟩

theorem good_boundary (hs : s = 1 ∨ s = -1) {h : List Pt} (hg : Good s S h) (hne : h ≠ []) {p : Pt} (hp : p ∈ S) {d : Pt} (hd : Fwd s d.1 d.2)
    (hb : ∀ q ∈ S, 0 ≤ d.1 * (q.2 - p.2) - d.2 * (q.1 - p.1)) : p ∈ h := by
  cases h with
  | nil => exact absurd rfl hne
  | cons c rest =>
    rcases good_bracket hs hg.edges (hg.top c (by simp) p hp) (fun x hx => hg.bottom x hx p hp) with h | ⟨a, ha, b, hb', he, hap, hpb⟩
    · exact h
    · exfalso
      have h1 := (he p hp).2 hap hpb
      have h2 := hb a (hg.sub a ha)
      have h3 := hb b (hg.sub b hb')
      unfold turn at h1
      have := (cross_trans hs (prec_fwd hap) hd (prec_fwd hpb) (by
        have : (p.1 - a.1) * d.2 - (p.2 - a.2) * d.1 = d.1 * (a.2 - p.2) - d.2 * (a.1 - p.1) := by ring
        omega) h3).1
      have e : (b.1 - a.1) * (p.2 - a.2) - (b.2 - a.2) * (p.1 - a.1) = -((p.1 - a.1) * (b.2 - p.2) - (p.2 - a.2) * (b.1 - p.1)) := by ring
      omega

/-- Three points in the order of the scan, the middle one with an edge that has the others on its left. -/
theorem turn_of_edge (hs : s = 1 ∨ s = -1) {a b c n : Pt} (hab : Prec s a b) (hbn : Prec s b n) (hbc : Prec s b c) (h1 : 0 ≤ turn b n a)
    (h2 : 0 ≤ turn b n c) : 0 ≤ turn a b c := by
  unfold turn at *
  have := (cross_trans hs (prec_fwd hab) (prec_fwd hbn) (prec_fwd hbc) (by
    have : (b.1 - a.1) * (n.2 - b.2) - (b.2 - a.2) * (n.1 - b.1) = (n.1 - b.1) * (a.2 - b.2) - (n.2 - b.2) * (a.1 - b.1) := by ring
    omega) h2).1
  have e : (b.1 - a.1) * (c.2 - a.2) - (b.2 - a.2) * (c.1 - a.1) = (b.1 - a.1) * (c.2 - b.2) - (b.2 - a.2) * (c.1 - b.1) := by ring
  omega

theorem turn_rotate (a b c : Pt) : turn a b c = turn b c a := by unfold turn; ring

theorem turn_self (a b : Pt) : turn a b b = 0 := by unfold turn; ring

theorem turn_self' (a b : Pt) : turn a b a = 0 := by unfold turn; ring

theorem turn_self'' (a b : Pt) : turn a a b = 0 := by unfold turn; ring

/-- A closed path that first goes forward and then backward, with all its points on the left, only makes left turns. -/
theorem path_convex {h : List Pt} {m : Nat} (h1 : ∀ i j (hj : j < h.length) (hij : i < j), j ≤ m → Prec 1 (h[i]'(by omega)) h[j])
    (h2 : ∀ i j (hj : j < h.length) (hij : i < j), m ≤ i → Prec (-1) (h[i]'(by omega)) h[j])
    (he : ∀ i (hi : i + 1 < h.length), ∀ q ∈ h, 0 ≤ turn h[i] h[i + 1] q) (i j k : Nat) (hij : i < j) (hjk : j < k) (hk : k + 1 < h.length) :
    0 ≤ turn h[i] h[j] h[k] := by
  have hmem : ∀ i (hi : i < h.length), h[i] ∈ h := fun i hi => List.getElem_mem hi
  by_cases c1 : k ≤ m
  · exact turn_of_edge (Or.inl rfl) (h1 i j _ hij (by omega)) (h1 j (j + 1) (by omega) (by omega) (by omega)) (h1 j k _ hjk (by omega))
      (he j (by omega) _ (hmem i _)) (he j (by omega) _ (hmem k _))
  by_cases c2 : m ≤ i
  · exact turn_of_edge (Or.inr rfl) (h2 i j _ hij (by omega)) (h2 j (j + 1) (by omega) (by omega) (by omega)) (h2 j k _ hjk (by omega))
      (he j (by omega) _ (hmem i _)) (he j (by omega) _ (hmem k _))
  -- the first point is on the way forward, the last one on the way back
  have hi' := h1 i (i + 1) (by omega) (by omega) (by omega)
  have hk' := h2 k (k + 1) (by omega) (by omega) (by omega)
  have front : Prec 1 h[i] h[j] → Prec (-1) h[j] h[k] → 0 ≤ turn h[i] h[j] h[k] := by
    intro hab hbc
    rcases prec_total (s := 1) (Or.inl rfl) h[k] h[i] with e | hca | hac
    · rw [e, turn_self']
    · rw [turn_rotate, turn_rotate]
      exact turn_of_edge (Or.inl rfl) hca hi' hab (he i (by omega) _ (hmem k _)) (he i (by omega) _ (hmem j _))
    · rw [turn_rotate]
      exact turn_of_edge (Or.inr rfl) hbc hk' (prec_flip.2 hac) (he k (by omega) _ (hmem j _)) (he k (by omega) _ (hmem i _))
  by_cases c3 : j ≤ m
  · have hab := h1 i j (by omega) hij c3
    rcases prec_total (s := 1) (Or.inl rfl) h[k] h[j] with e | hcb | hbc
    · rw [e, turn_self]
    · exact front hab (prec_flip.2 hcb)
    · by_cases c4 : j = m
      · have := prec_flip.1 (h2 j k (by omega) hjk (by omega))
        exact absurd (prec_trans (Or.inl rfl) hbc this) (prec_irrefl _ _)
      · exact turn_of_edge (Or.inl rfl) hab (h1 j (j + 1) (by omega) (by omega) (by omega)) hbc (he j (by omega) _ (hmem i _)) (he j (by omega) _ (hmem k _))
  · have hbc := h2 j k (by omega) hjk (by omega)
    rcases prec_total (s := 1) (Or.inl rfl) h[i] h[j] with e | hab | hba
    · rw [e, turn_self'']
    · exact front hab hbc
    · exact turn_of_edge (Or.inr rfl) (prec_flip.2 hba) (h2 j (j + 1) (by omega) (by omega) (by omega)) hbc (he j (by omega) _ (hmem i _)) (he j (by omega) _ (hmem k _))

/-- The points have to be on one line if an edge forward and an edge backward start at the same point. -/
theorem collinear_of_edges {pts : List Pt} {x d e : Pt} (hd : Fwd 1 d.1 d.2) (he : Fwd (-1) e.1 e.2) (hde : d.1 * e.2 - d.2 * e.1 = 0)
    (h1 : ∀ q ∈ pts, 0 ≤ d.1 * (q.2 - x.2) - d.2 * (q.1 - x.1)) (h2 : ∀ q ∈ pts, 0 ≤ e.1 * (q.2 - x.2) - e.2 * (q.1 - x.1)) :
    Collinear pts := by
  have key : ∀ q ∈ pts, d.1 * (q.2 - x.2) - d.2 * (q.1 - x.1) = 0 := by
    intro q hq
    have a1 := h1 q hq
    have a2 := h2 q hq
    generalize q.1 - x.1 = r1 at *
    generalize q.2 - x.2 = r2 at *
    unfold Fwd at hd he
    simp only [one_mul] at hd
    rcases hd with hd | ⟨hd0, hd⟩
    · have he1 : e.1 < 0 := by
        rcases he with he | ⟨he0, he⟩
        · omega
        · exfalso
          rw [he0, mul_zero, sub_zero] at hde
          have : d.1 * e.2 < 0 := mul_neg_of_pos_of_neg hd (by omega)
          omega
      have e1 : d.1 * (e.1 * r2 - e.2 * r1) = e.1 * (d.1 * r2 - d.2 * r1) := by
        have : d.1 * e.2 = d.2 * e.1 := by omega
        calc d.1 * (e.1 * r2 - e.2 * r1) = e.1 * d.1 * r2 - (d.1 * e.2) * r1 := by ring
          _ = e.1 * d.1 * r2 - (d.2 * e.1) * r1 := by rw [this]
          _ = _ := by ring
      by_contra hne
      have hpos : 0 < d.1 * r2 - d.2 * r1 := by omega
      have := mul_neg_of_neg_of_pos he1 hpos
      have := mul_nonneg hd.le a2
      omega
    · rw [hd0, zero_mul, zero_sub] at hde a1 ⊢
      have he1 : e.1 = 0 := by
        have : d.2 * e.1 = 0 := by omega
        rcases mul_eq_zero.1 this with h | h
        · omega
        · exact h
      have he2 : e.2 < 0 := by rcases he with he | he <;> omega
      rw [he1, zero_mul, zero_sub] at a2
      have hr : r1 = 0 := by
        rcases lt_trichotomy r1 0 with h | h | h
        · have := mul_pos_of_neg_of_neg he2 h; omega
        · exact h
        · have := mul_pos hd h; omega
      rw [hr]; simp
  intro a ha b hb c hc
  have ka := key a ha
  have kb := key b hb
  have kc := key c hc
  unfold turn
  have e1 : d.1 * ((b.1 - a.1) * (c.2 - a.2) - (b.2 - a.2) * (c.1 - a.1)) = 0 := by
    have i1 : d.1 * ((b.1 - a.1) * (c.2 - a.2) - (b.2 - a.2) * (c.1 - a.1)) =
      (b.1 - a.1) * ((d.1 * (c.2 - x.2) - d.2 * (c.1 - x.1)) - (d.1 * (a.2 - x.2) - d.2 * (a.1 - x.1))) -
      (c.1 - a.1) * ((d.1 * (b.2 - x.2) - d.2 * (b.1 - x.1)) - (d.1 * (a.2 - x.2) - d.2 * (a.1 - x.1))) := by ring
    rw [i1, ka, kb, kc]; ring
  have e2 : d.2 * ((b.1 - a.1) * (c.2 - a.2) - (b.2 - a.2) * (c.1 - a.1)) = 0 := by
    have i1 : d.2 * ((b.1 - a.1) * (c.2 - a.2) - (b.2 - a.2) * (c.1 - a.1)) =
      (b.2 - a.2) * ((d.1 * (c.2 - x.2) - d.2 * (c.1 - x.1)) - (d.1 * (a.2 - x.2) - d.2 * (a.1 - x.1))) -
      (c.2 - a.2) * ((d.1 * (b.2 - x.2) - d.2 * (b.1 - x.1)) - (d.1 * (a.2 - x.2) - d.2 * (a.1 - x.1))) := by ring
    rw [i1, ka, kb, kc]; ring
  rcases mul_eq_zero.1 e1 with h | h
  · rcases mul_eq_zero.1 e2 with h' | h'
    · exfalso
      unfold Fwd at hd
      omega
    · exact h'
  · exact h

theorem scan_straight : ∀ {todo h : List Pt}, (∀ a ∈ todo ++ h, ∀ b ∈ todo ++ h, ∀ c ∈ todo ++ h, turn a b c = 0) → scan todo h = todo.reverse ++ h
  | [], _, _ => rfl
  | q :: todo, h, hc => by
    have hp : pop q h = h := by
      match h, hc with
      | [], _ => rfl
      | [_], _ => rfl
      | b :: a :: rest, hc =>
        rw [pop, if_neg]
        rw [hc a (by simp) b (by simp) q (by simp)]
        omega
    rw [scan, hp, scan_straight (h := q :: h), List.reverse_cons, List.append_assoc]
    · rfl
    · intro a ha b hb c hc'
      have e : ∀ x, x ∈ todo ++ q :: h → x ∈ q :: todo ++ h := by
        intro x hx
        simp only [List.mem_append, List.mem_cons] at hx ⊢
        tauto
      exact hc a (e a ha) b (e b hb) c (e c hc')

end ICPC.Archive
