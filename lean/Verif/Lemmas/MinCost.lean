import Verif.Spec.MinCost

/-!
# Successive shortest paths keep the cost smallest
-/

namespace ICPC.Spec.Flow

variable {V : Finset Int} {cap cost f g : Int → Int → Int} {s t : Int}

/-- Potentials that prove that the flow has smallest cost. -/
def Slack (V : Finset Int) (cap cost f : Int → Int → Int) (p : Int → Int) : Prop :=
  ∀ u ∈ V, ∀ v ∈ V, (f u v < cap u v → 0 ≤ cost u v + p u - p v) ∧ (0 < f u v → cost u v + p u - p v ≤ 0)

/-- What leaves `w` more than it enters. -/
def net (V : Finset Int) (f : Int → Int → Int) (w : Int) : Int := ∑ v ∈ V, f w v - ∑ v ∈ V, f v w

theorem value_eq_net : value V s f = net V f s := rfl

theorem sum_net (p : Int → Int) : ∑ u ∈ V, ∑ v ∈ V, f u v * (p u - p v) = ∑ w ∈ V, p w * net V f w := by
  have h1 : ∀ u v, f u v * (p u - p v) = p u * f u v - p v * f u v := fun u v => by ring
  simp only [h1, Finset.sum_sub_distrib, net, mul_sub, Finset.mul_sum]
  congr 1
  rw [Finset.sum_comm]

theorem sum_net_zero : ∑ w ∈ V, net V f w = 0 := by
  simp only [net, Finset.sum_sub_distrib]
  rw [Finset.sum_comm, sub_self]

/-- Only `s` and `t` send or keep flow. -/
theorem IsFlow.sum_pot (hf : IsFlow V cap s t f) (hs : s ∈ V) (ht : t ∈ V) (hst : s ≠ t) (p : Int → Int) :
    ∑ u ∈ V, ∑ v ∈ V, f u v * (p u - p v) = (p s - p t) * value V s f := by
  have hz : ∀ w ∈ V, w ≠ s → w ≠ t → net V f w = 0 := fun w hw h1 h2 => by
    unfold net; rw [hf.conserve w hw h1 h2, sub_self]
  have two : ∀ q : Int → Int, ∑ w ∈ V, q w * net V f w = q s * net V f s + q t * net V f t := by
    intro q
    rw [← Finset.add_sum_erase V _ hs, ← Finset.add_sum_erase (V.erase s) _ (Finset.mem_erase.2 ⟨hst.symm, ht⟩), Finset.sum_eq_zero, add_zero]
    intro w hw
    rw [Finset.mem_erase, Finset.mem_erase] at hw
    rw [hz w hw.2.2 hw.2.1 hw.1, mul_zero]
  have h0 := two fun _ => 1
  simp only [one_mul] at h0
  rw [sum_net_zero] at h0
  rw [sum_net, two, value_eq_net, show net V f t = -net V f s by omega]
  ring

theorem slack_optimal {p : Int → Int} (hs : s ∈ V) (ht : t ∈ V) (hst : s ≠ t) (hf : IsFlow V cap s t f) (hp : Slack V cap cost f p)
    (hg : IsFlow V cap s t g) (hv : value V s g = value V s f) : flowCost V cost f ≤ flowCost V cost g := by
  have split : ∀ h : Int → Int → Int, flowCost V cost h = ∑ u ∈ V, ∑ v ∈ V, h u v * (cost u v + p u - p v) - ∑ u ∈ V, ∑ v ∈ V, h u v * (p u - p v) := by
    intro h
    unfold flowCost
    rw [← Finset.sum_sub_distrib]
    refine Finset.sum_congr rfl fun u _ => ?_
    rw [← Finset.sum_sub_distrib]
    exact Finset.sum_congr rfl fun v _ => by ring
  rw [split f, split g, hf.sum_pot hs ht hst, hg.sum_pot hs ht hst, hv]
  refine sub_le_sub_right (Finset.sum_le_sum fun u hu => Finset.sum_le_sum fun v hv => ?_) _
  have h1 := hp u hu v hv
  have h2 := hf.nonneg u hu v hv
  have h3 := hf.le_cap u hu v hv
  have h4 := hg.nonneg u hu v hv
  have h5 := hg.le_cap u hu v hv
  rcases lt_trichotomy (cost u v + p u - p v) 0 with h | h | h
  · have : ¬f u v < cap u v := fun h' => absurd (h1.1 h') (by omega)
    nlinarith
  · rw [h]; simp
  · have : ¬0 < f u v := fun h' => absurd (h1.2 h') (by omega)
    nlinarith

/-! ## Pushing -/

/-- Times the path uses the edge. -/
def uses (P : List Step) (u v : Int) : Int := (P.count ⟨u, v, true⟩ : Int) - P.count ⟨v, u, false⟩

theorem push_eq (x : Int) (P : List Step) : push x P f = fun u v => f u v + x * uses P u v := rfl

theorem uses_cons (e : Step) (P : List Step) (u v : Int) : uses (e :: P) u v = uses [e] u v + uses P u v := by
  unfold uses
  rw [List.count_cons, List.count_cons (l := P), List.count_cons, List.count_cons (l := [])]
  simp only [List.count_nil]
  push_cast
  ring

theorem uses_true (a b u v : Int) : uses [⟨a, b, true⟩] u v = if u = a ∧ v = b then 1 else 0 := by
  unfold uses
  rw [List.count_singleton, List.count_singleton]
  simp only [beq_iff_eq, Step.mk.injEq, and_true, reduceCtorEq, and_false, if_false]
  by_cases h : u = a ∧ v = b
  · rw [if_pos ⟨h.1.symm, h.2.symm⟩, if_pos h]; norm_num
  · rw [if_neg (fun h' => h ⟨h'.1.symm, h'.2.symm⟩), if_neg h]; norm_num

theorem uses_false (a b u v : Int) : uses [⟨a, b, false⟩] u v = if u = b ∧ v = a then -1 else 0 := by
  unfold uses
  rw [List.count_singleton, List.count_singleton]
  simp only [beq_iff_eq, Step.mk.injEq, and_true, reduceCtorEq, and_false, if_false]
  by_cases h : u = b ∧ v = a
  · rw [if_pos ⟨h.2.symm, h.1.symm⟩, if_pos h]; norm_num
  · rw [if_neg (fun h' => h ⟨h'.2.symm, h'.1.symm⟩), if_neg h]; norm_num

theorem sum_ite_pair {a b : Int} (ha : a ∈ V) (hb : b ∈ V) (c : Int → Int → Int) :
    ∑ u ∈ V, ∑ v ∈ V, (if u = a ∧ v = b then c u v else 0) = c a b := by
  rw [Finset.sum_eq_single a, Finset.sum_eq_single b]
  · simp
  · intro v _ h; rw [if_neg (fun h' => h h'.2)]
  · exact fun h => absurd hb h
  · intro u _ h
    exact Finset.sum_eq_zero fun v _ => if_neg fun h' => h h'.1
  · exact fun h => absurd ha h

theorem Path.src_dst {P : List Step} : ∀ {s t : Int}, s ∈ V → Path V s P t → ∀ e ∈ P, e.src ∈ V ∧ e.dst ∈ V := by
  induction P with
  | nil => intro s t _ _ e he; cases he
  | cons e P ih =>
    intro s t hs h e' he'
    obtain ⟨h1, h2, h3⟩ := h
    rcases List.mem_cons.1 he' with rfl | h4
    · exact ⟨h1 ▸ hs, h2⟩
    · exact ih h2 h3 e' h4

theorem Path.end_mem {P : List Step} : ∀ {s t : Int}, s ∈ V → Path V s P t → t ∈ V := by
  induction P with
  | nil => intro s t hs h; exact h ▸ hs
  | cons e P ih => intro s t hs h; exact ih h.2.1 h.2.2

/-- What the path costs, and what it does to any potentials. -/
theorem sum_uses {P : List Step} (c : Int → Int → Int) : ∀ {s t : Int}, s ∈ V → Path V s P t →
    ∑ u ∈ V, ∑ v ∈ V, uses P u v * c u v = pathCost c P := by
  induction P with
  | nil => intro s t _ _; simp [uses, pathCost]
  | cons e P ih =>
    intro s t hs h
    have hm := Path.src_dst hs h e (by simp)
    simp only [uses_cons e P, add_mul, Finset.sum_add_distrib]
    rw [ih h.2.1 h.2.2]
    unfold pathCost
    rw [List.map_cons, List.sum_cons]
    congr 1
    obtain ⟨a, b, d⟩ := e
    cases d
    · simp only [uses_false, ite_mul, zero_mul]
      rw [sum_ite_pair hm.2 hm.1 fun u v => -1 * c u v]
      simp [Step.cost]
    · simp only [uses_true, ite_mul, zero_mul]
      rw [sum_ite_pair hm.1 hm.2 fun u v => 1 * c u v]
      simp [Step.cost]

theorem sum_ite_row {a b : Int} (hb : b ∈ V) (w c : Int) :
    ∑ v ∈ V, (if w = a ∧ v = b then c else 0) = if w = a then c else 0 := by
  rw [Finset.sum_eq_single b]
  · simp
  · intro v _ h; rw [if_neg (fun h' => h h'.2)]
  · exact fun h => absurd hb h

theorem sum_ite_col {a b : Int} (ha : a ∈ V) (w c : Int) :
    ∑ v ∈ V, (if v = a ∧ w = b then c else 0) = if w = b then c else 0 := by
  rw [Finset.sum_eq_single a]
  · simp
  · intro v _ h; rw [if_neg (fun h' => h h'.1)]
  · exact fun h => absurd ha h

theorem net_add (f g : Int → Int → Int) (w : Int) : net V (fun u v => f u v + g u v) w = net V f w + net V g w := by
  unfold net
  rw [Finset.sum_add_distrib, Finset.sum_add_distrib]
  ring

theorem net_mul (x : Int) (g : Int → Int → Int) (w : Int) : net V (fun u v => x * g u v) w = x * net V g w := by
  unfold net
  rw [← Finset.mul_sum, ← Finset.mul_sum]
  ring

/-- A path takes flow from its beginning to its end. -/
theorem net_uses {P : List Step} (w : Int) : ∀ {s t : Int}, s ∈ V → Path V s P t →
    net V (uses P) w = (if w = s then 1 else 0) - (if w = t then 1 else 0) := by
  induction P with
  | nil =>
    intro s t _ h
    cases h
    rw [sub_self]
    simp [net, uses]
  | cons e P ih =>
    intro s t hs h
    have hm := Path.src_dst hs h e (by simp)
    rw [show uses (e :: P) = fun u v => uses [e] u v + uses P u v from funext fun u => funext fun v => uses_cons e P u v, net_add, ih h.2.1 h.2.2]
    have : net V (uses [e]) w = (if w = e.src then 1 else 0) - (if w = e.dst then 1 else 0) := by
      obtain ⟨a, b, d⟩ := e
      unfold net
      cases d
      · simp only [uses_false]
        rw [sum_ite_row hm.1, sum_ite_col hm.2]
        by_cases h1 : w = a <;> by_cases h2 : w = b <;> simp [h1, h2] <;> split_ifs <;> simp
      · simp only [uses_true]
        rw [sum_ite_row hm.2, sum_ite_col hm.1]
    rw [this, h.1]
    ring

theorem push_flow {P : List Step} {x : Int} (hs : s ∈ V) (hst : s ≠ t) (hf : IsFlow V cap s t f) (hP : Path V s P t)
    (hb : ∀ u ∈ V, ∀ v ∈ V, 0 ≤ push x P f u v ∧ push x P f u v ≤ cap u v) :
    IsFlow V cap s t (push x P f) ∧ value V s (push x P f) = value V s f + x ∧
      flowCost V cost (push x P f) = flowCost V cost f + x * pathCost cost P := by
  have hn : ∀ w, net V (push x P f) w = net V f w + x * ((if w = s then 1 else 0) - (if w = t then 1 else 0)) := by
    intro w
    rw [push_eq, net_add, net_mul, net_uses w hs hP]
  refine ⟨⟨fun u hu v hv => (hb u hu v hv).1, fun u hu v hv => (hb u hu v hv).2, fun v hv h1 h2 => ?_⟩, ?_, ?_⟩
  · have h3 := hn v
    rw [if_neg h1, if_neg h2, sub_zero, mul_zero, add_zero] at h3
    have h4 := hf.conserve v hv h1 h2
    unfold net at h3
    omega
  · rw [value_eq_net, hn, if_pos rfl, if_neg hst, value_eq_net]
    ring
  · rw [push_eq]
    unfold flowCost
    rw [← sum_uses cost hs hP, Finset.mul_sum, ← Finset.sum_add_distrib]
    refine Finset.sum_congr rfl fun u _ => ?_
    rw [Finset.mul_sum, ← Finset.sum_add_distrib]
    exact Finset.sum_congr rfl fun v _ => by ring

/-! ## Distances -/

theorem Path.append {P Q : List Step} {w : Int} : ∀ {s : Int}, Path V s P w → Path V w Q t → Path V s (P ++ Q) t := by
  induction P with
  | nil => intro s h1 h2; exact h1 ▸ h2
  | cons e P ih => intro s h1 h2; exact ⟨h1.1, h1.2.1, ih h1.2.2 h2⟩

theorem Path.split {Q : List Step} : ∀ {P : List Step} {s : Int}, Path V s (P ++ Q) t → ∃ w, Path V s P w ∧ Path V w Q t := by
  intro P
  induction P with
  | nil => intro s h; exact ⟨s, rfl, h⟩
  | cons e P ih =>
    intro s h
    obtain ⟨w, h1, h2⟩ := ih h.2.2
    exact ⟨w, ⟨h.1, h.2.1, h1⟩, h2⟩

theorem pathCost_append (P Q : List Step) : pathCost cost (P ++ Q) = pathCost cost P + pathCost cost Q := by
  unfold pathCost
  rw [List.map_append, List.sum_append]

theorem Step.slack {p : Int → Int} (hp : Slack V cap cost f p) {e : Step} (he : e.Free cap f) (h1 : e.src ∈ V) (h2 : e.dst ∈ V) :
    0 ≤ e.cost cost + p e.src - p e.dst := by
  obtain ⟨a, b, d⟩ := e
  cases d
  · have := (hp b h2 a h1).2 he
    change 0 ≤ -cost b a + p a - p b
    omega
  · exact (hp a h1 b h2).1 he

theorem path_slack {p : Int → Int} (hp : Slack V cap cost f p) {P : List Step} : ∀ {s t : Int}, s ∈ V → Augmenting V cap f s P t →
    0 ≤ pathCost cost P + p s - p t := by
  induction P with
  | nil => intro s t _ h; have : s = t := h.1; subst this; simp [pathCost]
  | cons e P ih =>
    intro s t hs h
    have h1 := Path.src_dst hs h.1 e (by simp)
    have h2 := Step.slack hp (h.2 e (by simp)) h1.1 h1.2
    have h3 := ih h1.2 ⟨h.1.2.2, fun e' he' => h.2 e' (by simp [he'])⟩
    have h4 : e.src = s := h.1.1
    rw [h4] at h2
    unfold pathCost at h3 ⊢
    rw [List.map_cons, List.sum_cons]
    omega

/-- Among the costs of the paths to a vertex there is a smallest one. -/
theorem exists_least {p : Int → Int} (hp : Slack V cap cost f p) (hs : s ∈ V) {w : Int} (hw : ∃ Q, Augmenting V cap f s Q w) :
    ∃ Q, Cheapest V cap cost f s Q w := by
  classical
  obtain ⟨Q0, h0⟩ := hw
  have hne : ∃ k : Nat, ∃ Q, Augmenting V cap f s Q w ∧ pathCost cost Q + p s - p w = k :=
    ⟨(pathCost cost Q0 + p s - p w).toNat, Q0, h0, by have := path_slack hp hs h0; omega⟩
  obtain ⟨Q, h1, h2⟩ := Nat.find_spec hne
  refine ⟨Q, h1, fun Q' h' => ?_⟩
  by_contra hlt
  have h3 := path_slack hp hs h'
  have h4 := Nat.find_min hne (m := (pathCost cost Q' + p s - p w).toNat) (by omega)
  exact h4 ⟨Q', h', by omega⟩

open Classical in
/-- The distances with the potentials taken away, at most the one of `t`. -/
noncomputable def cutDist (V : Finset Int) (cap cost f : Int → Int → Int) (p : Int → Int) (s : Int) (D : Int) (w : Int) : Int :=
  if h : ∃ Q, Cheapest V cap cost f s Q w then min (pathCost cost h.choose + p s - p w) D else D

theorem cutDist_le (p : Int → Int) (D w : Int) : cutDist V cap cost f p s D w ≤ D := by
  unfold cutDist
  split
  · exact min_le_right _ _
  · exact le_refl _

theorem cutDist_path {p : Int → Int} (hp : Slack V cap cost f p) (hs : s ∈ V) (D : Int) {w : Int} {Q : List Step} (hQ : Augmenting V cap f s Q w) :
    cutDist V cap cost f p s D w ≤ pathCost cost Q + p s - p w := by
  have h := exists_least hp hs ⟨Q, hQ⟩
  unfold cutDist
  rw [dif_pos h]
  have := h.choose_spec.2 Q hQ
  exact (min_le_left _ _).trans (by omega)

theorem cutDist_cheapest {p : Int → Int} (D : Int) {w : Int} {Q : List Step} (hQ : Cheapest V cap cost f s Q w)
    (hD : pathCost cost Q + p s - p w ≤ D) : cutDist V cap cost f p s D w = pathCost cost Q + p s - p w := by
  have h : ∃ Q, Cheapest V cap cost f s Q w := ⟨Q, hQ⟩
  unfold cutDist
  rw [dif_pos h]
  have h1 := h.choose_spec.2 Q hQ.1
  have h2 := hQ.2 _ h.choose_spec.1
  rw [min_eq_left (by omega)]
  omega

/-- The new potentials on a free step. -/
theorem cutDist_step {p : Int → Int} (hp : Slack V cap cost f p) (hs : s ∈ V) (D : Int) {e : Step} (he : e.Free cap f) (h1 : e.src ∈ V) (h2 : e.dst ∈ V) :
    0 ≤ e.cost cost + (p e.src + cutDist V cap cost f p s D e.src) - (p e.dst + cutDist V cap cost f p s D e.dst) := by
  have h3 := Step.slack hp he h1 h2
  have h4 := cutDist_le (V := V) (cap := cap) (cost := cost) (f := f) (s := s) p D e.dst
  by_cases h : ∃ Q, Cheapest V cap cost f s Q e.src
  · obtain ⟨Q, hQ⟩ := h
    by_cases hD : pathCost cost Q + p s - p e.src ≤ D
    · rw [cutDist_cheapest D hQ hD]
      have h5 : Augmenting V cap f s (Q ++ [e]) e.dst :=
        ⟨Path.append hQ.1.1 ⟨rfl, h2, rfl⟩, fun e' he' => by
          rcases List.mem_append.1 he' with h | h
          · exact hQ.1.2 e' h
          · rw [List.mem_singleton.1 h]; exact he⟩
      have h6 := cutDist_path hp hs D h5
      rw [pathCost_append] at h6
      have h7 : pathCost cost [e] = e.cost cost := by simp [pathCost]
      omega
    · have h5 : cutDist V cap cost f p s D e.src = D := by
        have hE : ∃ Q, Cheapest V cap cost f s Q e.src := ⟨Q, hQ⟩
        unfold cutDist
        rw [dif_pos hE]
        have h8 := hQ.2 _ hE.choose_spec.1
        exact min_eq_right (by omega)
      omega
  · have h5 : cutDist V cap cost f p s D e.src = D := by
      unfold cutDist
      rw [dif_neg h]
    omega

/-- On the cheapest path to `t` the new potentials are tight. -/
theorem cutDist_tight {p : Int → Int} (hp : Slack V cap cost f p) (hs : s ∈ V) {P : List Step} (hP : Cheapest V cap cost f s P t) {e : Step} (he : e ∈ P) :
    e.cost cost + (p e.src + cutDist V cap cost f p s (pathCost cost P + p s - p t) e.src)
      - (p e.dst + cutDist V cap cost f p s (pathCost cost P + p s - p t) e.dst) = 0 := by
  obtain ⟨A, B, rfl⟩ := List.append_of_mem he
  obtain ⟨w, h1, h2⟩ := Path.split hP.1.1
  obtain ⟨h3, h4, h5⟩ := h2
  subst h3
  have freeA : ∀ e' ∈ A, e'.Free cap f := fun e' h => hP.1.2 e' (by simp [h])
  have freeB : ∀ e' ∈ B, e'.Free cap f := fun e' h => hP.1.2 e' (by simp [h])
  have free : e.Free cap f := hP.1.2 e he
  have hsrc := Path.end_mem hs h1
  have hc : pathCost cost (A ++ e :: B) = pathCost cost A + e.cost cost + pathCost cost B := by
    rw [pathCost_append]
    unfold pathCost
    rw [List.map_cons, List.sum_cons, add_assoc]
  have a1 : Augmenting V cap f e.dst B t := ⟨h5, freeB⟩
  have a2 : Augmenting V cap f s A e.src := ⟨h1, freeA⟩
  have a3 : Augmenting V cap f s (A ++ [e]) e.dst := ⟨Path.append h1 ⟨rfl, h4, rfl⟩, fun e' he' => by
    rcases List.mem_append.1 he' with h | h
    · exact freeA e' h
    · rw [List.mem_singleton.1 h]; exact free⟩
  have he1 : pathCost cost [e] = e.cost cost := by simp [pathCost]
  have c2 : Cheapest V cap cost f s A e.src := ⟨a2, fun Q hQ => by
    have := hP.2 (Q ++ e :: B) ⟨Path.append hQ.1 ⟨rfl, h4, h5⟩, fun e' he' => by
      rcases List.mem_append.1 he' with h | h
      · exact hQ.2 e' h
      · rcases List.mem_cons.1 h with rfl | h
        · exact free
        · exact freeB e' h⟩
    rw [pathCost_append, pathCost_append] at this
    omega⟩
  have c3 : Cheapest V cap cost f s (A ++ [e]) e.dst := ⟨a3, fun Q hQ => by
    have := hP.2 (Q ++ B) ⟨Path.append hQ.1 h5, fun e' he' => by
      rcases List.mem_append.1 he' with h | h
      · exact hQ.2 e' h
      · exact freeB e' h⟩
    rw [hc, pathCost_append] at this
    rw [pathCost_append, he1]
    omega⟩
  have s1 := path_slack hp h4 a1
  have s2 := Step.slack hp free hsrc h4
  rw [cutDist_cheapest _ c2 (by rw [hc]; omega), cutDist_cheapest _ c3 (by rw [hc, pathCost_append, he1]; omega), pathCost_append, he1]
  ring

theorem uses_pos {P : List Step} {u v : Int} (h : 0 < uses P u v) : (⟨u, v, true⟩ : Step) ∈ P := by
  unfold uses at h
  rw [← List.count_pos_iff]
  omega

theorem uses_neg {P : List Step} {u v : Int} (h : uses P u v < 0) : (⟨v, u, false⟩ : Step) ∈ P := by
  unfold uses at h
  rw [← List.count_pos_iff]
  omega

/-- Pushing along a cheapest path keeps the cost smallest. -/
theorem push_slack {p : Int → Int} (hp : Slack V cap cost f p) (hs : s ∈ V) {P : List Step} (hP : Cheapest V cap cost f s P t) {x : Int} (hx : 0 ≤ x) :
    ∃ q, Slack V cap cost (push x P f) q := by
  refine ⟨fun w => p w + cutDist V cap cost f p s (pathCost cost P + p s - p t) w, fun u hu v hv => ⟨fun h => ?_, fun h => ?_⟩⟩ <;> beta_reduce
  · by_cases hf : f u v < cap u v
    · exact cutDist_step hp hs _ (e := ⟨u, v, true⟩) hf hu hv
    · have h1 : uses P u v < 0 := by
        by_contra h2
        have h3 : push x P f u v = f u v + x * uses P u v := rfl
        have : 0 ≤ x * uses P u v := mul_nonneg hx (by omega)
        omega
      have h2 := cutDist_tight hp hs hP (uses_neg h1)
      simp only [Step.cost] at h2
      omega
  · by_cases hf : 0 < f u v
    · have h1 := cutDist_step hp hs (pathCost cost P + p s - p t) (e := ⟨v, u, false⟩) hf hv hu
      simp only [Step.cost] at h1
      omega
    · have h1 : 0 < uses P u v := by
        by_contra h2
        have h3 : push x P f u v = f u v + x * uses P u v := rfl
        have : x * uses P u v ≤ 0 := mul_nonpos_of_nonneg_of_nonpos hx (by omega)
        omega
      have h2 := cutDist_tight hp hs hP (uses_pos h1)
      simp only [Step.cost] at h2
      omega

/-- All flows of the algorithm have smallest cost. -/
theorem rounds_slack {k : Nat} (hs : s ∈ V) (hst : s ≠ t) (hcap : ∀ u ∈ V, ∀ v ∈ V, 0 ≤ cap u v) (hcost : ∀ u ∈ V, ∀ v ∈ V, 0 ≤ cost u v)
    (h : Rounds V cap cost s t k f) : IsFlow V cap s t f ∧ ∃ p, Slack V cap cost f p := by
  induction h with
  | start => exact ⟨⟨fun _ _ _ _ => le_refl _, fun u hu v hv => hcap u hu v hv, fun _ _ _ _ => by simp⟩, fun _ => 0, fun u hu v hv => ⟨fun _ => by
      have := hcost u hu v hv; beta_reduce; omega, fun h => absurd h (lt_irrefl _)⟩⟩
  | round hr hP hx hb ih =>
    obtain ⟨h1, p, h2⟩ := ih
    exact ⟨(push_flow (cost := cost) hs hst h1 hP.1.1 hb).1, push_slack h2 hs hP hx.le⟩

theorem rounds_minCost {k : Nat} (hs : s ∈ V) (ht : t ∈ V) (hst : s ≠ t) (hcap : ∀ u ∈ V, ∀ v ∈ V, 0 ≤ cap u v)
    (hcost : ∀ u ∈ V, ∀ v ∈ V, 0 ≤ cost u v) (h : Rounds V cap cost s t k f) :
    MinCost V cap cost s t (value V s f) (flowCost V cost f) := by
  obtain ⟨h1, p, h2⟩ := rounds_slack hs hst hcap hcost h
  exact ⟨⟨f, h1, rfl, rfl⟩, fun g hg hv => slack_optimal hs ht hst h1 h2 hg hv⟩

/-- If the smallest costs have bends at `G 1, G 2, …`, then `k` rounds reach at most `G k`. -/
theorem rounds_le {G K : Nat → Int} {L : Nat} (hs : s ∈ V) (ht : t ∈ V) (hst : s ≠ t) (hcap : ∀ u ∈ V, ∀ v ∈ V, 0 ≤ cap u v)
    (hcost : ∀ u ∈ V, ∀ v ∈ V, 0 ≤ cost u v) (hG : ∀ l, G l < G (l + 1)) (hK : ∀ l, K (l + 1) = K l + G (l + 1)) (h0 : 0 ≤ G 0)
    (dual : ∀ l < L, ∀ f, IsFlow V cap s t f → l * value V s f - K l ≤ flowCost V cost f)
    (primal : ∀ l < L, ∃ f, IsFlow V cap s t f ∧ value V s f = G l ∧ flowCost V cost f = l * G l - K l)
    {k : Nat} (h : Rounds V cap cost s t k f) (hk : k < L) : value V s f ≤ G k := by
  induction h with
  | start => simpa [value] using h0
  | @round k f P x hr hP hx hb ih =>
    have h1 := ih (by omega)
    obtain ⟨hf, p, hp⟩ := rounds_slack hs hst hcap hcost hr
    obtain ⟨hf', hv', hc'⟩ := push_flow (cost := cost) hs hst hf hP.1.1 hb
    by_contra hlt
    rw [hv'] at hlt
    have hG' := hG k
    -- stopping at the bend
    have hy0 : 0 ≤ G (k + 1) - value V s f := by omega
    have hb2 : ∀ u ∈ V, ∀ v ∈ V, 0 ≤ push (G (k + 1) - value V s f) P f u v ∧ push (G (k + 1) - value V s f) P f u v ≤ cap u v := by
      intro u hu v hv
      have b1 := hb u hu v hv
      have b2 := hf.nonneg u hu v hv
      have b3 := hf.le_cap u hu v hv
      unfold push at b1 ⊢
      have hyx : G (k + 1) - value V s f ≤ x := by omega
      generalize G (k + 1) - value V s f = y at *
      generalize (P.count ⟨u, v, true⟩ : Int) - P.count ⟨v, u, false⟩ = c at *
      rcases le_total 0 c with hc | hc
      · have := mul_le_mul_of_nonneg_right hyx hc
        have := mul_nonneg hy0 hc
        constructor <;> omega
      · have := mul_le_mul_of_nonpos_right hyx hc
        have := mul_nonpos_of_nonneg_of_nonpos hy0 hc
        constructor <;> omega
    obtain ⟨hf2, hv2, hc2⟩ := push_flow (cost := cost) hs hst hf hP.1.1 hb2
    obtain ⟨q, hq⟩ := push_slack hp hs hP hy0
    obtain ⟨g, hg, hgv, hgc⟩ := primal (k + 1) hk
    have o1 := slack_optimal hs ht hst hf2 hq hg (by rw [hgv, hv2]; ring)
    have o2 := dual (k + 1) hk _ hf'
    have o3 := dual k (by omega) _ hf
    have o4 := dual (k + 1) hk _ hf2
    rw [hv'] at o2
    rw [hv2] at o4
    rw [hc'] at o2
    rw [hc2] at o1 o4
    rw [hgc] at o1
    have e := hK k
    push_cast at *
    generalize pathCost cost P = d at *
    generalize value V s f = v at *
    generalize flowCost V cost f = c at *
    generalize G (k + 1) = b at *
    generalize K (k + 1) = b' at *
    generalize K k = b'' at *
    subst e
    -- the slope before the bend is at most `k`, after it at least `k + 1`
    have hd1 : d ≤ k := by nlinarith
    nlinarith

/-! ## The algorithm reaches a largest flow -/

theorem rounds_value {k : Nat} (hs : s ∈ V) (hst : s ≠ t) (hcap : ∀ u ∈ V, ∀ v ∈ V, 0 ≤ cap u v) (hcost : ∀ u ∈ V, ∀ v ∈ V, 0 ≤ cost u v)
    (h : Rounds V cap cost s t k f) : (k : Int) ≤ value V s f := by
  induction h with
  | start => simp [value]
  | round hr hP hx hb ih =>
    rw [(push_flow (cost := cost) hs hst (rounds_slack hs hst hcap hcost hr).1 hP.1.1 hb).2.1]
    push_cast
    omega

/-- Without a path in the residual network the flow is largest. -/
theorem no_path {x : Int} (hs : s ∈ V) (hf : IsFlow V cap s t f) (hx : IsFlow V cap s t g) (hv : value V s g = x) (hlt : value V s f < x) :
    ∃ Q, Augmenting V cap f s Q t := by
  classical
  by_contra hno
  let S := V.filter fun w => ∃ Q, Augmenting V cap f s Q w
  have hS : S ⊆ V := Finset.filter_subset _ _
  have hsS : s ∈ S := Finset.mem_filter.2 ⟨hs, [], rfl, by simp⟩
  have htS : t ∉ S := fun h => hno (Finset.mem_filter.1 h).2
  have hout : ∀ u ∈ S, ∀ v ∈ V \ S, f u v = cap u v ∧ f v u = 0 := by
    intro u hu v hv
    obtain ⟨hv1, hv2⟩ := Finset.mem_sdiff.1 hv
    obtain ⟨hu1, Q, hQ⟩ := Finset.mem_filter.1 hu
    have ext : ∀ d, (⟨u, v, d⟩ : Step).Free cap f → False := fun d hd => hv2 (Finset.mem_filter.2 ⟨hv1, Q ++ [⟨u, v, d⟩],
      Path.append hQ.1 (show Path V u [⟨u, v, d⟩] v from ⟨rfl, hv1, rfl⟩), fun e he => by
        rcases List.mem_append.1 he with h | h
        · exact hQ.2 e h
        · rw [List.mem_singleton.1 h]; exact hd⟩)
    constructor
    · by_contra h
      exact ext true (lt_of_le_of_ne (hf.le_cap u hu1 v hv1) h)
    · by_contra h
      exact ext false (lt_of_le_of_ne (hf.nonneg v hv1 u hu1) (Ne.symm h))
  have h1 : value V s f = ∑ w ∈ S, (∑ v ∈ V, f w v - ∑ v ∈ V, f v w) := by
    rw [Finset.sum_eq_single s]
    · rfl
    · intro w hw hne
      rw [hf.conserve w (hS hw) hne (fun e => htS (e ▸ hw)), sub_self]
    · exact fun h => absurd hsS h
  have h2 : ∀ g : Int → Int, ∑ v ∈ V, g v = ∑ v ∈ V \ S, g v + ∑ v ∈ S, g v := fun g => (Finset.sum_sdiff hS).symm
  have h3 : value V s f = ∑ w ∈ S, ∑ v ∈ V \ S, f w v - ∑ w ∈ S, ∑ v ∈ V \ S, f v w := by
    rw [h1, Finset.sum_sub_distrib]
    simp only [h2]
    rw [Finset.sum_add_distrib, Finset.sum_add_distrib, Finset.sum_comm (s := S) (t := S) (f := fun w v => f v w)]
    ring
  have h4 : ∑ w ∈ S, ∑ v ∈ V \ S, f v w = 0 := Finset.sum_eq_zero fun u hu => Finset.sum_eq_zero fun v hv => (hout u hu v hv).2
  have h5 : ∑ w ∈ S, ∑ v ∈ V \ S, f w v = ∑ u ∈ S, ∑ v ∈ V \ S, cap u v :=
    Finset.sum_congr rfl fun u hu => Finset.sum_congr rfl fun v hv => (hout u hu v hv).1
  have h6 := value_le_cut hx hS hsS htS
  omega

theorem exists_repeat {P : List Step} (h : ¬P.Nodup) : ∃ A e B C, P = A ++ e :: (B ++ e :: C) := by
  induction P with
  | nil => exact absurd List.nodup_nil h
  | cons a P ih =>
    by_cases ha : a ∈ P
    · obtain ⟨B, C, rfl⟩ := List.append_of_mem ha
      exact ⟨[], a, B, C, rfl⟩
    · obtain ⟨A, e, B, C, rfl⟩ := ih fun h' => h (List.nodup_cons.2 ⟨ha, h'⟩)
      exact ⟨a :: A, e, B, C, rfl⟩

/-- There is a cheapest path without repetitions. -/
theorem exists_nodup {p : Int → Int} (hp : Slack V cap cost f p) (hs : s ∈ V) (hw : ∃ Q, Augmenting V cap f s Q t) :
    ∃ P, Cheapest V cap cost f s P t ∧ P.Nodup := by
  classical
  have hne : ∃ k : Nat, ∃ P, Cheapest V cap cost f s P t ∧ P.length = k := by
    obtain ⟨P, hP⟩ := exists_least hp hs hw
    exact ⟨P.length, P, hP, rfl⟩
  obtain ⟨P, h1, h2⟩ := Nat.find_spec hne
  refine ⟨P, h1, ?_⟩
  by_contra hd
  obtain ⟨A, e, B, C, rfl⟩ := exists_repeat hd
  obtain ⟨w, p1, p2⟩ := Path.split h1.1.1
  obtain ⟨p3, p4, p5⟩ := p2
  obtain ⟨w', p6, p7⟩ := Path.split p5
  obtain ⟨p8, p9, p10⟩ := p7
  have free : ∀ e' ∈ A ++ e :: (B ++ e :: C), e'.Free cap f := h1.1.2
  have short : Augmenting V cap f s (A ++ e :: C) t :=
    ⟨Path.append p1 ⟨p3, p9, p10⟩, fun e' he' => free e' (by
      rcases List.mem_append.1 he' with h | h
      · simp [h]
      · rcases List.mem_cons.1 h with h | h <;> simp [h])⟩
  have cyc : Augmenting V cap f e.dst (B ++ [e]) e.dst :=
    ⟨Path.append p6 ⟨p8, p9, rfl⟩, fun e' he' => free e' (by
      rcases List.mem_append.1 he' with h | h
      · simp [h]
      · simp [List.mem_singleton.1 h])⟩
  have c1 := path_slack hp p4 cyc
  have cons : ∀ L, pathCost cost (e :: L) = e.cost cost + pathCost cost L := fun L => by
    unfold pathCost; rw [List.map_cons, List.sum_cons]
  have nil : pathCost cost [] = 0 := rfl
  rw [pathCost_append, cons, nil] at c1
  have c2 : pathCost cost (A ++ e :: C) ≤ pathCost cost (A ++ e :: (B ++ e :: C)) := by
    rw [pathCost_append, pathCost_append, cons, cons, pathCost_append, cons]
    omega
  refine Nat.find_min hne (m := (A ++ e :: C).length) ?_ ⟨_, ⟨short, fun Q hQ => c2.trans (h1.2 Q hQ)⟩, rfl⟩
  rw [← h2]
  simp only [List.length_append, List.length_cons]
  omega

/-- From every flow of the algorithm one can go on to a largest one. -/
theorem rounds_reach {x : Int} (hs : s ∈ V) (hst : s ≠ t) (hcap : ∀ u ∈ V, ∀ v ∈ V, 0 ≤ cap u v) (hcost : ∀ u ∈ V, ∀ v ∈ V, 0 ≤ cost u v)
    (hx : MaxFlow V cap s t x) : ∃ k f, Rounds V cap cost s t k f ∧ value V s f = x := by
  have main : ∀ (m : Nat) (k : Nat) (f : Int → Int → Int), Rounds V cap cost s t k f → x - value V s f = m →
      ∃ k f, Rounds V cap cost s t k f ∧ value V s f = x := by
    intro m
    induction m with
    | zero => intro k f h hm; exact ⟨k, f, h, by push_cast at hm; omega⟩
    | succ m ih =>
      intro k f h hm
      obtain ⟨hf, p, hp⟩ := rounds_slack hs hst hcap hcost h
      obtain ⟨⟨g, hg, hgv⟩, -⟩ := hx
      obtain ⟨P, hP, hnd⟩ := exists_nodup (t := t) hp hs (no_path hs hf hg hgv (by push_cast at hm; omega))
      have hb : ∀ u ∈ V, ∀ v ∈ V, 0 ≤ push 1 P f u v ∧ push 1 P f u v ≤ cap u v := by
        intro u hu v hv
        have b2 := hf.nonneg u hu v hv
        have b3 := hf.le_cap u hu v hv
        have c1 : P.count ⟨u, v, true⟩ ≤ 1 := List.nodup_iff_count_le_one.1 hnd _
        have c2 : P.count ⟨v, u, false⟩ ≤ 1 := List.nodup_iff_count_le_one.1 hnd _
        have f1 : 0 < P.count ⟨u, v, true⟩ → f u v < cap u v := fun h => hP.1.2 ⟨u, v, true⟩ (List.count_pos_iff.1 h)
        have f2 : 0 < P.count ⟨v, u, false⟩ → 0 < f u v := fun h => hP.1.2 ⟨v, u, false⟩ (List.count_pos_iff.1 h)
        unfold push
        generalize P.count ⟨u, v, true⟩ = a at *
        generalize P.count ⟨v, u, false⟩ = b at *
        constructor <;> omega
      refine ih (k + 1) _ (.round h hP one_pos hb) ?_
      rw [(push_flow (cost := cost) hs hst hf hP.1.1 hb).2.1]
      push_cast at hm ⊢
      omega
  have h0 : value V s (fun _ _ => 0) = 0 := by simp [value]
  have hx0 : 0 ≤ x := by
    have := hx.2 (fun _ _ => 0) (rounds_slack hs hst hcap hcost .start).1
    omega
  exact main (x - value V s fun _ _ => 0).toNat 0 _ .start (by rw [h0]; omega)

end ICPC.Spec.Flow
