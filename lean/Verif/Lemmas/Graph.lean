import Verif.Spec.Graph
import Mathlib.Data.List.Basic
import Mathlib.Data.List.Duplicate

namespace ICPC
open Spec

variable {α : Type}

theorem joined_refl (E : List (α × α)) (a : α) : Joined E a a := .refl a
theorem joined_symm {E : List (α × α)} {a b : α} (h : Joined E a b) : Joined E b a := .symm _ _ h
theorem joined_trans {E : List (α × α)} {a b c : α} (h : Joined E a b) (h' : Joined E b c) : Joined E a c := .trans _ _ _ h h'
theorem joined_edge {E : List (α × α)} {a b : α} (h : (a, b) ∈ E) : Joined E a b := .rel _ _ h

theorem joined_mono {E F : List (α × α)} (hs : ∀ e ∈ E, e ∈ F) {a b : α} (h : Joined E a b) : Joined F a b := by
  induction h with
  | rel x y h => exact joined_edge (hs _ h)
  | refl x => exact joined_refl _ _
  | symm x y _ ih => exact joined_symm ih
  | trans x y z _ _ ih1 ih2 => exact joined_trans ih1 ih2

theorem joined_nil (a b : α) : Joined ([] : List (α × α)) a b ↔ a = b := by
  constructor
  · intro h
    induction h with
    | rel x y h => cases h
    | refl x => rfl
    | symm x y _ ih => exact ih.symm
    | trans x y z _ _ ih1 ih2 => exact ih1.trans ih2
  · rintro rfl; exact joined_refl _ _

/-- Something that is constant along edges is constant on joined vertices. -/
theorem joined_const {β : Type} {E : List (α × α)} (f : α → β) (hf : ∀ e ∈ E, f e.1 = f e.2) {a b : α} (h : Joined E a b) :
    f a = f b := by
  induction h with
  | rel x y h => exact hf _ h
  | refl x => rfl
  | symm x y _ ih => exact ih.symm
  | trans x y z _ _ ih1 ih2 => exact ih1.trans ih2

/-- One more edge. -/
theorem joined_append (E : List (α × α)) (a b x y : α) :
    Joined (E ++ [(a, b)]) x y ↔ Joined E x y ∨ (Joined E x a ∧ Joined E y b) ∨ (Joined E x b ∧ Joined E y a) := by
  constructor
  · intro h
    induction h with
    | rel x y h =>
      rcases List.mem_append.1 h with h | h
      · exact .inl (joined_edge h)
      · simp only [List.mem_singleton, Prod.mk.injEq] at h
        obtain ⟨rfl, rfl⟩ := h
        exact .inr (.inl ⟨joined_refl _ _, joined_refl _ _⟩)
    | refl x => exact .inl (joined_refl _ _)
    | symm x y _ ih =>
      rcases ih with h | ⟨h, h'⟩ | ⟨h, h'⟩
      · exact .inl (joined_symm h)
      · exact .inr (.inr ⟨h', h⟩)
      · exact .inr (.inl ⟨h', h⟩)
    | trans x y z _ _ ih1 ih2 =>
      rcases ih1 with h | ⟨h, h'⟩ | ⟨h, h'⟩ <;> rcases ih2 with k | ⟨k, k'⟩ | ⟨k, k'⟩
      · exact .inl (joined_trans h k)
      · exact .inr (.inl ⟨joined_trans h k, k'⟩)
      · exact .inr (.inr ⟨joined_trans h k, k'⟩)
      · exact .inr (.inl ⟨h, joined_trans (joined_symm k) h'⟩)
      · exact .inl (joined_trans h (joined_trans (joined_trans (joined_symm k) h') (joined_symm k')))
      · exact .inl (joined_trans h (joined_symm k'))
      · exact .inr (.inr ⟨h, joined_trans (joined_symm k) h'⟩)
      · exact .inl (joined_trans h (joined_symm k'))
      · exact .inl (joined_trans h (joined_trans (joined_trans (joined_symm k) h') (joined_symm k')))
  · have hm : ∀ {x y}, Joined E x y → Joined (E ++ [(a, b)]) x y := joined_mono (fun e he => List.mem_append_left _ he)
    have he : Joined (E ++ [(a, b)]) a b := joined_edge (by simp)
    rintro (h | ⟨h, h'⟩ | ⟨h, h'⟩)
    · exact hm h
    · exact joined_trans (hm h) (joined_trans he (joined_symm (hm h')))
    · exact joined_trans (hm h) (joined_trans (joined_symm he) (joined_symm (hm h')))

/-! ## Walks -/

theorem uwalk_append {E : List (α × α)} {a b c : α} {v w : List Nat} (h : UWalk E a v b) (h' : UWalk E b w c) :
    UWalk E a (v ++ w) c := by
  induction h with
  | nil => exact h'
  | cons he _ ih => exact .cons he (ih h')

theorem uwalk_reverse {E : List (α × α)} {a b : α} {w : List Nat} (h : UWalk E a w b) : UWalk E b w.reverse a := by
  induction h with
  | nil => exact .nil _
  | cons he _ ih =>
    rw [List.reverse_cons]
    exact uwalk_append ih (.cons (Or.symm he) (.nil _))

theorem uwalk_split {E : List (α × α)} {a c : α} {v w : List Nat} (h : UWalk E a (v ++ w) c) :
    ∃ b, UWalk E a v b ∧ UWalk E b w c := by
  induction v generalizing a with
  | nil => exact ⟨a, .nil _, h⟩
  | cons i v ih =>
    cases h with
    | cons he h' =>
      obtain ⟨b, h1, h2⟩ := ih h'
      exact ⟨b, .cons he h1, h2⟩

theorem joined_uwalk {E : List (α × α)} {a b : α} (h : Joined E a b) : ∃ w, UWalk E a w b := by
  induction h with
  | rel x y h =>
    obtain ⟨i, hi⟩ := List.getElem?_of_mem h
    exact ⟨[i], .cons (.inl hi) (.nil _)⟩
  | refl x => exact ⟨[], .nil _⟩
  | symm x y _ ih => obtain ⟨w, hw⟩ := ih; exact ⟨_, uwalk_reverse hw⟩
  | trans x y z _ _ ih1 ih2 =>
    obtain ⟨v, hv⟩ := ih1
    obtain ⟨w, hw⟩ := ih2
    exact ⟨_, uwalk_append hv hw⟩

theorem uwalk_joined {E F : List (α × α)} {a b : α} {w : List Nat} (h : UWalk E a w b)
    (hF : ∀ (i : Nat) (e : α × α), i ∈ w → E[i]? = some e → e ∈ F) : Joined F a b := by
  induction h with
  | nil => exact joined_refl _ _
  | cons he _ ih =>
    refine joined_trans ?_ (ih (fun i e hi => hF i e (List.mem_cons_of_mem _ hi)))
    rcases he with he | he
    · exact joined_edge (hF _ _ List.mem_cons_self he)
    · exact joined_symm (joined_edge (hF _ _ List.mem_cons_self he))

/-- A walk can be shortened until no edge is used twice. -/
theorem uwalk_nodup {E : List (α × α)} {a b : α} {w : List Nat} (h : UWalk E a w b) :
    ∃ v, UWalk E a v b ∧ v.Nodup := by
  induction hn : w.length using Nat.strongRecOn generalizing w with
  | ind n ih =>
    by_cases hd : w.Nodup
    · exact ⟨w, h, hd⟩
    · obtain ⟨i, hi⟩ := List.exists_duplicate_iff_not_nodup.2 hd
      -- the first two uses of an edge
      obtain ⟨w1, w2, w3, rfl⟩ : ∃ w1 w2 w3, w = w1 ++ (i :: (w2 ++ i :: w3)) := by
        have h2 : [i, i].Sublist w := List.duplicate_iff_sublist.1 hi
        obtain ⟨w1, r, rfl, h3, h4⟩ := List.cons_sublist_iff.1 h2
        obtain ⟨s, t, rfl⟩ := List.append_of_mem h3
        obtain ⟨s', t', rfl⟩ := List.append_of_mem (List.singleton_sublist.1 h4)
        exact ⟨s, t ++ s', t', by simp⟩
      obtain ⟨x, h1, h2⟩ := uwalk_split h
      cases h2 with
      | @cons _ y _ _ _ he h3 =>
        obtain ⟨x', h4, h5⟩ := uwalk_split h3
        cases h5 with
        | @cons _ y' _ _ _ he' h6 =>
          have hcase : (x' = x ∧ y' = y) ∨ (x' = y ∧ y' = x) := by
            rcases he with he | he <;> rcases he' with he' | he' <;> rw [he] at he' <;>
              · have := Option.some.inj he'; simp only [Prod.mk.injEq] at this; tauto
          rcases hcase with ⟨rfl, rfl⟩ | ⟨rfl, rfl⟩
          · refine ih _ ?_ (uwalk_append h1 (.cons he h6)) rfl
            rw [← hn]; simp only [List.length_append, List.length_cons]; omega
          · refine ih _ ?_ (uwalk_append h1 h6) rfl
            rw [← hn]; simp only [List.length_append, List.length_cons]; omega

/-! ## Forests -/

/-- No edge joins vertices that are joined by the other edges. -/
def Bridges (E : List (Int × Int)) : Prop :=
  ∀ (i : Nat) (e : Int × Int), E[i]? = some e → ¬ Joined (E.eraseIdx i) e.1 e.2

theorem uwalk_eraseIdx {E : List (α × α)} {i : Nat} {a b : α} {w : List Nat} (h : UWalk (E.eraseIdx i) a w b) :
    UWalk E a (w.map (fun k => if k < i then k else k + 1)) b := by
  have key : ∀ k, (E.eraseIdx i)[k]? = E[if k < i then k else k + 1]? := by
    intro k
    rw [List.getElem?_eraseIdx]
    split <;> rfl
  induction h with
  | nil => exact .nil _
  | cons he _ ih =>
    rw [key] at he
    exact .cons he ih

theorem mem_eraseIdx_of_ne {E : List (α × α)} {i j : Nat} {e : α × α} (hij : j ≠ i) (h : E[j]? = some e) : e ∈ E.eraseIdx i := by
  rw [List.mem_eraseIdx_iff_getElem?]
  exact ⟨j, hij, h⟩

theorem forest_bridges (E : List (Int × Int)) : Forest E ↔ Bridges E := by
  constructor
  · intro h i e hi hj
    obtain ⟨w, hw⟩ := joined_uwalk (joined_symm hj)
    obtain ⟨v, hv, hd⟩ := uwalk_nodup hw
    have hv' := uwalk_eraseIdx hv
    have := h e.1 _ (.cons (.inl hi) hv') (by
      rw [List.nodup_cons]
      constructor
      · intro hm
        obtain ⟨k, _, hk⟩ := List.mem_map.1 hm
        split at hk <;> omega
      · refine hd.map (fun x y hxy => ?_)
        split at hxy <;> split at hxy <;> omega)
    cases this
  · intro h a w hw hd
    cases hw with
    | nil => rfl
    | @cons _ b _ i w he hw =>
      exfalso
      rw [List.nodup_cons] at hd
      have hj : Joined (E.eraseIdx i) b a := uwalk_joined hw (fun j e hj he =>
        mem_eraseIdx_of_ne (fun hji => hd.1 (hji ▸ hj)) he)
      rcases he with he | he
      · exact h i _ he (joined_symm hj)
      · exact h i _ he hj

theorem forest_nil : Forest [] := by
  rw [forest_bridges]
  intro i e h
  simp at h

theorem forest_append (E : List (Int × Int)) (a b : Int) : Forest (E ++ [(a, b)]) ↔ Forest E ∧ ¬ Joined E a b := by
  rw [forest_bridges, forest_bridges]
  constructor
  · intro h
    refine ⟨fun i e hi hj => ?_, fun hj => ?_⟩
    · have hlt : i < E.length := (List.getElem?_eq_some_iff.1 hi).1
      refine h i e (by rw [List.getElem?_append_left hlt]; exact hi) ?_
      rw [List.eraseIdx_append_of_lt_length hlt]
      exact joined_mono (fun e he => List.mem_append_left _ he) hj
    · refine h E.length (a, b) (by simp) ?_
      rw [List.eraseIdx_append_of_length_le (Nat.le_refl _)]
      simpa using hj
  · rintro ⟨h, hab⟩ i e hi hj
    by_cases hlt : i < E.length
    · rw [List.getElem?_append_left hlt] at hi
      rw [List.eraseIdx_append_of_lt_length hlt, joined_append] at hj
      have hm : ∀ {x y}, Joined (E.eraseIdx i) x y → Joined E x y := joined_mono (fun e he => List.mem_of_mem_eraseIdx he)
      have he : Joined E e.1 e.2 := joined_edge (List.mem_of_getElem? hi)
      rcases hj with hj | ⟨h1, h2⟩ | ⟨h1, h2⟩
      · exact h i e hi hj
      · exact hab (joined_trans (joined_symm (hm h1)) (joined_trans he (hm h2)))
      · exact hab (joined_trans (joined_symm (hm h2)) (joined_trans (joined_symm he) (hm h1)))
    · have hi' : i = E.length := by
        have := (List.getElem?_eq_some_iff.1 hi).1
        simp at this; omega
      subst hi'
      simp only [List.getElem?_concat_length, Option.some.injEq] at hi
      subst hi
      rw [List.eraseIdx_append_of_length_le (Nat.le_refl _)] at hj
      simp at hj
      exact hab hj

/-! ## Colourings -/

/-- Every vertex twice, edges join different copies. -/
def doubled (E : List (α × α)) : List ((α × Bool) × (α × Bool)) :=
  E.flatMap (fun e => [((e.1, false), (e.2, true)), ((e.1, true), (e.2, false))])

theorem doubled_append (E : List (α × α)) (a b : α) :
    doubled (E ++ [(a, b)]) = doubled E ++ [((a, false), (b, true))] ++ [((a, true), (b, false))] := by
  simp [doubled]

theorem mem_doubled {E : List (α × α)} {e : α × α} (h : e ∈ E) (s : Bool) : ((e.1, s), (e.2, !s)) ∈ doubled E := by
  rw [doubled, List.mem_flatMap]
  exact ⟨e, h, by cases s <;> simp⟩

theorem joined_doubled {E : List (α × α)} (c : α → Bool) (hc : ∀ e ∈ E, c e.1 ≠ c e.2) {x y : α} (h : Joined E x y) :
    ∀ s, Joined (doubled E) (x, s) (y, (s ^^ (c x ^^ c y))) := by
  induction h with
  | rel x y h =>
    intro s
    have := joined_edge (mem_doubled h s)
    have hxy := hc _ h
    have e : (s ^^ (c x ^^ c y)) = !s := by
      revert hxy; simp only; cases c x <;> cases c y <;> cases s <;> simp
    rw [e]; exact this
  | refl x => intro s; simpa using joined_refl _ _
  | symm x y _ ih =>
    intro s
    have := joined_symm (ih (s ^^ (c y ^^ c x)))
    have e : ((s ^^ (c y ^^ c x)) ^^ (c x ^^ c y)) = s := by cases c x <;> cases c y <;> cases s <;> rfl
    rwa [e] at this
  | trans x y z _ _ ih1 ih2 =>
    intro s
    have := joined_trans (ih1 s) (ih2 _)
    have e : ((s ^^ (c x ^^ c y)) ^^ (c y ^^ c z)) = (s ^^ (c x ^^ c z)) := by
      cases c x <;> cases c y <;> cases c z <;> cases s <;> rfl
    rwa [e] at this

theorem colourable_append (E : List (Int × Int)) (a b : Int) :
    TwoColourable (E ++ [(a, b)]) ↔ TwoColourable E ∧ ¬ Joined (doubled (E ++ [(a, b)])) (a, false) (a, true) := by
  constructor
  · rintro ⟨c, hc⟩
    refine ⟨⟨c, fun e he => hc e (List.mem_append_left _ he)⟩, fun hj => ?_⟩
    have := joined_const (fun p : Int × Bool => (c p.1 ^^ p.2)) (fun e he => by
      rw [doubled, List.mem_flatMap] at he
      obtain ⟨d, hd, he⟩ := he
      have := hc d hd
      simp only [List.mem_cons, List.not_mem_nil, or_false] at he
      rcases he with rfl | rfl <;> revert this <;> simp only <;> cases c d.1 <;> cases c d.2 <;> simp) hj
    simp at this
  · rintro ⟨⟨c, hc⟩, hj⟩
    have hedge : Joined (doubled (E ++ [(a, b)])) (a, true) (b, false) :=
      joined_edge (mem_doubled (e := (a, b)) (by simp) true)
    by_cases hab : c a = c b
    · have hnj : ¬ Joined E a b := by
        intro h
        have h1 := joined_doubled c hc h false
        rw [hab] at h1
        have h2 : Joined (doubled (E ++ [(a, b)])) (a, false) (b, false) := by
          refine joined_mono ?_ (by simpa using h1)
          intro e he
          rw [doubled_append, List.append_assoc]
          exact List.mem_append_left _ he
        exact hj (joined_trans h2 (joined_symm hedge))
      classical
      refine ⟨fun x => if Joined E x b then !c x else c x, fun e he => ?_⟩
      rcases List.mem_append.1 he with he | he
      · have h1 := hc e he
        have h2 : Joined E e.1 b ↔ Joined E e.2 b :=
          ⟨fun h => joined_trans (joined_symm (joined_edge he)) h, fun h => joined_trans (joined_edge he) h⟩
        simp only [h2]
        split
        · simpa using h1
        · exact h1
      · simp only [List.mem_singleton] at he
        subst he
        simp only [hnj, if_false, joined_refl, if_true, hab]
        cases c b <;> simp
    · refine ⟨c, fun e he => ?_⟩
      rcases List.mem_append.1 he with he | he
      · exact hc e he
      · simp only [List.mem_singleton] at he
        subst he
        exact hab

end ICPC
