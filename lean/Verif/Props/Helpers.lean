import Verif.Spec.Helpers
import Verif.Props.Convex
import Mathlib.Data.List.Basic

/-!
# C95: helpers for containers
-/

namespace ICPC.Props
open ICPC ICPC.Spec ICPC.Helpers

variable {α : Type}

/-! ### `append` -/

/-- What an append to the vector at `a` changes. -/
structure Grown (m m' : Mem α) (a b : Nat) (l : List α) : Prop where
  sound : Sound m'
  vec : ∃ b' cap, m'.obj a = some (.vec b' cap) ∧ m'.heap b' = some l ∧ (b' = b ∨ m.next ≤ b')
  objs : ∀ a', a' ≠ a → m'.obj a' = m.obj a'
  blocks : ∀ b', b' ≠ b → b' < m.next → m'.heap b' = m.heap b'
  next : m.next ≤ m'.next

theorem emplaceEnd_ok {grow : Nat → Nat} (hg : ∀ c, c < grow c) {m : Mem α} (hm : Sound m) {a b cap : Nat} {l : List α}
    (ho : m.obj a = some (.vec b cap)) (hh : m.heap b = some l) (e : α) :
    ∃ m', emplaceEnd grow m a e = .ok m' ∧ Grown m m' a b (l ++ [e]) := by
  obtain ⟨l', hl', hcap⟩ := hm.owns a b cap ho
  rw [hh] at hl'
  obtain rfl := Option.some.inj hl'
  have hbn := hm.fresh b l hh
  unfold emplaceEnd
  rw [ho]
  dsimp only
  rw [hh]
  dsimp only
  split
  · rename_i hlt
    refine ⟨_, rfl, ⟨⟨?_, hm.apart, ?_⟩, ⟨b, cap, ho, by simp, Or.inl rfl⟩, fun _ _ => rfl, fun b' h _ => by simp [h], le_refl _⟩⟩
    · intro a' b' cap' h
      by_cases hb : b' = b
      · subst hb
        have : a' = a := hm.apart _ _ _ _ _ h ho
        subst this
        rw [ho] at h
        cases h
        exact ⟨l ++ [e], by simp, by simp; omega⟩
      · obtain ⟨l', h1, h2⟩ := hm.owns _ _ _ h
        exact ⟨l', by simp [hb, h1], h2⟩
    · intro b' l' h
      by_cases hb : b' = b
      · subst hb; exact hbn
      · exact hm.fresh b' l' (by simpa [hb] using h)
  · rename_i hge
    have nb : ∀ {a' b' cap'}, m.obj a' = some (.vec b' cap') → b' ≠ m.next := by
      intro a' b' cap' h
      obtain ⟨l', h1, _⟩ := hm.owns _ _ _ h
      have := hm.fresh _ _ h1
      omega
    refine ⟨_, rfl, ⟨⟨?_, ?_, ?_⟩, ⟨m.next, grow cap, by simp, by simp, Or.inr (le_refl _)⟩, fun a' h => by simp [h], fun b' h h' => ?_, by simp⟩⟩
    · intro a' b' cap' h
      by_cases ha : a' = a
      · subst ha
        simp only [Function.update_self, Option.some.injEq, Obj.vec.injEq] at h
        obtain ⟨rfl, rfl⟩ := h
        refine ⟨l ++ [e], by simp, ?_⟩
        have := hg cap
        simp; omega
      · simp only [Function.update_of_ne ha] at h
        obtain ⟨l', h1, h2⟩ := hm.owns _ _ _ h
        have h3 := nb h
        have h4 : b' ≠ b := fun hb => ha (hm.apart _ _ _ _ _ (hb ▸ h) ho)
        exact ⟨l', by simp [h3, h4, h1], h2⟩
    · intro a1 a2 b' c1 c2 h1 h2
      by_cases ha1 : a1 = a
      · subst ha1
        by_cases ha2 : a2 = a1
        · exact ha2.symm
        · simp only [Function.update_self, Option.some.injEq, Obj.vec.injEq] at h1
          simp only [Function.update_of_ne ha2] at h2
          exact absurd h1.1.symm (nb h2)
      · simp only [Function.update_of_ne ha1] at h1
        by_cases ha2 : a2 = a
        · subst ha2
          simp only [Function.update_self, Option.some.injEq, Obj.vec.injEq] at h2
          exact absurd h2.1.symm (nb h1)
        · simp only [Function.update_of_ne ha2] at h2
          exact hm.apart _ _ _ _ _ h1 h2
    · intro b' l' h
      show b' < m.next + 1
      by_cases h1 : b' = m.next
      · omega
      · simp only [Function.update_of_ne h1] at h
        by_cases h2 : b' = b
        · subst h2; simp at h
        · simp only [Function.update_of_ne h2] at h
          have := hm.fresh _ _ h
          omega
    · have : b' ≠ m.next := by omega
      simp [this, h]

theorem Grown.trans {m m' m'' : Mem α} {a b b' cap : Nat} {l l' : List α} (h1 : Grown m m' a b l) (ho : m'.obj a = some (.vec b' cap))
    (hb : b' = b ∨ m.next ≤ b') (h2 : Grown m' m'' a b' l') : Grown m m'' a b l' := by
  refine ⟨h2.sound, ?_, fun x hx => (h2.objs x hx).trans (h1.objs x hx), fun x hx hx' => ?_, h1.next.trans h2.next⟩
  · obtain ⟨c, k, e1, e2, e3⟩ := h2.vec
    refine ⟨c, k, e1, e2, ?_⟩
    have := h1.next
    rcases e3 with rfl | e3
    · exact hb
    · exact Or.inr (by omega)
  · have := h1.next
    rw [h2.blocks x (by omega) (by omega), h1.blocks x hx hx']

theorem Grown.refl {m : Mem α} (hm : Sound m) {a b cap : Nat} {l : List α} (ho : m.obj a = some (.vec b cap)) (hh : m.heap b = some l) :
    Grown m m a b l := ⟨hm, ⟨b, cap, ho, hh, Or.inl rfl⟩, fun _ _ => rfl, fun _ _ _ => rfl, le_refl _⟩

theorem appendLoop_ok {grow : Nat → Nat} (hg : ∀ c, c < grow c) {a s stop : Nat} {src : List α} (hs : stop ≤ src.length) :
    ∀ (fuel i : Nat) {m : Mem α} {b cap : Nat} {l : List α}, Sound m → m.obj a = some (.vec b cap) → m.heap b = some l → s ≠ b →
      m.heap s = some src → i ≤ stop → stop - i < fuel →
      ∃ m', appendLoop grow a s stop fuel i m = .ok m' ∧ Grown m m' a b (l ++ (src.take stop).drop i) := by
  intro fuel
  induction fuel with
  | zero => intro i m b cap l _ _ _ _ _ _ h; omega
  | succ fuel ih =>
    intro i m b cap l hm ho hh hsb hsrc hi hf
    unfold appendLoop differ
    rw [hsrc]
    dsimp only
    rw [ok_bind]
    by_cases he : i = stop
    · refine ⟨m, by simp [he], ?_⟩
      rw [List.drop_eq_nil_of_le (by simp; omega), List.append_nil]
      exact Grown.refl hm ho hh
    · have hlt : i < src.length := by omega
      have hd : deref m s i = .ok src[i] := by
        unfold deref
        rw [hsrc]
        dsimp only
        rw [List.getElem?_eq_getElem hlt]
      rw [if_pos (by simpa using he), hd, ok_bind]
      obtain ⟨m1, e1, g1⟩ := emplaceEnd_ok hg hm ho hh src[i]
      rw [e1, ok_bind]
      obtain ⟨b1, cap1, ho1, hh1, hb1⟩ := g1.vec
      have hsn := hm.fresh _ _ hsrc
      have hs1 : s ≠ b1 := by omega
      obtain ⟨m2, e2, g2⟩ := ih (i + 1) g1.sound ho1 hh1 hs1 (by rw [g1.blocks s hsb hsn, hsrc]) (by omega) (by omega)
      refine ⟨m2, e2, ?_⟩
      have := g1.trans ho1 hb1 g2
      rwa [List.append_assoc, show [src[i]] ++ (src.take stop).drop (i + 1) = (src.take stop).drop i by
        rw [List.drop_eq_getElem_cons (i := i) (by simp; omega), List.getElem_take]; rfl] at this

theorem grown_isVec {m m' : Mem α} {a b : Nat} {l : List α} (h : Grown m m' a b l) : IsVec m' a l := by
  obtain ⟨b', cap, h1, h2, _⟩ := h.vec
  exact ⟨b', cap, h1, h2⟩

theorem grown_others {m m' : Mem α} {a b cap : Nat} {l : List α} (h : Grown m m' a b l) (hm : Sound m) (ho : m.obj a = some (.vec b cap)) :
    ∀ a' l', a' ≠ a → IsVec m a' l' → IsVec m' a' l' := by
  rintro a' l' hne ⟨b', cap', h1, h2⟩
  refine ⟨b', cap', by rw [h.objs a' hne, h1], ?_⟩
  rw [h.blocks b' (fun e => hne (hm.apart _ _ _ _ _ (e ▸ h1) ho)) (hm.fresh _ _ h2), h2]

/-- **C95.** `append(c1, c2)` for vectors: the elements of `c2` are added behind the ones of `c1`, also if both are the same
vector, for every growth of capacities; no other vector changes (in particular not `c2`, unless it is `c1`). -/
theorem C95_append (grow : Nat → Nat) (hg : ∀ c, c < grow c) (m : Mem α) (hm : Sound m) (a1 a2 : Nat) (l1 l2 : List α)
    (h1 : IsVec m a1 l1) (h2 : IsVec m a2 l2) (fuel : Nat) (hf : l2.length < fuel) :
    ∃ m', append grow fuel a1 a2 m = .ok m' ∧ Sound m' ∧ IsVec m' a1 (l1 ++ l2) ∧
      ∀ a l, a ≠ a1 → IsVec m a l → IsVec m' a l := by
  obtain ⟨b1, cap1, ho1, hh1⟩ := h1
  obtain ⟨b2, cap2, ho2, hh2⟩ := h2
  have hbd : bounds m a2 = .ok (b2, 0, l2.length) := by
    unfold bounds
    rw [ho2]
    dsimp only
    rw [hh2]
  unfold append
  by_cases hne : a1 = a2
  · subst hne
    rw [ho1] at ho2
    cases ho2
    rw [hh1] at hh2
    cases hh2
    rw [if_neg (by simp), hbd, ok_bind]
    dsimp only
    rw [hh1]
    dsimp only
    rw [List.take_length, List.drop_zero]
    have hbn := hm.fresh _ _ hh1
    have nb : ∀ {b l}, m.heap b = some l → b ≠ m.next := fun h => by have := hm.fresh _ _ h; omega
    set m1 : Mem α := { m with heap := Function.update m.heap m.next (some l1), next := m.next + 1 } with hm1
    have s1 : Sound m1 := by
      refine ⟨fun a b cap h => ?_, hm.apart, fun b l h => ?_⟩
      · obtain ⟨l, e1, e2⟩ := hm.owns a b cap h
        exact ⟨l, by simp [hm1, nb e1, e1], e2⟩
      · show b < m.next + 1
        by_cases hb : b = m.next
        · omega
        · have := hm.fresh b l (by simpa [hm1, hb] using h)
          omega
    obtain ⟨m', e, g⟩ := appendLoop_ok hg (a := a1) (s := m.next) (stop := l1.length) (src := l1) (le_refl _) fuel 0 (l := l1) s1 ho1
      (by simp [hm1, nb hh1, hh1]) (by omega) (by simp [hm1]) (Nat.zero_le _) (by omega)
    rw [Nat.sub_zero, e, ok_bind]
    rw [List.take_length, List.drop_zero] at g
    have oth := grown_others g s1 ho1
    obtain ⟨b', cap', v1, v2, v3⟩ := g.vec
    have v3 : b' ≠ m.next := by
      rcases v3 with rfl | v3
      · exact nb hh1
      · have : m.next + 1 ≤ b' := v3
        omega
    have keep : ∀ {a b cap}, m'.obj a = some (.vec b cap) → b ≠ m.next := by
      intro a b cap h
      by_cases ha : a = a1
      · subst ha
        rw [v1] at h
        cases h
        exact v3
      · have h' : m.obj a = some (.vec b cap) := by rw [← h, g.objs a ha]
        obtain ⟨l, e1, _⟩ := hm.owns _ _ _ h'
        exact nb e1
    refine ⟨_, rfl, ⟨?_, g.sound.apart, ?_⟩, ⟨b', cap', v1, by simp [v3, v2]⟩, ?_⟩
    · intro a b cap h
      obtain ⟨l, e1, e2⟩ := g.sound.owns a b cap h
      exact ⟨l, by simp [keep h, e1], e2⟩
    · intro b l h
      by_cases hb : b = m.next
      · subst hb; simp at h
      · exact g.sound.fresh b l (by simpa [hb] using h)
    · rintro a l ha ⟨b, cap, u1, u2⟩
      obtain ⟨b'', cap'', w1, w2⟩ := oth a l ha ⟨b, cap, u1, by simp [hm1, nb u2, u2]⟩
      exact ⟨b'', cap'', w1, by simp [keep w1, w2]⟩
  · rw [if_pos hne, hbd, ok_bind]
    have hb : b2 ≠ b1 := fun e => hne (hm.apart _ _ _ _ _ ho1 (e ▸ ho2))
    obtain ⟨m', e, g⟩ := appendLoop_ok hg (a := a1) (le_refl l2.length) fuel 0 hm ho1 hh1 hb hh2 (Nat.zero_le _) (by omega)
    rw [List.take_length, List.drop_zero] at g
    exact ⟨m', e, g.sound, grown_isVec g, grown_others g hm ho1⟩

/-- **C95.** The same for an array, which is not a vector. -/
theorem C95_appendArray (grow : Nat → Nat) (hg : ∀ c, c < grow c) (a1 : Nat) : ∀ (l2 : List α) (m : Mem α), Sound m → ∀ l1, IsVec m a1 l1 →
    ∃ m', appendArray grow a1 l2 m = .ok m' ∧ Sound m' ∧ IsVec m' a1 (l1 ++ l2) ∧ ∀ a l, a ≠ a1 → IsVec m a l → IsVec m' a l
  | [], m, hm, l1, h => ⟨m, rfl, hm, by rwa [List.append_nil], fun _ _ _ h => h⟩
  | e :: l2, m, hm, l1, ⟨b, cap, ho, hh⟩ => by
    obtain ⟨m1, e1, g⟩ := emplaceEnd_ok hg hm ho hh e
    obtain ⟨m2, e2, h1, h2, h3⟩ := C95_appendArray grow hg a1 l2 m1 g.sound _ (grown_isVec g)
    refine ⟨m2, ?_, h1, ?_, fun a l ha h => h3 a l ha (grown_others g hm ho a l ha h)⟩
    · unfold appendArray
      rw [e1, ok_bind, e2]
    · rwa [List.append_assoc] at h2

theorem viewLoop {grow : Nat → Nat} {a b cap stop : Nat} {l : List α} (hs : stop ≤ l.length) : ∀ (fuel i : Nat) (m : Mem α) (t : List α),
    m.obj a = some (.vec b cap) → m.heap b = some (l ++ t) → b ≠ m.next → (l ++ t).length ≤ cap → i ≤ stop → stop - i < fuel →
    ((l ++ t).length + (stop - i) ≤ cap → ∃ m', appendLoop grow a b stop fuel i m = .ok m' ∧ IsVec m' a (l ++ t ++ (l.take stop).drop i)) ∧
      (cap < (l ++ t).length + (stop - i) → appendLoop grow a b stop fuel i m = .error .ub) := by
  intro fuel
  induction fuel with
  | zero => intro i m t _ _ _ _ _ h; omega
  | succ fuel ih =>
    intro i m t ho hh hb hcap hi hf
    unfold appendLoop differ
    rw [hh]
    dsimp only
    rw [ok_bind]
    by_cases he : i = stop
    · subst he
      rw [if_neg (by simp), Nat.sub_self]
      refine ⟨fun _ => ⟨m, rfl, ?_⟩, fun h => by omega⟩
      rw [List.drop_eq_nil_of_le (by simp), List.append_nil]
      exact ⟨b, cap, ho, hh⟩
    · have hlt : i < l.length := by omega
      have hd : deref m b i = .ok l[i] := by
        unfold deref
        rw [hh]
        dsimp only
        rw [List.getElem?_append_left hlt, List.getElem?_eq_getElem hlt]
      rw [if_pos (by simpa using he), hd, ok_bind]
      have hcons : (l.take stop).drop i = l[i] :: (l.take stop).drop (i + 1) := by
        rw [List.drop_eq_getElem_cons (i := i) (by simp; omega), List.getElem_take]
      unfold emplaceEnd
      rw [ho]
      dsimp only
      rw [hh]
      dsimp only
      by_cases hc : (l ++ t).length < cap
      · rw [if_pos hc, ok_bind]
        have := ih (i + 1) { m with heap := Function.update m.heap b (some (l ++ t ++ [l[i]])) } (t ++ [l[i]]) ho
          (by simp) hb (by simp at hc ⊢; omega) (by omega) (by omega)
        rw [List.append_assoc] at this
        simp only [List.length_append, List.length_cons, List.length_nil, List.append_assoc] at this hc hcap ⊢
        refine ⟨fun h => ?_, fun h => this.2 (by omega)⟩
        obtain ⟨m', e, v⟩ := this.1 (by omega)
        refine ⟨m', e, ?_⟩
        rw [hcons]
        exact v
      · rw [if_neg hc, ok_bind]
        refine ⟨fun h => by omega, fun _ => ?_⟩
        cases fuel with
        | zero => omega
        | succ fuel =>
          unfold appendLoop differ
          dsimp only
          rw [Function.update_of_ne hb, Function.update_self]
          rfl

/-- **C95 fails for views**: if `c2` is a view of elements of `c1` itself, `append` works exactly if the capacity of `c1`
suffices; otherwise it reads elements that were already freed.  The test for the same object does not notice views. -/
theorem C95_view_refuted (grow : Nat → Nat) (m : Mem α) (hm : Sound m) (a1 a2 b cap off len : Nat) (l : List α)
    (h1 : m.obj a1 = some (.vec b cap)) (hl : m.heap b = some l) (h2 : m.obj a2 = some (.view b off len)) (hin : off + len ≤ l.length)
    (fuel : Nat) (hf : len < fuel) :
    (l.length + len ≤ cap → ∃ m', append grow fuel a1 a2 m = .ok m' ∧ IsVec m' a1 (l ++ (l.drop off).take len)) ∧
      (cap < l.length + len → append grow fuel a1 a2 m = .error .ub) := by
  have hne : a1 ≠ a2 := by
    rintro rfl
    rw [h1] at h2
    cases h2
  have hbd : bounds m a2 = .ok (b, off, off + len) := by
    unfold bounds
    rw [h2]
    dsimp only
    rw [hl]
  obtain ⟨l', hl', hcap⟩ := hm.owns _ _ _ h1
  rw [hl] at hl'
  obtain rfl := Option.some.inj hl'
  have hbn := hm.fresh _ _ hl
  have := viewLoop (grow := grow) (a := a1) (b := b) (cap := cap) hin fuel off m [] h1 (by simpa using hl) (by omega) (by simpa using hcap)
    (by omega) (by omega)
  rw [List.append_nil, show off + len - off = len by omega, List.drop_take, show off + len - off = len by omega] at this
  unfold append
  rw [if_pos hne, hbd, ok_bind]
  exact this

/-! ### `asFunction` -/

/-- **C95.** The function of an rvalue (or a list of initializers) keeps the elements it was made from, whatever happens to
the memory; the function of an lvalue gives the elements that the vector has when it is called. -/
theorem C95_asFunction (m : Mem α) (a : Nat) (l : List α) (h : IsVec m a l) :
    (∃ f, asFunction true m a = .ok f ∧ ∀ (m' : Mem α) i (hi : i < l.length), f.call m' i = .ok l[i]) ∧
    (∃ f, asFunction false m a = .ok f ∧ ∀ (m' : Mem α) l', IsVec m' a l' → ∀ i (hi : i < l'.length), f.call m' i = .ok l'[i]) ∧
    ∀ (m' : Mem α) i (hi : i < l.length), (asFunctionList l).call m' i = .ok l[i] := by
  obtain ⟨b, cap, ho, hh⟩ := h
  have copy : ∀ (m' : Mem α) i (hi : i < l.length), (Fun.copy l).call m' i = .ok l[i] := by
    intro m' i hi
    show (match l[i]? with
      | some x => (.ok x : Out α)
      | none => .error .ub) = _
    rw [List.getElem?_eq_getElem hi]
  refine ⟨⟨.copy l, ?_, copy⟩, ⟨.ref a, rfl, ?_⟩, copy⟩
  · unfold asFunction bounds
    rw [if_pos rfl, ho]
    dsimp only
    rw [hh, ok_bind]
    dsimp only
    rw [hh]
    dsimp only
    rw [List.take_length, List.drop_zero]
  · rintro m' l' ⟨b', cap', ho', hh'⟩ i hi
    show index m' a i = _
    unfold index bounds deref
    rw [ho']
    dsimp only
    rw [hh', ok_bind]
    dsimp only
    rw [if_pos (by omega), hh']
    dsimp only
    rw [Nat.zero_add, List.getElem?_eq_getElem hi]

/-! ### `shorter` and `longer` -/

theorem shorter_weak (l : List (List α)) : StrictWeakOn shorter l := by
  refine ⟨fun a _ => by simp [shorter], fun a _ b _ c _ => ?_, fun a _ b _ c _ => ?_⟩ <;>
  · unfold shorter
    intro h1 h2
    simp only [decide_eq_true_eq, decide_eq_false_iff_not] at *
    omega

theorem longer_weak (l : List (List α)) : StrictWeakOn longer l := by
  refine ⟨fun a _ => by simp [longer], fun a _ b _ c _ => ?_, fun a _ b _ c _ => ?_⟩ <;>
  · unfold longer
    intro h1 h2
    simp only [decide_eq_true_eq, decide_eq_false_iff_not] at *
    omega

/-- **C95.** Every correct sorting function with `shorter` sorts by increasing length, with `longer` by decreasing length. -/
theorem C95_sort_length (sort : (List α → List α → Bool) → List (List α) → List (List α)) (hs : SortContract sort) (l : List (List α)) :
    ((sort shorter l).Perm l ∧ (sort shorter l).Pairwise fun a b => a.length ≤ b.length) ∧
    (sort longer l).Perm l ∧ (sort longer l).Pairwise fun a b => b.length ≤ a.length := by
  obtain ⟨p1, s1⟩ := hs _ _ (shorter_weak l)
  obtain ⟨p2, s2⟩ := hs _ _ (longer_weak l)
  exact ⟨⟨p1, s1.imp fun h => by simpa [shorter] using h⟩, p2, s2.imp fun h => by simpa [longer] using h⟩

/-! ### `flatten` -/

theorem flatAppend_eq : ∀ (d : Nat) (c : Nested α d) (res : List α), flatAppend d c res = res ++ leaves d c
  | 0, c, res => rfl
  | d + 1, c, res => by
    show List.foldl (fun r v => flatAppend d v r) res (c : List (Nested α d)) = res ++ ((c : List (Nested α d)).map (leaves d)).flatten
    change List (Nested α d) at c
    induction c generalizing res with
    | nil => simp
    | cons v c ih =>
      rw [List.foldl_cons, List.map_cons, List.flatten_cons]
      rw [flatAppend_eq d v res]
      refine (ih (res ++ leaves d v)).trans ?_
      rw [List.append_assoc]

/-- **C95.** `flatten` gives all elements of nested containers, from left to right, for every depth. -/
theorem C95_flatten (d : Nat) (c : Nested α d) : flatten d c = leaves d c := by
  unfold flatten; rw [flatAppend_eq]; rfl

/-! ### `MinPQ` and `MaxPQ` -/

theorem weak_invert {less : α → α → Bool} {l : List α} (h : StrictWeakOn less l) : StrictWeakOn (invertCompare less) l :=
  ⟨h.1, fun a ha b hb c hc h1 h2 => h.2.1 c hc b hb a ha h2 h1, fun a ha b hb c hc h1 h2 => h.2.2 c hc b hb a ha h2 h1⟩

theorem weak_sub {less : α → α → Bool} {l l' : List α} (h : StrictWeakOn less l) (hs : ∀ x ∈ l', x ∈ l) : StrictWeakOn less l' :=
  ⟨fun a ha => h.1 a (hs a ha), fun a ha b hb c hc => h.2.1 a (hs a ha) b (hs b hb) c (hs c hc),
    fun a ha b hb c hc => h.2.2 a (hs a ha) b (hs b hb) c (hs c hc)⟩

theorem drain_ok [DecidableEq α] {top : (α → α → Bool) → List α → α} (ht : TopContract top) {less : α → α → Bool} : ∀ (l : List α),
    StrictWeakOn less l → (drain top less l.length l).Perm l ∧ (drain top less l.length l).Pairwise fun a b => less a b = false := by
  intro l
  generalize hn : l.length = n
  induction n generalizing l with
  | zero =>
    intro _
    rw [List.length_eq_zero_iff.1 hn]
    exact ⟨List.Perm.refl _, List.Pairwise.nil⟩
  | succ n ih =>
    intro hw
    obtain ⟨hmem, hmax⟩ := ht less l hw (by intro h; rw [h] at hn; simp at hn)
    have sub : ∀ x ∈ l.erase (top less l), x ∈ l := fun x hx => List.mem_of_mem_erase hx
    obtain ⟨p, s⟩ := ih (l.erase (top less l)) (by rw [List.length_erase_of_mem hmem, hn]; rfl) (weak_sub hw sub)
    unfold drain
    exact ⟨(p.cons _).trans (List.perm_cons_erase hmem).symm, List.pairwise_cons.2 ⟨fun x hx => hmax x (sub x (p.mem_iff.1 hx)), s⟩⟩

/-- **C95.** A `MinPQ` gives its elements in increasing order, a `MaxPQ` in decreasing order, for every priority queue that
keeps the contract of the standard and every strict weak ordering. -/
theorem C95_priority_queue [DecidableEq α] (top : (α → α → Bool) → List α → α) (ht : TopContract top) (less : α → α → Bool)
    (l : List α) (hw : StrictWeakOn less l) :
    ((drainMin top less l).Perm l ∧ (drainMin top less l).Pairwise fun a b => less b a = false) ∧
    (drainMax top less l).Perm l ∧ (drainMax top less l).Pairwise fun a b => less a b = false :=
  ⟨drain_ok ht l (weak_invert hw), drain_ok ht l hw⟩

/-! ### Examples -/

/-- Two vectors (5, 6) and (7), and a view of the first one. -/
def someMem (cap : Nat) : Mem Nat where
  heap b := if b = 0 then some [5, 6] else if b = 1 then some [7] else none
  next := 2
  obj a := if a = 10 then some (.vec 0 cap) else if a = 11 then some (.vec 1 1) else if a = 12 then some (.view 0 0 2) else none

theorem someMem_sound {cap : Nat} (h : 2 ≤ cap) : Sound (someMem cap) := by
  refine ⟨fun a b c e => ?_, fun a a' b c c' e e' => ?_, fun b l e => ?_⟩
  · simp only [someMem] at e ⊢
    split at e
    · cases e; exact ⟨_, rfl, h⟩
    · split at e
      · cases e; exact ⟨_, rfl, by decide⟩
      · split at e <;> cases e
  · simp only [someMem] at e e'
    split at e <;> split at e' <;> rename_i h1 h2
    · exact h1.trans h2.symm
    · split at e'
      · cases e; cases e'
      · split at e' <;> cases e'
    · split at e
      · cases e; cases e'
      · split at e <;> cases e
    · split at e <;> split at e' <;> rename_i h3 h4
      · exact h3.trans h4.symm
      · split at e' <;> cases e'
      · split at e <;> cases e
      · split at e <;> cases e
  · simp only [someMem] at e ⊢
    split at e
    · omega
    · split at e
      · omega
      · cases e

-- a vector appended to another one and to itself
example : (append (2 * · + 1) 5 10 11 (someMem 2)).toOption.map (fun m => (m.obj 10, m.heap 2, m.heap 0)) =
    some (some (.vec 2 5), some [5, 6, 7], none) := by decide
example : (append (2 * · + 1) 5 10 10 (someMem 2)).toOption.map (fun m => (m.obj 10, m.heap 3, m.heap 2)) =
    some (some (.vec 3 5), some [5, 6, 5, 6], none) := by decide
-- a view of the vector itself: only with enough capacity
example : (append (2 * · + 1) 5 10 12 (someMem 4)).toOption.map (fun m => (m.obj 10, m.heap 0)) =
    some (some (.vec 0 4), some [5, 6, 5, 6]) := by decide
example : append (2 * · + 1) 5 10 12 (someMem 3) = .error .ub :=
  (C95_view_refuted _ _ (someMem_sound (by decide)) 10 12 0 3 0 2 [5, 6] rfl rfl rfl (by decide) 5 (by decide)).2 (by decide)
example : flatten 2 (show Nested Nat 2 from ([[1, 2], [], [3]] : List (List Nat))) = [1, 2, 3] := rfl
example : (asFunction true (someMem 2) 10).toOption.map (fun f => (f.call (someMem 2) 1).toOption) = some (some 6) := by decide

end ICPC.Props
