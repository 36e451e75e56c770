import Verif.Spec.Writer
import Verif.Props.Helpers
import Verif.Props.Input

/-!
# C106: what the objects made by `join` print, and when
-/

namespace ICPC.Props

open ICPC ICPC.Helpers ICPC.Writer Spec

variable {α : Type} {pr : α → List Char} {sep : Char}

private theorem separate_nil (l : List (List Char)) : separate [] l = l.flatten := by
  induction l with
  | nil => rfl
  | cons x l ih =>
    cases l with
    | nil => simp [separate]
    | cons y l => rw [separate, ih]; simp

private theorem joined_range (l : List α) : joinRange sep (l.map pr) = joined pr sep l := by
  rw [C41_join]
  unfold joined
  by_cases h : sep = NOSEP
  · rw [if_pos h, if_pos (show sep = Char.ofNat 0 from h), separate_nil]
  · rw [if_neg h, if_neg (show ¬ sep = Char.ofNat 0 from h)]

private theorem joined_tuple (l : List α) : joinTuple sep (l.map pr) = joined pr sep l := by
  rw [C41_join_tuple]
  unfold joined
  by_cases h : sep = NOSEP
  · rw [if_pos h, if_pos (show sep = Char.ofNat 0 from h), separate_nil]
  · rw [if_neg h, if_neg (show ¬ sep = Char.ofNat 0 from h)]

private theorem deref_ok {m : Mem α} {b i : Nat} {l : List α} (h : m.heap b = some l) (hi : i < l.length) : deref m b i = .ok l[i] := by
  unfold deref
  rw [h]
  simp [List.getElem?_eq_getElem hi]

private theorem deref_end {m : Mem α} {b i : Nat} {l : List α} (h : m.heap b = some l) (hi : l.length ≤ i) : deref m b i = .error .ub := by
  unfold deref
  rw [h]
  simp [List.getElem?_eq_none hi]

private theorem deref_freed {m : Mem α} {b i : Nat} (h : m.heap b = none) : deref m b i = .error .ub := by
  unfold deref
  rw [h]

/-- Iterators into a block whose elements are there. -/
private theorem printRange_ok {m : Mem α} {b j : Nat} {l : List α} (h : m.heap b = some l) (hj : j ≤ l.length) :
    ∀ (fuel i : Nat) (isFirst : Bool), i ≤ j → j - i < fuel →
      printRange pr m b j sep fuel i isFirst = .ok (joinLoop sep isFirst (((l.take j).drop i).map pr)) := by
  intro fuel
  induction fuel with
  | zero => intro i _ _ hf; omega
  | succ fuel ih =>
    intro i isFirst hi hf
    unfold printRange differ
    rw [h]
    simp only [ok_bind]
    by_cases he : i = j
    · subst he
      simp [joinLoop, List.drop_eq_nil_of_le]
    · rw [if_pos (by simpa using he), deref_ok h (by omega), ok_bind, ih (i + 1) false (by omega) (by omega), ok_bind]
      have : (l.take j).drop i = l[i] :: (l.take j).drop (i + 1) := by
        rw [List.drop_eq_getElem_cons (by rw [List.length_take]; omega)]
        simp
      rw [this, List.map_cons, joinLoop]

/-- Iterators whose block is gone. -/
private theorem printRange_freed {m : Mem α} {b j : Nat} (h : m.heap b = none) (fuel i : Nat) (isFirst : Bool) :
    printRange pr m b j sep (fuel + 1) i isFirst = .error .ub := by
  unfold printRange differ
  rw [h]
  rfl

/-- Iterators beyond the last element. -/
private theorem printRange_past {m : Mem α} {b j : Nat} {l : List α} (h : m.heap b = some l) (hj : l.length < j) :
    ∀ (fuel i : Nat) (isFirst : Bool), i ≤ l.length → l.length - i < fuel → printRange pr m b j sep fuel i isFirst = .error .ub := by
  intro fuel
  induction fuel with
  | zero => intro i _ _ hf; omega
  | succ fuel ih =>
    intro i isFirst hi hf
    unfold printRange differ
    rw [h]
    simp only [ok_bind]
    rw [if_pos (by simp; omega)]
    by_cases he : i = l.length
    · rw [deref_end h (by omega)]
      rfl
    · rw [deref_ok h (by omega), ok_bind, ih (i + 1) false (by omega) (by omega)]
      rfl

private theorem derefAll_ok (m : Mem α) : ∀ (refs : List (Nat × Nat)) (l : List α), List.Forall₂ (fun r x => deref m r.1 r.2 = .ok x) refs l →
    derefAll m refs = .ok l := by
  intro refs l h
  induction h with
  | nil => rfl
  | cons h1 _ ih => rw [derefAll, h1, ok_bind, ih]; rfl

private theorem derefAll_ub (m : Mem α) : ∀ (refs : List (Nat × Nat)), (∀ r ∈ refs, ∀ e, deref m r.1 r.2 = .error e → e = .ub) →
    (∃ r ∈ refs, deref m r.1 r.2 = .error .ub) → derefAll m refs = .error .ub := by
  intro refs
  induction refs with
  | nil => rintro _ ⟨r, hr, -⟩; cases hr
  | cons r refs ih =>
    rintro hall ⟨r', hr', he⟩
    rw [derefAll]
    cases hd : deref m r.1 r.2 with
    | error e => rw [hall r (by simp) e hd]; rfl
    | ok x =>
      rw [ok_bind]
      rw [ih (fun s hs => hall s (List.mem_cons_of_mem _ hs)) ?_]
      · rfl
      · rcases List.mem_cons.1 hr' with rfl | hr'
        · rw [hd] at he; cases he
        · exact ⟨r', hr', he⟩

private theorem deref_error {m : Mem α} {b i : Nat} {e : Stop} (h : deref m b i = .error e) : e = .ub := by
  unfold deref at h
  split at h
  · split at h
    · cases h
    · exact (Except.error.inj h).symm
  · exact (Except.error.inj h).symm

private theorem derefAll_block {m : Mem α} {b : Nat} {l : List α} (h : m.heap b = some l) :
    derefAll m ((List.range l.length).map fun k => (b, k)) = .ok l := by
  apply derefAll_ok
  rw [List.forall₂_map_left_iff, List.forall₂_iff_get]
  refine ⟨by simp, fun i h1 h2 => ?_⟩
  simp only [List.get_eq_getElem, List.getElem_range]
  exact deref_ok h h2

private theorem vec_lvalue {m : Mem α} {a : Nat} {b cap : Nat} {l : List α} (ho : m.obj a = some (.vec b cap)) (hh : m.heap b = some l) :
    joinContainer false m a sep = .ok (.range b 0 l.length sep) := by
  unfold joinContainer bounds
  rw [ho]
  simp only [hh]
  rfl

private theorem vec_rvalue {m : Mem α} {a : Nat} {b cap : Nat} {l : List α} (ho : m.obj a = some (.vec b cap)) (hh : m.heap b = some l) :
    joinContainer true m a sep = .ok (.values l sep) := by
  unfold joinContainer bounds
  rw [ho]
  simp only [hh, ok_bind, if_true]

/-- **C106, containers given as rvalues.** The object stores the elements: it prints them whatever has happened to the memory since. The same holds for
arrays, tuples and arrays of characters (without the last one). -/
theorem C106_rvalue (pr : α → List Char) (sep : Char) (m m' : Mem α) (fuel : Nat) :
    (∀ a l, IsVec m a l → ∃ w, joinContainer true m a sep = .ok w ∧ print pr fuel m' w = .ok (joined pr sep l)) ∧
    (∀ b l, m.heap b = some l → ∃ w, joinArray true m b sep = .ok w ∧ print pr fuel m' w = .ok (joined pr sep l)) ∧
    (∀ b l, m.heap b = some l → ∃ w, joinTupleLike true m b sep = .ok w ∧ print pr fuel m' w = .ok (joined pr sep l)) ∧
    (∀ b l c, m.heap b = some (l ++ [c]) → ∃ w, joinChars true m b sep = .ok w ∧ print pr fuel m' w = .ok (joined pr sep l)) := by
  refine ⟨?_, fun b l h => ?_, fun b l h => ?_, fun b l c h => ?_⟩
  · rintro a l ⟨b, cap, ho, hh⟩
    exact ⟨_, vec_rvalue ho hh, by rw [print, joined_range]⟩
  · exact ⟨.values l sep, by unfold joinArray; rw [h]; rfl, by rw [print, joined_range]⟩
  · exact ⟨.fields l sep, by unfold joinTupleLike; rw [h]; rfl, by rw [print, joined_tuple]⟩
  · exact ⟨.values l sep, by unfold joinChars; rw [h]; simp, by rw [print, joined_range]⟩

/-- **C106, at once.** Printed in the expression that makes it, everything prints its elements: containers and views, ranges of iterators, arrays,
tuples, arrays of characters without the last one, and lists in braces. -/
theorem C106_now (pr : α → List Char) (sep : Char) (m : Mem α) (fuel : Nat) :
    (∀ rv a l, IsVec m a l → l.length < fuel → ∃ w, joinContainer rv m a sep = .ok w ∧ print pr fuel m w = .ok (joined pr sep l)) ∧
    (∀ rv a b off len l, m.obj a = some (.view b off len) → m.heap b = some l → off + len ≤ l.length → len < fuel →
      ∃ w, joinContainer rv m a sep = .ok w ∧ print pr fuel m w = .ok (joined pr sep ((l.drop off).take len))) ∧
    (∀ b i j l, m.heap b = some l → i ≤ j → j ≤ l.length → j - i < fuel →
      print pr fuel m (joinIterators b i j sep) = .ok (joined pr sep ((l.take j).drop i))) ∧
    (∀ rv b l, m.heap b = some l → l.length < fuel → ∃ w, joinArray rv m b sep = .ok w ∧ print pr fuel m w = .ok (joined pr sep l)) ∧
    (∀ rv b l, m.heap b = some l → ∃ w, joinTupleLike rv m b sep = .ok w ∧ print pr fuel m w = .ok (joined pr sep l)) ∧
    (∀ rv b l c, m.heap b = some (l ++ [c]) → l.length < fuel → ∃ w, joinChars rv m b sep = .ok w ∧ print pr fuel m w = .ok (joined pr sep l)) ∧
    (∀ args l, List.Forall₂ (fun r x => ∃ c, m.heap r.1 = some c ∧ c[r.2]? = some x) args l →
      print pr fuel m (joinList args sep) = .ok (joined pr sep l)) := by
  obtain ⟨r1, r2, r3, r4⟩ := C106_rvalue pr sep m m fuel
  refine ⟨?_, ?_, ?_, ?_, ?_, ?_, ?_⟩
  · rintro (_ | _) a l ⟨b, cap, ho, hh⟩ hf
    · refine ⟨_, vec_lvalue ho hh, ?_⟩
      rw [print, printRange_ok hh (le_refl _) _ _ _ (by omega) (by omega)]
      rw [List.take_length, List.drop_zero]
      exact congrArg Except.ok (joined_range _)
    · exact r1 a l ⟨b, cap, ho, hh⟩
  · intro rv a b off len l ho hh hl hf
    refine ⟨.range b off (off + len) sep, ?_, ?_⟩
    · unfold joinContainer bounds
      rw [ho]
      simp only [hh, ok_bind]
      cases rv <;> rfl
    · rw [print, printRange_ok hh hl _ _ _ (by omega) (by omega)]
      have : (l.take (off + len)).drop off = (l.drop off).take len := by rw [List.drop_take]; simp
      rw [this]
      exact congrArg Except.ok (joined_range _)
  · intro b i j l hh hi hj hf
    rw [joinIterators, print, printRange_ok hh hj _ _ _ hi hf]
    exact congrArg Except.ok (joined_range _)
  · rintro (_ | _) b l hh hf
    · refine ⟨.range b 0 l.length sep, by unfold joinArray; rw [hh]; rfl, ?_⟩
      rw [print, printRange_ok hh (le_refl _) _ _ _ (by omega) (by omega)]
      rw [List.take_length, List.drop_zero]
      exact congrArg Except.ok (joined_range _)
    · exact r2 b l hh
  · rintro (_ | _) b l hh
    · refine ⟨.tuple b l.length sep, by unfold joinTupleLike; rw [hh]; rfl, ?_⟩
      rw [print, derefAll_block hh, ok_bind, joined_tuple]
    · exact r3 b l hh
  · rintro (_ | _) b l c hh hf
    · refine ⟨.range b 0 l.length sep, by unfold joinChars; rw [hh]; simp [joinIterators], ?_⟩
      rw [print, printRange_ok hh (by simp) _ _ _ (by omega) (by omega)]
      have : ((l ++ [c]).take l.length).drop 0 = l := by simp
      rw [this]
      exact congrArg Except.ok (joined_range _)
    · exact r4 b l c hh
  · intro args l h
    rw [joinList, print, derefAll_ok m args l ?_, ok_bind, joined_tuple]
    refine h.imp ?_
    rintro r x ⟨c, h1, h2⟩
    obtain ⟨hlt, rfl⟩ := List.getElem?_eq_some_iff.1 h2
    exact deref_ok h1 hlt

/-- **C106, tuples given as lvalues.** The object stores a reference: it prints the values that the fields have when it is printed. -/
theorem C106_tuple (pr : α → List Char) (sep : Char) (m m' : Mem α) (fuel b : Nat) (l l' : List α) (h : m.heap b = some l) (h' : m'.heap b = some l')
    (hl : l'.length = l.length) : ∃ w, joinTupleLike false m b sep = .ok w ∧ print pr fuel m' w = .ok (joined pr sep l') := by
  refine ⟨.tuple b l.length sep, by unfold joinTupleLike; rw [h]; rfl, ?_⟩
  rw [print, ← hl, derefAll_block h', ok_bind, joined_tuple]

/-- **C106, containers given as lvalues, exactly.** For a vector the object keeps two iterators. As long as the elements are in the same block, it prints
as many elements as there were when it was made, with their current values; it is undefined if there are fewer by now or the block was freed. -/
theorem C106_lvalue (pr : α → List Char) (sep : Char) (m m' : Mem α) (fuel a b cap : Nat) (l : List α) (ho : m.obj a = some (.vec b cap))
    (hh : m.heap b = some l) (hf : l.length < fuel) : ∃ w, joinContainer false m a sep = .ok w ∧
      (∀ l', m'.heap b = some l' → l.length ≤ l'.length → print pr fuel m' w = .ok (joined pr sep (l'.take l.length))) ∧
      (∀ l', m'.heap b = some l' → l'.length < l.length → print pr fuel m' w = .error .ub) ∧
      (m'.heap b = none → print pr fuel m' w = .error .ub) := by
  refine ⟨_, vec_lvalue ho hh, fun l' h' hl => ?_, fun l' h' hl => ?_, fun h' => ?_⟩
  · rw [print, printRange_ok h' hl _ _ _ (by omega) (by omega), List.drop_zero]
    exact congrArg Except.ok (joined_range _)
  · rw [print, printRange_past h' hl _ _ _ (by omega) (by omega)]
  · obtain ⟨f, rfl⟩ : ∃ f, fuel = f + 1 := ⟨fuel - 1, by omega⟩
    rw [print, printRange_freed h']

/-- **C106, containers given as lvalues**, the documented reference, as long as the number of elements does not change and they are not moved. Missing:
changes of the size, see `C106_growth_refuted`. -/
theorem C106_reference_partial (pr : α → List Char) (sep : Char) (m m' : Mem α) (fuel a b cap : Nat) (l l' : List α) (ho : m.obj a = some (.vec b cap))
    (hh : m.heap b = some l) (hf : l.length < fuel) (hh' : m'.heap b = some l') (hl : l'.length = l.length) :
    ∃ w, joinContainer false m a sep = .ok w ∧ print pr fuel m' w = .ok (joined pr sep l') := by
  obtain ⟨w, h1, h2, -⟩ := C106_lvalue pr sep m m' fuel a b cap l ho hh hf
  refine ⟨w, h1, ?_⟩
  rw [h2 l' hh' (by omega), ← hl, List.take_length]

private theorem separate_snoc (s x y : List Char) (l : List (List Char)) : separate s (l ++ [x, y]) = separate s (l ++ [x]) ++ s ++ y := by
  induction l with
  | nil => simp [separate]
  | cons z l ih =>
    cases l with
    | nil => simp [separate]
    | cons u l =>
      simp only [List.cons_append] at ih ⊢
      rw [separate, ih, separate]
      simp

/-- **C106, refuted for vectors that grow** (for all of them): after one `emplace` at the end an object made from the vector before never prints the new
element. If there was capacity it prints the elements from before; otherwise the behaviour is undefined. A reference, as documented, would print all. -/
theorem C106_growth_refuted (pr : α → List Char) (sep : Char) (grow : Nat → Nat) (m : Mem α) (hm : Sound m) (fuel a b cap : Nat) (l : List α)
    (ho : m.obj a = some (.vec b cap)) (hh : m.heap b = some l) (hf : l.length < fuel) (e : α) (he : pr e ≠ []) :
    ∃ w m', joinContainer false m a sep = .ok w ∧ emplaceEnd grow m a e = .ok m' ∧ IsVec m' a (l ++ [e]) ∧
      (l.length < cap → print pr fuel m' w = .ok (joined pr sep l)) ∧
      (cap ≤ l.length → print pr fuel m' w = .error .ub) ∧ print pr fuel m' w ≠ .ok (joined pr sep (l ++ [e])) := by
  obtain ⟨w, h1, -⟩ := C106_lvalue pr sep m m fuel a b cap l ho hh hf
  have hb := hm.fresh b l hh
  obtain ⟨m', h2, h3, h4, h5⟩ : ∃ m', emplaceEnd grow m a e = .ok m' ∧ IsVec m' a (l ++ [e]) ∧ (l.length < cap → m'.heap b = some (l ++ [e])) ∧
      (cap ≤ l.length → m'.heap b = none) := by
    unfold emplaceEnd
    rw [ho]
    simp only [hh]
    by_cases hc : l.length < cap
    · rw [if_pos hc]
      exact ⟨_, rfl, ⟨b, cap, ho, by simp⟩, fun _ => by simp, fun h => absurd h (by omega)⟩
    · rw [if_neg hc]
      refine ⟨_, rfl, ⟨m.next, grow cap, by simp, by simp⟩, fun h => absurd h hc, fun _ => ?_⟩
      simp only
      rw [Function.update_of_ne (by omega), Function.update_self]
  obtain ⟨w', h1', k1, -, k3⟩ := C106_lvalue pr sep m m' fuel a b cap l ho hh hf
  rw [h1] at h1'
  obtain rfl := Except.ok.inj h1'
  have p1 : l.length < cap → print pr fuel m' w = .ok (joined pr sep l) := fun hc => by
    rw [k1 _ (h4 hc) (by simp), List.take_left]
  have p2 : cap ≤ l.length → print pr fuel m' w = .error .ub := fun hc => k3 (h5 hc)
  refine ⟨w, m', h1, h2, h3, p1, p2, fun heq => ?_⟩
  by_cases hc : l.length < cap
  · rw [p1 hc] at heq
    have := congrArg List.length (Except.ok.inj heq)
    unfold joined at this
    have hpos := List.length_pos_iff.2 he
    rcases List.eq_nil_or_concat l with rfl | ⟨l0, x, rfl⟩
    · simp [separate] at this
      omega
    · simp only [List.concat_eq_append, List.map_append, List.map_cons, List.map_nil, List.append_assoc, List.cons_append, List.nil_append] at this
      rw [separate_snoc] at this
      simp only [List.length_append] at this
      omega
  · rw [p2 (by omega)] at heq
    cases heq

/-- **C106, refuted for views given as rvalues**: the object stores the view and not the values, so it is undefined once the elements are gone. -/
theorem C106_view_refuted (pr : α → List Char) (sep : Char) (m m' : Mem α) (fuel a b off len : Nat) (l : List α) (ho : m.obj a = some (.view b off len))
    (hh : m.heap b = some l) (hf : 0 < fuel) (hgone : m'.heap b = none) :
    ∃ w, joinContainer true m a sep = .ok w ∧ print pr fuel m' w = .error .ub := by
  refine ⟨.range b off (off + len) sep, ?_, ?_⟩
  · unfold joinContainer bounds
    rw [ho]
    simp only [hh, ok_bind]
    rfl
  · obtain ⟨f, rfl⟩ : ∃ f, fuel = f + 1 := ⟨fuel - 1, by omega⟩
    rw [print, printRange_freed hgone]

/-- **C106, lists in braces.** The object stores references to all arguments: it prints their current values, as long as all of them exist. -/
theorem C106_list (pr : α → List Char) (sep : Char) (m' : Mem α) (fuel : Nat) (args : List (Nat × Nat)) (l : List α)
    (h : List.Forall₂ (fun r x => ∃ c, m'.heap r.1 = some c ∧ c[r.2]? = some x) args l) :
    print pr fuel m' (joinList args sep) = .ok (joined pr sep l) :=
  (C106_now pr sep m' fuel).2.2.2.2.2.2 args l h

/-- **C106, refuted for lists in braces with temporaries**: they are rvalues, but only references to them are stored. After the end of the expression
the object cannot be printed. -/
theorem C106_list_refuted (pr : α → List Char) (sep : Char) (m' : Mem α) (fuel : Nat) (args : List (Nat × Nat)) (h : ∃ r ∈ args, m'.heap r.1 = none) :
    print pr fuel m' (joinList args sep) = .error .ub := by
  obtain ⟨r, hr, hn⟩ := h
  rw [joinList, print, derefAll_ub m' args (fun r _ e he => deref_error he) ⟨r, hr, deref_freed hn⟩]
  rfl

/-! Not vacuous: a vector of two numbers; `someMem` has the vectors (5, 6) and (7) and a view. -/

example :
    let m := someMem 2
    let w := joinContainer false m 10 ','
    (w.bind fun w => print (fun n : Nat => printInt n) 9 m w) = .ok "5,6".toList ∧
    (w.bind fun w => (emplaceEnd (· * 2) m 10 7).bind fun m => print (fun n : Nat => printInt n) 9 m w) = .error .ub ∧
    (w.bind fun w => (emplaceEnd (· * 2) (someMem 3) 10 7).bind fun m => print (fun n : Nat => printInt n) 9 m w) = .ok "5,6".toList ∧
    ((joinContainer true m 10 ',').bind fun w => (emplaceEnd (· * 2) m 10 7).bind fun m => print (fun n : Nat => printInt n) 9 m w) = .ok "5,6".toList := by
  decide +kernel

end ICPC.Props
