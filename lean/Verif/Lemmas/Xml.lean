import Verif.Spec.Xml
import Mathlib.Data.List.TakeWhile

/-! Lemmas about the XML reader. -/

namespace ICPC.Spec.Xml

theorem span_append {p : Char → Bool} {v r : List Char} {d : Char} (hv : ∀ c ∈ v, p c = true) (hd : p d = false) :
    (v ++ d :: r).takeWhile p = v ∧ (v ++ d :: r).dropWhile p = d :: r := by
  induction v with
  | nil => simp [hd]
  | cons c v ih =>
    have hc := hv c (by simp)
    have := ih fun x hx => hv x (by simp [hx])
    simp only [List.cons_append, List.takeWhile_cons, List.dropWhile_cons, hc, if_true]
    exact ⟨by rw [this.1], this.2⟩

/-- A name. -/
def IsName : List Char → Bool
  | [] => false
  | c :: n => isNameStart c && n.all isNameChar

theorem nameStart_nameChar {c : Char} (h : isNameStart c = true) : isNameChar c = true := by
  unfold isNameChar; simp [h]

theorem readName_append {n r : List Char} {d : Char} (hn : IsName n = true) (hd : isNameChar d = false) :
    readName (n ++ d :: r) = some (n, d :: r) := by
  rcases n with _ | ⟨c, n⟩
  · simp [IsName] at hn
  simp only [IsName, Bool.and_eq_true, List.all_eq_true] at hn
  have := span_append (p := isNameChar) (v := c :: n) (r := r) (d := d) (by
    intro x hx
    rcases List.mem_cons.1 hx with rfl | hx
    · exact nameStart_nameChar hn.1
    · exact hn.2 x hx) hd
  unfold readName
  rw [List.cons_append] at *
  simp only [hn.1, if_true, this]

/-- The value of an attribute. -/
def IsValue (v : List Char) : Prop := ∀ c ∈ v, c ≠ '"' ∧ c ≠ '<' ∧ c ≠ '&'

theorem readAttribute_append {k v r : List Char} (hk : IsName k = true) (hv : IsValue v) :
    readAttribute (k ++ '=' :: '"' :: (v ++ '"' :: r)) = some ((k, v), r) := by
  unfold readAttribute
  rw [readName_append hk (by decide)]
  have := span_append (p := (· != '"')) (v := v) (r := r) (d := '"') (by
    intro c hc; simpa using (hv c hc).1) (by simp)
  simp only [this]
  rw [if_neg]
  simp only [List.any_eq_true, not_exists, not_and, Bool.or_eq_true, beq_iff_eq, not_or]
  intro c hc
  exact ⟨(hv c hc).2.1, (hv c hc).2.2⟩

/-- Attributes as they are written, each followed by a blank. -/
def attrText (l : List (List Char × List Char)) : List Char :=
  (l.map fun a => a.1 ++ '=' :: '"' :: (a.2 ++ ['"', ' '])).flatten

theorem attrText_nil : attrText [] = [] := rfl

theorem attrText_cons (a : List Char × List Char) (l : List (List Char × List Char)) :
    attrText (a :: l) = a.1 ++ '=' :: '"' :: (a.2 ++ '"' :: ' ' :: attrText l) := by
  unfold attrText; simp

theorem attrText_append (l m : List (List Char × List Char)) : attrText (l ++ m) = attrText l ++ attrText m := by
  unfold attrText; simp

theorem length_attrText (l : List (List Char × List Char)) : l.length ≤ (attrText l).length := by
  induction l with
  | nil => simp
  | cons a l ih => rw [attrText_cons]; simp; omega

theorem readAttributes_text {r : List Char} {d : Char} (hd : isS d = false) (hd' : isNameStart d = false) :
    ∀ (l : List (List Char × List Char)) (fuel : Nat), (∀ a ∈ l, IsName a.1 = true ∧ IsValue a.2) → l.length < fuel →
      readAttributes fuel (' ' :: (attrText l ++ d :: r)) = some (l, d :: r) := by
  intro l
  induction l with
  | nil =>
    intro fuel _ hf
    rcases fuel with _ | fuel
    · simp at hf
    unfold readAttributes
    simp [attrText_nil, show isS ' ' = true by decide, hd, hd']
  | cons a l ih =>
    intro fuel hl hf
    rcases fuel with _ | fuel
    · simp at hf
    obtain ⟨k, v⟩ := a
    have ha := hl (k, v) (by simp)
    have ih' := ih fuel (fun x hx => hl x (by simp [hx])) (by simpa using hf)
    have hread := readAttribute_append (k := k) (v := v) (r := ' ' :: (attrText l ++ d :: r)) ha.1 ha.2
    rw [attrText_cons]
    rcases k with _ | ⟨c, k⟩
    · exact absurd ha.1 (by simp [IsName])
    have hc : isNameStart c = true := by
      have := ha.1
      simp only [IsName, Bool.and_eq_true] at this
      exact this.1
    have hcs : isS c = false := by
      rw [Bool.eq_false_iff]
      intro h
      unfold isS at h
      simp only [Bool.or_eq_true, beq_iff_eq] at h
      rcases h with ((rfl | rfl) | rfl) | rfl <;> exact absurd hc (by decide)
    unfold readAttributes
    have hdw : (' ' :: (((c :: k, v) : List Char × List Char).1 ++ '=' :: '"' :: (v ++ '"' :: ' ' :: attrText l) ++ d :: r)).dropWhile isS =
        c :: (k ++ '=' :: '"' :: (v ++ '"' :: (' ' :: (attrText l ++ d :: r)))) := by
      simp [show isS ' ' = true by decide, hcs]
    rw [hdw]
    simp only [hc, if_true]
    rw [if_pos (by simp), show (c :: (k ++ '=' :: '"' :: (v ++ '"' :: (' ' :: (attrText l ++ d :: r))))) =
      (c :: k) ++ '=' :: '"' :: (v ++ '"' :: (' ' :: (attrText l ++ d :: r))) from rfl, hread]
    simp only [ih']

/-- An empty element. -/
theorem readContent_element {name r : List Char} {l : List (List Char × List Char)} {fuel : Nat} (hn : IsName name = true)
    (hl : ∀ a ∈ l, IsName a.1 = true ∧ IsValue a.2) (hu : (l.map Prod.fst).Nodup) :
    readContent (fuel + 1) ('<' :: (name ++ ' ' :: (attrText l ++ '/' :: '>' :: r))) =
      (readContent fuel r).map fun x => (.element name l [] :: x.1, x.2) := by
  rcases name with _ | ⟨c, name⟩
  · simp [IsName] at hn
  have hc : isNameStart c = true := by
    simp only [IsName, Bool.and_eq_true] at hn; exact hn.1
  have hc1 : c ≠ '/' := by rintro rfl; exact absurd hc (by decide)
  have hc2 : c ≠ '!' := by rintro rfl; exact absurd hc (by decide)
  have h1 := readName_append (n := c :: name) (r := attrText l ++ '/' :: '>' :: r) (d := ' ') hn (by decide)
  have h2 := readAttributes_text (r := '>' :: r) (d := '/') (by decide) (by decide) l
    (' ' :: (attrText l ++ '/' :: '>' :: r)).length hl (by
      have := length_attrText l
      simp; omega)
  have hu' : unique l = true := by unfold unique; simpa using hu
  conv_lhs => unfold readContent
  rw [if_pos rfl]
  simp only [List.cons_append] at h1 ⊢
  split
  · next h => exact absurd (List.cons.inj h).1 hc1
  · next h => exact absurd (List.cons.inj h).1 hc2
  · rw [h1]
    simp only [h2, hu', Bool.not_true, Bool.false_eq_true, if_false]

/-- An element with content. -/
theorem readContent_parent {name s r : List Char} {l : List (List Char × List Char)} {fuel : Nat} {content : List Node}
    (hn : IsName name = true) (hl : ∀ a ∈ l, IsName a.1 = true ∧ IsValue a.2) (hu : (l.map Prod.fst).Nodup)
    (hs : readContent fuel s = some (content, '<' :: '/' :: (name ++ '>' :: r))) :
    readContent (fuel + 1) ('<' :: (name ++ ' ' :: (attrText l ++ '>' :: s))) =
      (readContent fuel r).map fun x => (.element name l content :: x.1, x.2) := by
  rcases name with _ | ⟨c, name⟩
  · simp [IsName] at hn
  have hc : isNameStart c = true := by
    simp only [IsName, Bool.and_eq_true] at hn; exact hn.1
  have hc1 : c ≠ '/' := by rintro rfl; exact absurd hc (by decide)
  have hc2 : c ≠ '!' := by rintro rfl; exact absurd hc (by decide)
  have h1 := readName_append (n := c :: name) (r := attrText l ++ '>' :: s) (d := ' ') hn (by decide)
  have h2 := readAttributes_text (r := s) (d := '>') (by decide) (by decide) l
    (' ' :: (attrText l ++ '>' :: s)).length hl (by
      have := length_attrText l
      simp; omega)
  have h3 := readName_append (n := c :: name) (r := r) (d := '>') hn (by decide)
  have hu' : unique l = true := by unfold unique; simpa using hu
  conv_lhs => unfold readContent
  rw [if_pos rfl]
  simp only [List.cons_append] at h1 h3 hs ⊢
  split
  · next h => exact absurd (List.cons.inj h).1 hc1
  · next h => exact absurd (List.cons.inj h).1 hc2
  · rw [h1]
    simp only [h2, hu', Bool.not_true, Bool.false_eq_true, if_false, hs, h3, ne_eq, not_true_eq_false]
    rw [List.dropWhile_cons_of_neg (by decide)]
    rfl

theorem readComment_append {t r : List Char} (ht : ¬ ∃ a b, t ++ [' '] = a ++ '-' :: '-' :: b) :
    readComment (t ++ ' ' :: '-' :: '-' :: '>' :: r) = some (t ++ [' '], r) := by
  induction t with
  | nil => simp [readComment]
  | cons c t ih =>
    have ht' : ¬ ∃ a b, t ++ [' '] = a ++ '-' :: '-' :: b := by
      rintro ⟨a, b, h⟩
      exact ht ⟨c :: a, b, by simp [h]⟩
    have ih' := ih ht'
    by_cases hc : c = '-'
    · subst hc
      rcases t with _ | ⟨d, t⟩
      · simp [readComment]
      · have hd : d ≠ '-' := by
          rintro rfl
          exact ht ⟨[], t ++ [' '], by simp⟩
        rw [List.cons_append, List.cons_append]
        rw [List.cons_append] at ih'
        unfold readComment
        split
        · next h => exact absurd (List.cons.inj (List.cons.inj h).2).1 hd
        · next h => exact absurd (List.cons.inj (List.cons.inj h).2).1 hd
        · next h =>
          obtain ⟨rfl, rfl⟩ := List.cons.inj h
          rw [ih']; rfl
        · next h => simp at h
    · rw [List.cons_append]
      unfold readComment
      split
      · next h => exact absurd (List.cons.inj h).1 hc
      · next h => exact absurd (List.cons.inj h).1 hc
      · next h =>
        obtain ⟨rfl, rfl⟩ := List.cons.inj h
        rw [ih']; rfl
      · next h => simp at h

theorem readContent_comment {t r : List Char} {fuel : Nat} (ht : ¬ ∃ a b, t ++ [' '] = a ++ '-' :: '-' :: b) :
    readContent (fuel + 1) ('<' :: '!' :: '-' :: '-' :: (t ++ ' ' :: '-' :: '-' :: '>' :: r)) =
      (readContent fuel r).map fun x => (.comment (t ++ [' ']) :: x.1, x.2) := by
  conv_lhs => unfold readContent
  rw [if_pos rfl]
  simp only [readComment_append ht]

/-- Character data in front of markup. -/
theorem readContent_text {t r : List Char} {fuel : Nat} (h0 : t ≠ []) (ht : ∀ c ∈ t, c ≠ '<' ∧ c ≠ '&' ∧ c ≠ '>') :
    readContent (fuel + 1) (t ++ '<' :: r) = (readContent fuel ('<' :: r)).map fun x => (.text t :: x.1, x.2) := by
  rcases t with _ | ⟨c, t⟩
  · exact absurd rfl h0
  have hs := span_append (p := (· != '<')) (v := c :: t) (r := r) (d := '<') (by
    intro x hx; simpa using (ht x hx).1) (by simp)
  rw [List.cons_append] at *
  conv_lhs => unfold readContent
  rw [if_neg (ht c (by simp)).1]
  simp only [hs]
  rw [if_neg]
  simp only [List.any_eq_true, not_exists, not_and, Bool.or_eq_true, beq_iff_eq, not_or]
  intro x hx
  exact (ht x hx).2

end ICPC.Spec.Xml
