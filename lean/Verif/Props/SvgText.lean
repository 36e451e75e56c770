import Verif.Lemmas.Xml
import Verif.Spec.SvgText
import Verif.Props.Svg

/-! C79: an SVG file is a well-formed XML document that contains exactly the shapes and comments that were drawn. -/

namespace ICPC.Svg

open ICPC.Spec.Xml ICPC.Spec.SvgFormat

theorem attr_eq (k v : List Char) : attr k v = k ++ '=' :: '"' :: (v ++ ['"', ' ']) := by
  unfold attr
  rw [show "=\"".toList = ['=', '"'] from by decide +kernel, show "\" ".toList = ['"', ' '] from by decide +kernel]
  simp

theorem attr_text (k v : List Char) : attr k v = attrText [(k, v)] := by
  rw [attr_eq, attrText_cons, attrText_nil]

theorem style_text (num : Rat → List Char) (s : Style) : s.print num = attrText (styleAttributes num s) := by
  obtain ⟨st, fl⟩ := s
  unfold Style.print styleAttributes
  rw [attrText_append]
  congr 1
  · rcases st with _ | ⟨c, w, lc, lj, sc⟩
    · simp only [attr_text]
    · simp only [attrText_append, Stroke.print]
      congr 1
      · congr 1
        · congr 1
          · rw [attr_text, attr_text, ← attrText_append]; rfl
          · rcases lc with _ | (_ | _ | _) <;> rfl
        · rcases lj with _ | (_ | _ | _) <;> rfl
      · cases sc <;> simp [attr_text, attrText_nil]
  · rcases fl with _ | c <;> simp only [attr_text]

theorem points_eq (num : Rat → List Char) (ps : List Point) : printPoints num ps = pointList num ps := by
  induction ps with
  | nil => rfl
  | cons p ps ih =>
    unfold printPoints pointList
    rw [ih, show ",".toList = [','] from by decide +kernel, show " ".toList = [' '] from by decide +kernel]
    simp [pointList, flipY, shown]

theorem shape_text (num : Rat → List Char) (sh : Shape) (style : Style) :
    sh.print num style = '<' :: ((element num sh).1 ++ ' ' :: (attrText ((element num sh).2 ++ styleAttributes num style) ++ ['/', '>'])) := by
  cases sh <;>
    simp [Shape.print.eq_def, style_text, attr_text, points_eq, element.eq_def, attrText_cons, attrText_nil, shown, flipY, Point.add]

theorem hexDigit_value : ∀ n, n < 16 → NumberChar (hexDigit n) := by
  unfold NumberChar
  decide

theorem color_value (c : Color) : IsValue c.print := by
  intro x hx
  unfold Color.print at hx
  have key : ∀ b : Png.Byte, x ∈ hexByte b → NumberChar x := by
    intro b hb
    unfold hexByte at hb
    have hb' := b.isLt
    split at hb
    · simp only [List.mem_cons, List.not_mem_nil, or_false] at hb
      rcases hb with rfl | rfl
      · unfold NumberChar; decide
      · exact hexDigit_value _ (by omega)
    · simp only [List.mem_cons, List.not_mem_nil, or_false] at hb
      rcases hb with rfl | rfl <;> apply hexDigit_value <;> omega
  rcases List.mem_cons.1 hx with rfl | hx
  · decide
  · rcases List.mem_append.1 hx with hx | hx
    · exact key _ hx
    · rcases List.mem_append.1 hx with hx | hx <;> exact key _ hx

theorem isValue_lit {l : List Char} (h : l.all (fun c => c != '"' && c != '<' && c != '&') = true) : IsValue l := by
  intro c hc
  have := List.all_eq_true.1 h c hc
  simpa [and_assoc] using this

theorem isValue_append {a b : List Char} (ha : IsValue a) (hb : IsValue b) : IsValue (a ++ b) := by
  intro c hc
  rcases List.mem_append.1 hc with h | h
  · exact ha c h
  · exact hb c h

theorem isValue_cons {a : Char} {b : List Char} (ha : NumberChar a) (hb : IsValue b) : IsValue (a :: b) := by
  intro c hc
  rcases List.mem_cons.1 hc with rfl | h
  · exact ha
  · exact hb c h

theorem points_value {num : Rat → List Char} (hn : Notation num) (ps : List Point) : IsValue (pointList num ps) := by
  induction ps with
  | nil => intro c hc; simp [pointList] at hc
  | cons p ps ih =>
    unfold pointList at ih ⊢
    rw [List.map_cons, List.flatten_cons]
    refine isValue_append (isValue_append (isValue_append (hn _) (isValue_cons (by unfold NumberChar; decide) (hn _))) (isValue_lit (by decide))) ih

theorem name_lit {l : List Char} (v : List Char) (h : IsName l = true) : IsName (l, v).1 = true := h

theorem style_valid {num : Rat → List Char} (hn : Notation num) (s : Style) :
    ∀ a ∈ styleAttributes num s, IsName a.1 = true ∧ IsValue a.2 := by
  obtain ⟨st, fl⟩ := s
  have one : ∀ (k v : List Char), IsName k = true → IsValue v → ∀ a ∈ [(k, v)], IsName a.1 = true ∧ IsValue a.2 := by
    intro k v h1 h2 a ha
    rw [List.mem_singleton] at ha
    subst ha
    exact ⟨h1, h2⟩
  have non : ∀ a ∈ ([] : List (List Char × List Char)), IsName a.1 = true ∧ IsValue a.2 := by simp
  intro a ha
  unfold styleAttributes at ha
  rcases List.mem_append.1 ha with ha | ha
  · rcases st with _ | ⟨c, w, lc, lj, sc⟩
    · exact one _ _ (by decide) (isValue_lit (by decide)) a ha
    · rcases List.mem_append.1 ha with ha | ha
      · rcases List.mem_append.1 ha with ha | ha
        · rcases List.mem_append.1 ha with ha | ha
          · rcases List.mem_cons.1 ha with rfl | ha
            · exact ⟨name_lit _ (by decide), color_value c⟩
            · exact one _ _ (by decide) (hn w) a ha
          · rcases lc with _ | (_ | _ | _) <;> first | exact non a ha | exact one _ _ (by decide) (isValue_lit (by decide)) a ha
        · rcases lj with _ | (_ | _ | _) <;> first | exact non a ha | exact one _ _ (by decide) (isValue_lit (by decide)) a ha
      · cases sc
        · exact one _ _ (by decide) (isValue_lit (by decide)) a ha
        · exact non a ha
  · refine one _ _ (by decide) ?_ a ha
    rcases fl with _ | c
    · show IsValue "none".toList
      exact isValue_lit (by decide)
    · exact color_value c

theorem element_valid {num : Rat → List Char} (hn : Notation num) (sh : Shape) :
    IsName (element num sh).1 = true ∧ ∀ a ∈ (element num sh).2, IsName a.1 = true ∧ IsValue a.2 := by
  have hq : ∀ q, IsValue (num q) := hn
  have hp := points_value hn
  cases sh <;> unfold element <;>
    simp only [List.forall_mem_cons, List.not_mem_nil, false_imp_iff, implies_true, and_true, hq, hp] <;> decide

/-- The names of the presentation attributes. -/
def styleNames : List (List Char) :=
  ["stroke".toList, "stroke-width".toList, "stroke-linecap".toList, "stroke-linejoin".toList, "vector-effect".toList, "fill".toList]

theorem style_names (num : Rat → List Char) (s : Style) : List.Sublist ((styleAttributes num s).map Prod.fst) styleNames := by
  obtain ⟨st, fl⟩ := s
  (rcases st with _ | ⟨c, w, lc, lj, sc⟩)
  · simp only [styleAttributes, List.cons_append, List.nil_append, List.map_cons, List.map_nil, styleNames]
    decide
  · have h1 : List.Sublist ((match lc with
        | none => []
        | some .butt => [("stroke-linecap".toList, "butt".toList)]
        | some .round => [("stroke-linecap".toList, "round".toList)]
        | some .square => [("stroke-linecap".toList, "square".toList)] : List (List Char × List Char)).map Prod.fst) ["stroke-linecap".toList] := by
      rcases lc with _ | (_ | _ | _) <;> simp
    have h2 : List.Sublist ((match lj with
        | none => []
        | some .round => [("stroke-linejoin".toList, "round".toList)]
        | some .bevel => [("stroke-linejoin".toList, "bevel".toList)]
        | some .miter => [("stroke-linejoin".toList, "miter".toList)] : List (List Char × List Char)).map Prod.fst) ["stroke-linejoin".toList] := by
      rcases lj with _ | (_ | _ | _) <;> simp
    have h3 : List.Sublist ((if sc then [] else [("vector-effect".toList, "non-scaling-stroke".toList)] : List (List Char × List Char)).map Prod.fst)
        ["vector-effect".toList] := by
      cases sc <;> simp
    have := ((((List.Sublist.refl ["stroke".toList, "stroke-width".toList]).append h1).append h2).append h3).append (List.Sublist.refl ["fill".toList])
    simp only [styleAttributes, List.map_append]
    exact this

theorem names_nodup (num : Rat → List Char) (sh : Shape) (s : Style) :
    (((element num sh).2 ++ styleAttributes num s).map Prod.fst).Nodup := by
  have h : (((element num sh).2.map Prod.fst) ++ styleNames).Nodup := by
    cases sh <;> simp only [element.eq_def, List.map_cons, List.map_nil] <;> decide +kernel
  rw [List.map_append]
  exact h.sublist ((List.Sublist.refl _).append (style_names num s))

theorem hyphen_pad {c : List Char} (h : NoDoubleHyphen c) : ¬ ∃ a b, ' ' :: c ++ [' '] = a ++ '-' :: '-' :: b := by
  rintro ⟨a, b, hab⟩
  apply h
  rcases a with _ | ⟨x, a⟩
  · simp at hab
  · rw [List.cons_append, List.cons_append] at hab
    have hab := (List.cons.inj hab).2
    rcases List.eq_nil_or_concat b with rfl | ⟨b', y, rfl⟩
    · have := congrArg List.getLast? hab
      simp at this
    · refine ⟨a, b', ?_⟩
      have h2 : c ++ [' '] = (a ++ '-' :: '-' :: b') ++ [y] := by rw [hab]; simp
      exact (List.append_inj' h2 rfl).1

theorem comment_text (num : Rat → List Char) (c : List Char) :
    (Item.comment c).print num = '<' :: '!' :: '-' :: '-' :: ((' ' :: c) ++ [' ', '-', '-', '>']) := by
  simp [Item.print]

/-- The reader on the items, with some text in front of them that has not been read yet. -/
theorem read_items {num : Rat → List Char} (hn : Notation num) (r : List Char) : ∀ (items : List Item), (∀ it ∈ items, Allowed it) →
    ∀ (pre : List Char), (∀ c ∈ pre, c ≠ '<' ∧ c ≠ '&' ∧ c ≠ '>') →
    ∀ fuel, (pre ++ (items.map (Item.print num)).flatten).length + 1 ≤ fuel →
    ∃ content, readContent fuel (pre ++ ((items.map (Item.print num)).flatten ++ '<' :: '/' :: r)) = some (content, '<' :: '/' :: r) ∧
      markup content = items.filterMap (node num) := by
  -- reading the text in front of some markup
  have front : ∀ (m : List Char) (nodes : List Node) (pre : List Char), (∀ c ∈ pre, c ≠ '<' ∧ c ≠ '&' ∧ c ≠ '>') →
      ∀ k, (∀ fuel, k ≤ fuel → ∃ content, readContent fuel ('<' :: m) = some (content, '<' :: '/' :: r) ∧ markup content = nodes) →
      ∀ fuel, pre.length + k ≤ fuel → ∃ content, readContent fuel (pre ++ '<' :: m) = some (content, '<' :: '/' :: r) ∧ markup content = nodes := by
    intro m nodes pre hpre k hk fuel hf
    by_cases h0 : pre = []
    · subst h0
      exact hk fuel (by simpa using hf)
    · have hl : 0 < pre.length := List.length_pos_of_ne_nil h0
      obtain ⟨f, rfl⟩ : ∃ f, fuel = f + 1 := ⟨fuel - 1, by omega⟩
      obtain ⟨content, h1, h2⟩ := hk f (by omega)
      refine ⟨.text pre :: content, ?_, ?_⟩
      · rw [readContent_text h0 hpre, h1]; rfl
      · unfold markup at h2 ⊢
        rw [List.filter_cons]
        exact h2
  intro items
  induction items with
  | nil =>
    intro _ pre hpre fuel hf
    refine front _ _ pre hpre 1 ?_ fuel (by simpa using hf)
    intro f hf
    obtain ⟨f, rfl⟩ : ∃ g, f = g + 1 := ⟨f - 1, by omega⟩
    exact ⟨[], by rw [readContent]; simp, rfl⟩
  | cons it items ih =>
    intro hall pre hpre fuel hf
    have ih' := ih fun x hx => hall x (by simp [hx])
    have hit := hall it (by simp)
    rw [List.map_cons, List.flatten_cons] at hf ⊢
    rw [List.filterMap_cons]
    cases it with
    | text t =>
      have := ih' (pre ++ t) (by
        intro c hc
        rcases List.mem_append.1 hc with h | h
        · exact hpre c h
        · exact hit c h) fuel (by simpa [Item.print] using hf)
      simpa [Item.print, node] using this
    | comment c =>
      rw [comment_text] at hf ⊢
      have := front ('!' :: '-' :: '-' :: ((' ' :: c) ++ ' ' :: '-' :: '-' :: '>' :: ((items.map (Item.print num)).flatten ++ '<' :: '/' :: r)))
        (.comment (' ' :: c ++ [' ']) :: items.filterMap (node num)) pre hpre
        ((items.map (Item.print num)).flatten.length + 2) (by
          intro f hf
          obtain ⟨f, rfl⟩ : ∃ g, f = g + 1 := ⟨f - 1, by omega⟩
          obtain ⟨content, h1, h2⟩ := ih' [] (by simp) f (by rw [List.nil_append]; omega)
          rw [List.nil_append] at h1
          refine ⟨.comment (' ' :: c ++ [' ']) :: content, ?_, ?_⟩
          · rw [readContent_comment (hyphen_pad hit), h1]; rfl
          · unfold markup at h2 ⊢
            rw [List.filter_cons]
            simp only [if_true, h2]) fuel (by simp at hf ⊢; omega)
      simpa [node] using this
    | shape sh style =>
      rw [show (Item.shape sh style).print num = sh.print num style from rfl, shape_text] at hf ⊢
      have := front ((element num sh).1 ++ ' ' :: (attrText ((element num sh).2 ++ styleAttributes num style) ++ '/' :: '>' ::
          ((items.map (Item.print num)).flatten ++ '<' :: '/' :: r)))
        (.element (element num sh).1 ((element num sh).2 ++ styleAttributes num style) [] :: items.filterMap (node num)) pre hpre
        ((items.map (Item.print num)).flatten.length + 2) (by
          intro f hf
          obtain ⟨f, rfl⟩ : ∃ g, f = g + 1 := ⟨f - 1, by omega⟩
          obtain ⟨content, h1, h2⟩ := ih' [] (by simp) f (by rw [List.nil_append]; omega)
          rw [List.nil_append] at h1
          refine ⟨.element (element num sh).1 ((element num sh).2 ++ styleAttributes num style) [] :: content, ?_, ?_⟩
          · rw [readContent_element (element_valid hn sh).1 ?_ (names_nodup num sh style), h1]
            · rfl
            · intro a ha
              rcases List.mem_append.1 ha with h | h
              · exact (element_valid hn sh).2 a h
              · exact style_valid hn style a h
          · unfold markup at h2 ⊢
            rw [List.filter_cons]
            simp only [if_true, h2]) fuel (by simp at hf ⊢; omega)
      simpa [node] using this

theorem fold_shapes (items : List Item) : ∀ b : Box, items.foldl Box.item b = (shapes items).foldl Box.draw b := by
  induction items with
  | nil => intro b; rfl
  | cons it items ih =>
    intro b
    rw [List.foldl_cons, ih]
    cases it <;> rfl

theorem enlarge_viewBox (b : Box) (shift grow : Dimension) : (b.enlarge shift grow).viewBox = enlarged b.viewBox shift grow := by
  unfold Box.enlarge Box.viewBox enlarged flipY
  simp only [Prod.mk.injEq, true_and, and_true]
  ring

/-- The parts of a file. -/
theorem file_text (num toString : Rat → List Char) (items : List Item) (shift grow : Dimension) (t : List Char)
    (h : file num toString items shift grow = some t) :
    t = '<' :: '?' :: 'x' :: 'm' :: 'l' :: ' ' :: (attrText [("version".toList, "1.0".toList), ("encoding".toList, "UTF8".toList)] ++ '?' :: '>' ::
      ('\n' :: '<' :: ("svg".toList ++ ' ' :: (attrText (rootAttributes toString (enlarged (Box.drawAll (shapes items)).viewBox shift grow)) ++
        '>' :: (['\n'] ++ ((items.map (Item.print num)).flatten ++ '<' :: '/' :: ("svg".toList ++ ['>']))))))) := by
  unfold file at h
  rw [fold_shapes] at h
  rw [← enlarge_viewBox]
  simp only [] at h
  split at h
  · cases h
  · rw [← Option.some.inj h]
    simp [rootAttributes, Box.viewBox, Box.drawAll, attrText_cons, attrText_nil, attr_text]

theorem root_valid {toString : Rat → List Char} (hn : Notation toString) (v : Rat × Rat × Rat × Rat) :
    ∀ a ∈ rootAttributes toString v, IsName a.1 = true ∧ IsValue a.2 := by
  unfold rootAttributes
  simp only [List.forall_mem_cons, List.not_mem_nil, false_imp_iff, implies_true, and_true]
  refine ⟨⟨by decide, isValue_lit (by decide +kernel)⟩, ⟨by decide, isValue_lit (by decide +kernel)⟩,
    ⟨by decide +kernel, isValue_lit (by decide +kernel)⟩, by decide +kernel, ?_⟩
  have hs : NumberChar ' ' := by unfold NumberChar; decide
  exact isValue_append (isValue_append (isValue_append (hn _) (isValue_cons hs (hn _))) (isValue_cons hs (hn _))) (isValue_cons hs (hn _))

end ICPC.Svg

namespace ICPC.Props

open ICPC.Svg ICPC.Spec.Xml ICPC.Spec.SvgFormat

/-- **C79.** The file is a well-formed XML document.  Its root element is `svg` with the box of the shapes, enlarged as asked for,
and the root contains one element for every shape and one comment for every comment, in the order in which they were written, and
nothing else besides text. -/
theorem C79_document (num toString : Rat → List Char) (hn : Notation num) (ht : Notation toString) (items : List Item)
    (hall : ∀ it ∈ items, Allowed it) (shift grow : Dimension) (t : List Char) (h : file num toString items shift grow = some t) :
    ∃ content, Spec.Xml.read t = some (.element "svg".toList (rootAttributes toString (enlarged (Box.drawAll (shapes items)).viewBox shift grow)) content) ∧
      markup content = items.filterMap (node num) := by
  rw [file_text num toString items shift grow t h]
  generalize enlarged (Box.drawAll (shapes items)).viewBox shift grow = v
  generalize hroot : rootAttributes toString v = attrs
  have hvalid : ∀ a ∈ attrs, IsName a.1 = true ∧ IsValue a.2 := hroot ▸ root_valid ht v
  have hnodup : (attrs.map Prod.fst).Nodup := by
    rw [← hroot]
    unfold rootAttributes
    simp only [List.map_cons, List.map_nil]
    decide +kernel
  generalize hbody : ['\n'] ++ ((items.map (Item.print num)).flatten ++ '<' :: '/' :: ("svg".toList ++ ['>'])) = body
  have hlen : (['\n'] ++ (items.map (Item.print num)).flatten).length + 1 ≤ body.length := by
    rw [← hbody]
    simp only [List.length_append, List.length_cons]
    omega
  generalize hsvg : '<' :: ("svg".toList ++ ' ' :: (attrText attrs ++ '>' :: body)) = svg
  have hlen' : body.length + 2 ≤ svg.length := by
    rw [← hsvg]
    simp only [List.length_append, List.length_cons]
    omega
  obtain ⟨content, h1, h2⟩ := read_items hn ("svg".toList ++ ['>']) items hall ['\n'] (by decide) svg.length (by omega)
  rw [hbody] at h1
  refine ⟨content, ?_, h2⟩
  have h3 : readContent (svg.length + 1) svg = some ([.element "svg".toList attrs content], []) := by
    have := readContent_parent (name := "svg".toList) (r := []) (by decide) hvalid hnodup h1
    rw [hsvg] at this
    rw [this]
    obtain ⟨k, hk⟩ : ∃ k, svg.length = k + 1 := ⟨svg.length - 1, by omega⟩
    rw [hk, readContent]
    rfl
  have h4 : readContent (('\n' :: svg).length + 1) ('\n' :: svg) = some ([.text ['\n'], .element "svg".toList attrs content], []) := by
    have := readContent_text (t := ['\n']) (r := "svg".toList ++ ' ' :: (attrText attrs ++ '>' :: body)) (fuel := svg.length + 1) (by simp) (by decide)
    rw [hsvg, h3] at this
    exact this
  have h5 := readAttributes_text (r := '>' :: '\n' :: svg) (d := '?') (by decide) (by decide)
    [("version".toList, "1.0".toList), ("encoding".toList, "UTF8".toList)]
    (' ' :: (attrText [("version".toList, "1.0".toList), ("encoding".toList, "UTF8".toList)] ++ '?' :: '>' :: '\n' :: svg)).length (by
      simp only [List.forall_mem_cons, List.not_mem_nil, false_imp_iff, implies_true, and_true]
      exact ⟨⟨by decide, isValue_lit (by decide)⟩, by decide, isValue_lit (by decide)⟩) (by simp; omega)
  unfold Spec.Xml.read
  simp only [h5, h4, true_and, if_true]
  rfl

/-- **C79, empty images.** No file is written exactly if nothing was written to the image. -/
theorem C79_empty (num toString : Rat → List Char) (items : List Item) (shift grow : Dimension) :
    file num toString items shift grow = none ↔ ∀ it ∈ items, it = .text [] := by
  have key : ∀ it : Item, it.print num = [] ↔ it = .text [] := by
    intro it
    cases it with
    | shape sh style =>
      rw [show (Item.shape sh style).print num = sh.print num style from rfl, shape_text]
      simp
    | comment c => rw [comment_text]; simp
    | text t => simp [Item.print]
  unfold file
  simp only []
  split
  · next h =>
    rw [List.isEmpty_iff, List.flatten_eq_nil_iff] at h
    simp only [true_iff]
    intro it hit
    exact (key it).1 (h _ (List.mem_map_of_mem hit))
  · next h =>
    rw [List.isEmpty_iff, List.flatten_eq_nil_iff] at h
    simp only [reduceCtorEq, false_iff]
    intro h'
    apply h
    intro l hl
    obtain ⟨it, hit, rfl⟩ := List.mem_map.1 hl
    exact (key it).2 (h' it hit)

/-- **C79, colours.** The colours in the attributes are read back as the colours of the shape. -/
theorem C79_color (num : Rat → List Char) (s : Style) :
    (∀ c, s.fill = some c → ∃ v, ("fill".toList, v) ∈ styleAttributes num s ∧ parseColor v = some c) ∧
    (∀ st, s.stroke = some st → ∃ v, ("stroke".toList, v) ∈ styleAttributes num s ∧ parseColor v = some st.color) := by
  obtain ⟨st, fl⟩ := s
  refine ⟨?_, ?_⟩
  · rintro c ⟨⟩
    refine ⟨c.print, ?_, parse_print c⟩
    unfold styleAttributes
    exact List.mem_append_right _ (List.mem_cons_self ..)
  · rintro st ⟨⟩
    refine ⟨st.color.print, ?_, parse_print _⟩
    unfold styleAttributes
    exact List.mem_append_left _ (List.mem_append_left _ (List.mem_append_left _ (List.mem_append_left _ (List.mem_cons_self ..))))

/-- **C79, refuted for all comments.** A comment with two hyphens in a row makes the file malformed. -/
theorem C79_comment_refuted : ∃ (items : List Item) (num : Rat → List Char), Notation num ∧
    ∃ t, file num num items = some t ∧ Spec.Xml.read t = none := by
  refine ⟨[.comment "a--b".toList], fun _ => ['0'], fun _ c hc => ?_, _, rfl, ?_⟩
  · rw [List.mem_singleton.1 hc]; unfold NumberChar; decide
  · decide +kernel

/-- A file with a circle, a comment and a polyline. -/
def sample : List Item :=
  [.shape (.circle ⟨3, 4⟩ 2) ⟨some ⟨⟨0, 0, 0⟩, 1, none, some .bevel, false⟩, none⟩, .text ['\n'], .comment "an edge".toList,
    .shape (.polyline [⟨-1, 7⟩, ⟨2, -5⟩]) ⟨none, some ⟨255, 0, 0⟩⟩]

/-- Integers in decimal notation. -/
def plain (q : Rat) : List Char := (if q < 0 then ['-'] else []) ++ Nat.toDigits 10 q.num.natAbs

example : file plain plain sample ⟨3, 3⟩ ⟨6, 6⟩ = some ("<?xml version=\"1.0\" encoding=\"UTF8\" ?>\n" ++
    "<svg xmlns=\"http://www.w3.org/2000/svg\" version=\"1.0\" baseProfile=\"full\" viewBox=\"-4 -10 12 18\" >\n" ++
    "<circle r=\"2\" cx=\"3\" cy=\"-4\" stroke=\"#000000\" stroke-width=\"1\" stroke-linejoin=\"bevel\" vector-effect=\"non-scaling-stroke\" fill=\"none\" />\n" ++
    "<!-- an edge -->" ++
    "<polyline points=\"-1,-7 2,5 \" stroke=\"none\" fill=\"#ff0000\" />" ++
    "</svg>").toList := by decide +kernel

example : ((file plain plain sample).bind Spec.Xml.read).isSome = true := by decide +kernel

end ICPC.Props
