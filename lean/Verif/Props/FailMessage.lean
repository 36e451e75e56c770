import Verif.Model.FailMessage
import Verif.Spec.FailMessage
import Verif.Lemmas.Stream
import Verif.Lemmas.RealPrint

/-!
# C83: the position in the message of a failed input stream
-/

namespace ICPC.Props

open ICPC.FailMessage ICPC.Spec ICPC.Spec.Position

/-- The buffer after some characters. -/
private def after (buf : List Char) (cs : List Char) : List Char := cs.foldl (fun b c => if c = '\n' then [] else b ++ [c]) buf

private theorem after_append (buf a b : List Char) : after buf (a ++ b) = after (after buf a) b := by
  unfold after; rw [List.foldl_append]

private theorem after_plain (buf : List Char) : ∀ cs, '\n' ∉ cs → after buf cs = buf ++ cs := by
  intro cs
  induction cs generalizing buf with
  | nil => intro _; simp [after]
  | cons c cs ih =>
    intro h
    rw [List.mem_cons, not_or] at h
    have : after buf (c :: cs) = after (buf ++ [c]) cs := by
      unfold after; rw [List.foldl_cons, if_neg (Ne.symm h.1)]
    rw [this, ih _ h.2]; simp

private theorem after_current {before cur : List Char} (h : CurrentLine before cur) : after [] before = cur := by
  obtain ⟨h1, p, rfl, rfl | ⟨q, rfl⟩⟩ := h
  · rw [List.nil_append, after_plain _ _ h1, List.nil_append]
  · rw [after_append, after_append, show after (after [] q) ['\n'] = [] from rfl, after_plain _ _ h1, List.nil_append]

private theorem graph_not_space {c : Char} (h : isGraphC c = true) : isSpaceC c = false := by
  unfold isGraphC at h
  simp only [Bool.and_eq_true, decide_eq_true_eq] at h
  unfold isSpaceC
  rw [Bool.or_eq_false_iff]
  refine ⟨?_, ?_⟩
  · rw [beq_eq_false_iff_ne]; rintro rfl; exact absurd h.1 (by decide)
  · rw [Bool.and_eq_false_iff]; right; rw [decide_eq_false_iff_not]; omega

private theorem newline_not_graph : isGraphC '\n' = false := by decide

/-- Everything before the failing piece is passed. -/
private theorem search_before (R : List Char) (m : Nat) (hm : 0 < m) : ∀ (n : Nat) (before : List Char), before.length = n → Closed before →
    ∀ (fuel : Nat) (st : Search), before.length + m ≤ fuel → st.rest = before ++ R →
      ∃ fuel' l r, m ≤ fuel' ∧ search fuel (before.length + m) st =
        search fuel' m { line := st.line + before.count '\n', l := l, r := r, buffer := after st.buffer before, extend := st.extend, rest := R } := by
  intro n
  induction n using Nat.strongRecOn with
  | _ n ih =>
    intro before hn hc fuel st hf hr
    rcases before with _ | ⟨c, before⟩
    · refine ⟨fuel, st.l, st.r, by simpa using hf, ?_⟩
      obtain ⟨line, l, r, buffer, ext, rest⟩ := st
      dsimp only at hr
      subst hr
      simp [after]
    · obtain ⟨fuel, rfl⟩ : ∃ f, fuel = f + 1 := ⟨fuel - 1, by simp at hf; omega⟩
      obtain ⟨p, w, hw, hwhite⟩ := hc.resolve_left (by simp)
      -- the rest after a prefix is closed
      have hclosed : ∀ a b, c :: before = a ++ b → Closed b := by
        intro a b hab
        rcases List.eq_nil_or_concat' b with rfl | ⟨b', x, rfl⟩
        · exact .inl rfl
        · right
          rw [hw, ← List.append_assoc] at hab
          obtain ⟨-, h2⟩ := List.append_inj' hab rfl
          obtain ⟨rfl, -⟩ := List.cons.inj h2
          exact ⟨b', w, rfl, hwhite⟩
      have htodo : (c :: before).length + m ≠ 0 := by simp
      rw [search, if_neg htodo, hr, List.cons_append]
      dsimp only
      by_cases hg : isGraphC c = true
      · rw [if_pos hg]
        -- the word
        have hex : ∃ x ∈ c :: before, (!isSpaceC x) = false := ⟨w, by rw [hw]; simp, by rw [Bool.not_eq_false']; exact (isSpaceC_iff w).2 hwhite⟩
        obtain ⟨tok, restb, htok, hall, x, xs, hrb, hx⟩ : ∃ tok restb, c :: before = tok ++ restb ∧ (∀ y ∈ tok, (!isSpaceC y) = true) ∧
            ∃ x xs, restb = x :: xs ∧ (!isSpaceC x) = false := by
          refine ⟨(c :: before).takeWhile fun c => !isSpaceC c, (c :: before).dropWhile fun c => !isSpaceC c, (List.takeWhile_append_dropWhile ..).symm,
            fun y hy => List.mem_takeWhile_imp (p := fun c => !isSpaceC c) hy, ?_⟩
          rcases hd : (c :: before).dropWhile fun c => !isSpaceC c with _ | ⟨x, xs⟩
          · rw [List.dropWhile_eq_nil_iff] at hd
            obtain ⟨y, hy, hy'⟩ := hex
            rw [hd y hy] at hy'; cases hy'
          · refine ⟨x, xs, rfl, ?_⟩
            have := List.head_dropWhile_not (fun c => !isSpaceC c) (l := c :: before) (by rw [hd]; simp)
            simpa [hd] using this
        have htw : (c :: (before ++ R)).takeWhile (fun c => !isSpaceC c) = tok := by
          rw [← List.cons_append, htok, hrb, List.append_assoc, List.cons_append]
          rw [List.takeWhile_append_of_pos hall, List.takeWhile_cons, if_neg (by rw [hx]; simp), List.append_nil]
        have hdw : (c :: (before ++ R)).dropWhile (fun c => !isSpaceC c) = restb ++ R := by
          rw [← List.cons_append, htok, hrb, List.append_assoc, List.cons_append]
          rw [List.dropWhile_append_of_pos hall, List.dropWhile_cons, if_neg (by rw [hx]; simp)]
        rw [htw, hdw, if_neg (by rw [hrb]; simp)]
        have htne : tok ≠ [] := by
          rintro rfl
          rw [List.nil_append] at htok
          rw [hrb] at htok
          obtain ⟨rfl, -⟩ := List.cons.inj htok
          rw [graph_not_space hg] at hx; cases hx
        have hlen : (c :: before).length = tok.length + restb.length := by rw [htok, List.length_append]
        have hpos : 0 < tok.length := List.length_pos_of_ne_nil htne
        have hnl : '\n' ∉ tok := fun h => absurd (hall _ h) (by decide)
        have harith : (c :: before).length + m - tok.length = restb.length + m := by omega
        rw [harith]
        obtain ⟨fuel', l, r, h1, h2⟩ := ih restb.length (by omega) restb rfl (hclosed tok restb htok) fuel
          { st with l := st.buffer.length,
                    r := if (c :: before).length + m ≤ tok.length then (st.buffer ++ tok).length else st.buffer.length,
                    buffer := st.buffer ++ tok, rest := restb ++ R } (by omega) rfl
        refine ⟨fuel', l, r, h1, ?_⟩
        rw [h2]
        dsimp only
        rw [htok, List.count_append, List.count_eq_zero.2 hnl, zero_add, after_append, after_plain _ _ hnl]
      · rw [if_neg hg]
        have hcl := hclosed [c] before rfl
        have harith : (c :: before).length + m - 1 = before.length + m := by simp only [List.length_cons]; omega
        by_cases hnl : c = '\n'
        · rw [if_pos hnl, if_pos (by simp only [List.length_cons]; omega), harith]
          obtain ⟨fuel', l, r, h1, h2⟩ := ih before.length (by rw [← hn]; simp) before rfl hcl fuel
            { st with line := st.line + 1, l := st.buffer.length, r := st.buffer.length, buffer := [], rest := before ++ R }
            (by simp only [List.length_cons] at hf; omega) rfl
          refine ⟨fuel', l, r, h1, ?_⟩
          rw [h2]
          subst hnl
          dsimp only
          rw [List.count_cons_self, show after st.buffer ('\n' :: before) = after [] before from rfl]
          congr 2; omega
        · rw [if_neg hnl, harith]
          obtain ⟨fuel', l, r, h1, h2⟩ := ih before.length (by rw [← hn]; simp) before rfl hcl fuel
            { st with l := st.buffer.length,
                      r := if (c :: before).length + m ≤ 1 then (st.buffer ++ [c]).length else st.buffer.length,
                      buffer := st.buffer ++ [c], rest := before ++ R }
            (by simp only [List.length_cons] at hf; omega) rfl
          refine ⟨fuel', l, r, h1, ?_⟩
          rw [h2]
          dsimp only
          rw [List.count_cons_of_ne (Ne.symm (Ne.symm hnl))]
          have : after st.buffer (c :: before) = after (st.buffer ++ [c]) before := by
            unfold after; rw [List.foldl_cons, if_neg hnl]
          rw [this]

private theorem search_done (fuel : Nat) (st : Search) : search fuel 0 st = st := by
  cases fuel
  · rfl
  · rw [search, if_pos rfl]

private theorem piece_no_newline {piece aft : List Char} (h : Piece piece aft) : '\n' ∉ piece := by
  rcases h with ⟨c, rfl, -, hc⟩ | ⟨⟨-, h⟩, -⟩
  · rw [List.mem_singleton]; exact Ne.symm hc
  · exact fun hn => h _ hn (by decide)

private theorem piece_pos {piece aft : List Char} (h : Piece piece aft) : 0 < piece.length := by
  rcases h with ⟨c, rfl, -⟩ | ⟨⟨h, -⟩, -⟩
  · simp
  · exact List.length_pos_of_ne_nil h

private theorem token_split {piece aft : List Char} (ht : Token piece) (ha : ∀ c t, aft = c :: t → White c) :
    (piece ++ aft).takeWhile (fun c => !isSpaceC c) = piece ∧ (piece ++ aft).dropWhile (fun c => !isSpaceC c) = aft := by
  refine takeWhile_all (p := fun c => !isSpaceC c) ?_ ?_
  · intro c hc
    rw [Bool.not_eq_true', Bool.eq_false_iff]
    exact fun h => ht.2 c hc ((isSpaceC_iff c).1 h)
  · intro c t h
    rw [Bool.not_eq_false']
    exact (isSpaceC_iff c).2 (ha c t h)

private theorem search_piece {piece aft : List Char} (h : Piece piece aft) {fuel m line l r : Nat} {buffer : List Char} {ext : Bool}
    (hm : 0 < m) (hm' : m ≤ piece.length) (hf : m ≤ fuel) :
    search fuel m { line := line, l := l, r := r, buffer := buffer, extend := ext, rest := piece ++ aft } =
      { line := line, l := buffer.length, r := buffer.length + piece.length, buffer := buffer ++ piece, extend := ext, rest := aft } := by
  obtain ⟨fuel, rfl⟩ : ∃ f, fuel = f + 1 := ⟨fuel - 1, by omega⟩
  rw [search, if_neg (by omega)]
  rcases h with ⟨c, rfl, hv, hc⟩ | ⟨ht, ⟨c, p, rfl, hv⟩, w, q, rfl, hw⟩
  · have hg : ¬ isGraphC c = true := fun h => hv ((isGraphC_iff c).1 h)
    have hm1 : m = 1 := by simp only [List.length_singleton] at hm'; omega
    subst hm1
    dsimp only [List.cons_append, List.nil_append]
    rw [if_neg hg, if_neg hc, if_pos le_rfl, search_done]
    simp
  · have hs := token_split (aft := w :: q) ht (by rintro c t h; obtain ⟨rfl, -⟩ := List.cons.inj h; exact hw)
    rw [List.cons_append] at hs
    dsimp only [List.cons_append]
    rw [if_pos ((isGraphC_iff c).2 hv), hs.1, hs.2, if_neg (by simp), if_pos hm', Nat.sub_eq_zero_of_le hm', search_done]
    simp

private theorem extend_spec (r : Nat) : ∀ (rest buffer : List Char), ∃ t, extend r rest buffer = buffer ++ t ∧
    t <+: rest.takeWhile (fun c => decide (c ≠ '\n')) ∧ (t = rest.takeWhile (fun c => decide (c ≠ '\n')) ∨ r + 80 ≤ buffer.length + t.length) := by
  intro rest
  induction rest with
  | nil => intro buffer; exact ⟨[], by simp [extend]⟩
  | cons c rest ih =>
    intro buffer
    rw [extend]
    by_cases hc : c = '\n'
    · rw [if_neg (by simp [hc])]
      exact ⟨[], by simp, List.nil_prefix, .inl (by simp [hc])⟩
    · by_cases hb : buffer.length < 80 ∨ buffer.length < r + 80
      · rw [if_pos ⟨hb, hc⟩]
        obtain ⟨t, h1, h2, h3⟩ := ih (buffer ++ [c])
        refine ⟨c :: t, by rw [h1]; simp, ?_, ?_⟩
        · rw [List.takeWhile_cons, if_pos (by simpa using hc)]
          exact List.cons_prefix_cons.2 ⟨rfl, h2⟩
        · rw [List.takeWhile_cons, if_pos (by simpa using hc)]
          rcases h3 with h3 | h3
          · exact .inl (by rw [h3])
          · right; simp only [List.length_append, List.length_cons, List.length_nil] at h3 ⊢; omega
      · rw [if_neg (fun h => hb h.1)]
        exact ⟨[], by simp, List.nil_prefix, .inr (by simp; omega)⟩

/-- What is left of the line on both sides of the mark. -/
private theorem cut_spec {cur piece t : List Char} (hp : 0 < piece.length) (hnl : '\n' ∉ cur ++ piece ++ t) :
    ∃ l r b, cutLeft cur.length (cur.length + piece.length) (cur ++ piece ++ t) = .ok (l, r, b) ∧ b.drop l = piece ++ t ∧
      r = l + piece.length ∧ r + t.length = b.length ∧ (r ≤ 60 ∨ l ≤ 20) ∧ '\n' ∉ b ∧
      (cur.length + piece.length ≤ 60 → l = cur.length ∧ b = cur ++ piece ++ t) := by
  unfold cutLeft
  by_cases h : cur.length + piece.length > 60 ∧ cur.length > 20
  · rw [if_pos h]
    generalize ho : min (cur.length - 20) (cur.length + piece.length - 60) = o
    have hel : TEXT_ELLIPSIS.length = 5 := by decide
    have hnl' : '\n' ∉ TEXT_ELLIPSIS := by decide
    unfold substr
    dsimp only
    rw [hel, if_neg (by simp only [List.length_append]; omega), ok_bind]
    refine ⟨_, _, _, rfl, ?_, by omega, ?_, by omega, ?_, fun h' => by omega⟩
    · rw [List.drop_append, List.drop_eq_nil_of_le (by rw [hel]; omega), List.nil_append, List.drop_drop, hel,
        show o + 5 + (cur.length - o - 5) = cur.length by omega, List.append_assoc, List.drop_left]
    · rw [List.length_append, List.length_drop, hel]
      simp only [List.length_append]
      omega
    · intro hc
      rcases List.mem_append.1 hc with hc | hc
      · exact hnl' hc
      · exact hnl (List.mem_of_mem_drop hc)
  · rw [if_neg h]
    refine ⟨_, _, _, rfl, by rw [List.append_assoc, List.drop_left], rfl, by simp only [List.length_append], by omega, hnl, fun _ => ⟨rfl, rfl⟩⟩

private theorem cutRight_spec {piece t b : List Char} {l r : Nat} (hp : 0 < piece.length) (h1 : b.drop l = piece ++ t) (h2 : r = l + piece.length)
    (h3 : r + t.length = b.length) (h4 : r ≤ 60 ∨ l ≤ 20) (h5 : '\n' ∉ b) :
    ∃ r' b', cutRight r b = (r', b') ∧ l < r' ∧ r' ≤ b'.length ∧ b'.length ≤ 80 ∧ '\n' ∉ b' ∧ piece.take 55 <+: b'.drop l ∧
      min piece.length 55 ≤ r' - l ∧ (piece.length ≤ 55 → r' - l = piece.length) ∧ (b.length ≤ 80 → b' = b) := by
  have hpre : piece.take 55 <+: piece ++ t := (List.take_prefix 55 piece).trans (List.prefix_append piece t)
  unfold cutRight
  by_cases h : b.length > 80
  · rw [if_pos h]
    have hel : TEXT_ELLIPSIS.length = 5 := by decide
    have hlen : (b.take (80 - TEXT_ELLIPSIS.length) ++ TEXT_ELLIPSIS).length = 80 := by
      rw [List.length_append, List.length_take, hel]; omega
    refine ⟨_, _, rfl, ?_, ?_, hlen.le, ?_, ?_, ?_, ?_, fun h' => by omega⟩
    · rw [hlen]; omega
    · rw [hlen]; omega
    · intro hc
      rcases List.mem_append.1 hc with hc | hc
      · exact h5 (List.mem_of_mem_take hc)
      · exact absurd hc (by decide)
    · rw [List.drop_append_of_le_length (by rw [List.length_take, hel]; omega), hel, List.drop_take, h1]
      refine List.IsPrefix.trans ?_ (List.prefix_append _ _)
      rw [List.prefix_take_iff]
      refine ⟨hpre, ?_⟩
      rw [List.length_take]
      omega
    · rw [hlen]; omega
    · intro hp'; rw [hlen]; omega
  · rw [if_neg h]
    exact ⟨r, b, rfl, by omega, by omega, by omega, h5, by rw [h1]; exact hpre, by omega, fun _ => by omega, fun _ => rfl⟩

/-- **C83.** When the stream fails in a piece of the input that is not a newline and not a word at the very end of the input,
the message has the number of its line and its column, an excerpt of the line with at most 80 characters, and a mark under the
piece (under at least 55 characters of a longer one). A line with at most 60 characters is shown completely. -/
theorem C83_position_partial (before piece aft cur : List Char) (hb : Closed before) (hcur : CurrentLine before cur) (hp : Piece piece aft)
    (n : Nat) (hn : before.length < n) (hn' : n ≤ before.length + piece.length) :
    ∃ excerpt col width, message (before ++ (piece ++ aft)) n =
        .ok (layout (natDecimal (lineNumber before)) (natDecimal cur.length) excerpt col width) ∧
      excerpt.length ≤ 80 ∧ '\n' ∉ excerpt ∧ col + width ≤ excerpt.length ∧ piece.take 55 <+: excerpt.drop col ∧
      min piece.length 55 ≤ width ∧ (piece.length ≤ 55 → width = piece.length) ∧
      ((cur ++ piece ++ aft.takeWhile fun c => decide (c ≠ '\n')).length ≤ 60 →
        excerpt = cur ++ piece ++ aft.takeWhile (fun c => decide (c ≠ '\n')) ∧ col = cur.length) := by
  obtain ⟨m, rfl⟩ : ∃ m, n = before.length + m := ⟨n - before.length, by omega⟩
  obtain ⟨fuel', l0, r0, hf, hs⟩ := search_before (piece ++ aft) m (by omega) _ before rfl hb (before.length + m)
    { line := 1, l := 0, r := 0, buffer := [], extend := true, rest := before ++ (piece ++ aft) } le_rfl rfl
  dsimp only at hs
  rw [search_piece hp (by omega) (by omega) hf, after_current hcur] at hs
  have hpos := piece_pos hp
  obtain ⟨t, ht1, ht2, ht3⟩ := extend_spec (cur.length + piece.length) aft (cur ++ piece)
  have hnl : '\n' ∉ cur ++ piece ++ t := by
    intro hc
    simp only [List.mem_append] at hc
    rcases hc with (hc | hc) | hc
    · exact hcur.1 hc
    · exact piece_no_newline hp hc
    · have := List.mem_takeWhile_imp (ht2.subset hc)
      simp at this
  obtain ⟨l, r, b, e1, h1, h2, h3, h4, h5, h6⟩ := cut_spec hpos hnl
  obtain ⟨r', b', e2, g1, g2, g3, g4, g5, g6, g7, g8⟩ := cutRight_spec hpos h1 h2 h3 h4 h5
  refine ⟨b', l, r' - l, ?_, g3, g4, by omega, g5, g6, g7, ?_⟩
  · unfold message
    simp only [hs]
    rw [if_pos (by omega)]
    simp only [if_true, ht1, e1, ok_bind, e2]
    unfold tildes
    rw [if_neg (by omega), ok_bind]
    unfold layout lineNumber
    rw [Fp.toDigits_eq, Fp.toDigits_eq]
  · intro hlen
    rcases ht3 with rfl | ht3
    · obtain ⟨rfl, rfl⟩ := h6 (by simp only [List.length_append] at hlen; omega)
      exact ⟨g8 (by omega), rfl⟩
    · have := ht2.length_le
      simp only [List.length_append] at hlen ht3
      omega

/-- **C83.** The message can always be written: no exception is thrown, whatever the input and the position. -/
theorem C83_total (text : List Char) (n : Nat) : ∃ t, message text n = .ok t := by
  have inv : ∀ (fuel todo : Nat) (st : Search), (st.l = st.r ∨ (st.l < st.r ∧ st.r ≤ st.buffer.length)) →
      ((search fuel todo st).l = (search fuel todo st).r ∨
        ((search fuel todo st).l < (search fuel todo st).r ∧ (search fuel todo st).r ≤ (search fuel todo st).buffer.length)) := by
    intro fuel
    induction fuel with
    | zero => intro todo st h; exact h
    | succ fuel ih =>
      intro todo st h
      rw [search]
      split
      · exact h
      · split
        · exact h
        · rename_i c rest _
          dsimp only
          split
          · split
            · exact .inl rfl
            · apply ih
              dsimp only
              split
              · by_cases he : (List.takeWhile (fun c => !isSpaceC c) (c :: rest)).length = 0
                · left; rw [List.length_append, he]; rfl
                · right; rw [List.length_append]; omega
              · exact .inl rfl
          · split
            · split
              · exact ih _ _ (.inl rfl)
              · right; simp
            · apply ih
              dsimp only
              split
              · right; simp
              · exact .inl rfl
  have h := inv n n { line := 1, l := 0, r := 0, buffer := [], extend := true, rest := text } (.inl rfl)
  unfold message
  generalize search n n { line := 1, l := 0, r := 0, buffer := [], extend := true, rest := text } = st at h
  dsimp only
  rcases h with h | ⟨h1, h2⟩
  · exact ⟨[], by rw [if_neg (by simp [h])]⟩
  · rw [if_pos (by omega)]
    have hlen : st.r ≤ (if st.extend then extend st.r st.rest st.buffer else st.buffer).length := by
      split
      · obtain ⟨t, ht, -⟩ := extend_spec st.r st.rest st.buffer
        rw [ht, List.length_append]; omega
      · exact h2
    generalize (if st.extend then extend st.r st.rest st.buffer else st.buffer) = b at hlen
    have hel : TEXT_ELLIPSIS.length = 5 := by decide
    obtain ⟨l, r, b', e1, g1, g2⟩ : ∃ l r b', cutLeft st.l st.r b = .ok (l, r, b') ∧ l < r ∧ (r ≤ 60 ∨ l ≤ 20) := by
      unfold cutLeft
      split
      · unfold substr
        dsimp only
        rw [hel, if_neg (by omega), ok_bind]
        exact ⟨_, _, _, rfl, by omega, by omega⟩
      · exact ⟨_, _, _, rfl, h1, by omega⟩
    have hr : l < (cutRight r b').1 := by
      unfold cutRight
      split
      · dsimp only
        rw [List.length_append, List.length_take, hel]
        omega
      · exact g1
    rw [e1, ok_bind]
    dsimp only
    unfold tildes
    rw [if_neg (by omega), ok_bind]
    exact ⟨_, rfl⟩

/-- **C83, refuted for newlines.** When the stream fails at a newline, the message names the line after the one that ends
there, though it shows that line. -/
theorem C83_newline_refuted (before aft cur : List Char) (hb : Closed before) (hcur : CurrentLine before cur) :
    ∃ excerpt col width, message (before ++ '\n' :: aft) (before.length + 1) =
      .ok (layout (natDecimal (lineNumber before + 1)) (natDecimal cur.length) excerpt col width) ∧
      (cur.length ≤ 59 → excerpt = cur ++ [' ']) := by
  obtain ⟨fuel', l0, r0, hf, hs⟩ := search_before ('\n' :: aft) 1 (by omega) _ before rfl hb (before.length + 1)
    { line := 1, l := 0, r := 0, buffer := [], extend := true, rest := before ++ '\n' :: aft } le_rfl rfl
  dsimp only at hs
  obtain ⟨fuel', rfl⟩ : ∃ f, fuel' = f + 1 := ⟨fuel' - 1, by omega⟩
  have step : search (fuel' + 1) 1 { line := 1 + before.count '\n', l := l0, r := r0, buffer := cur, extend := true, rest := '\n' :: aft } =
      { line := 1 + before.count '\n' + 1, l := cur.length, r := cur.length + 1, buffer := cur ++ [' '], extend := false, rest := aft } := by
    rw [search, if_neg (by omega)]
    dsimp only
    rw [if_neg (by decide), if_pos rfl, if_neg (by omega)]
  rw [after_current hcur, step] at hs
  have hnl : '\n' ∉ cur ++ [' '] ++ [] := by
    simp only [List.append_nil, List.mem_append, List.mem_singleton]
    rintro (h | h)
    · exact hcur.1 h
    · exact absurd h (by decide)
  obtain ⟨l, r, b, e1, h1, h2, h3, h4, h5, h6⟩ := cut_spec (piece := [' ']) (by simp) hnl
  obtain ⟨r', b', e2, g1, g2, g3, g4, g5, g6, g7, g8⟩ := cutRight_spec (piece := [' ']) (by simp) h1 h2 h3 h4 h5
  rw [List.append_nil, List.length_singleton] at e1
  rw [List.append_nil, List.length_singleton] at h6
  refine ⟨b', l, r' - l, ?_, ?_⟩
  · unfold message
    simp only [hs]
    rw [if_pos (by omega)]
    simp only [Bool.false_eq_true, if_false, e1, ok_bind, e2]
    unfold tildes
    rw [if_neg (by omega), ok_bind]
    unfold layout lineNumber
    rw [Fp.toDigits_eq, Fp.toDigits_eq]
  · intro hlen
    obtain ⟨rfl, rfl⟩ := h6 (by omega)
    exact g8 (by simp; omega)

/-- **C83, refuted for the last word.** When the stream fails in a word that reaches to the end of the input, nothing is written
about its position. -/
theorem C83_end_refuted (before piece : List Char) (hb : Closed before) (hp : Token piece) (hv : ∃ c r, piece = c :: r ∧ Visible c)
    (n : Nat) (hn : before.length < n) : message (before ++ piece) n = .ok [] := by
  obtain ⟨m, rfl⟩ : ∃ m, n = before.length + m := ⟨n - before.length, by omega⟩
  obtain ⟨fuel', l0, r0, hf, hs⟩ := search_before piece m (by omega) _ before rfl hb (before.length + m)
    { line := 1, l := 0, r := 0, buffer := [], extend := true, rest := before ++ piece } le_rfl rfl
  dsimp only at hs
  obtain ⟨fuel', rfl⟩ : ∃ f, fuel' = f + 1 := ⟨fuel' - 1, by omega⟩
  obtain ⟨c, p, rfl, hv⟩ := hv
  have hsp := token_split (aft := []) hp (by intro c t h; cases h)
  rw [List.append_nil] at hsp
  have step : ∀ st : Search, st.rest = c :: p → search (fuel' + 1) m st =
      { st with l := st.buffer.length, r := st.buffer.length, buffer := st.buffer ++ c :: p, rest := [] } := by
    intro st hst
    rw [search, if_neg (by omega), hst]
    dsimp only
    rw [if_pos ((isGraphC_iff c).2 hv), hsp.1, hsp.2, if_pos List.isEmpty_nil]
  rw [step _ rfl] at hs
  unfold message
  simp only [hs]
  rw [if_neg (by simp)]

example : message "1 2 3\n4 abc 6\n".toList 11 = .ok " Line: 2, Char: 2\n4 abc 6\n  ^~~".toList := by decide +kernel
example : message "1 2 3\n4 abc".toList 11 = .ok [] := by decide +kernel
example : message "1 2 3\n4 abc 6\n".toList 6 = .ok " Line: 2, Char: 5\n1 2 3 \n     ^".toList := by decide +kernel
example : message (("1\n".toList ++ List.replicate 70 'a') ++ " bcd".toList ++ (' ' :: List.replicate 30 'e')) 76 =
    .ok (layout ['2'] ['7', '1'] ("[...]".toList ++ List.replicate 51 'a' ++ " bcd ".toList ++ List.replicate 14 'e' ++ "[...]".toList) 57 3) := by decide +kernel

end ICPC.Props
