import Verif.Spec.Svg
import Mathlib.Tactic.Linarith
import Mathlib.Tactic.SplitIfs
import Mathlib.Tactic.Positivity
import Mathlib.Algebra.Order.Ring.Abs
import Mathlib.Algebra.Order.Field.Rat

/-!
# The bounding box and colours
-/

namespace ICPC.Svg

open Spec.SvgFormat

/-- A point of the drawing in the box. -/
def Box.Has (s : Box) (p : Point) : Prop :=
  s.origin.x ≤ p.x ∧ p.x ≤ s.origin.x + s.dimension.width ∧ s.origin.y ≤ p.y ∧ p.y ≤ s.origin.y + s.dimension.height

theorem inView_iff (s : Box) (p : Point) : InView s.viewBox (shown p) ↔ s.Has p := by
  unfold InView shown Box.viewBox Box.Has flipY
  dsimp only
  constructor
  · rintro ⟨h1, h2, h3, h4⟩
    refine ⟨h1, h2, ?_, ?_⟩ <;> linarith
  · rintro ⟨h1, h2, h3, h4⟩
    refine ⟨h1, h2, ?_, ?_⟩ <;> linarith

/-- The box is not empty. -/
def Box.Ok (s : Box) : Prop := 0 ≤ s.dimension.width ∧ 0 ≤ s.dimension.height

theorem include_spec (s : Box) (p : Point) (hs : s.Ok) : (s.includeInBB p).Ok ∧
    (s.includeInBB p).origin.x = min s.origin.x p.x ∧ (s.includeInBB p).origin.y = min s.origin.y p.y ∧
    (s.includeInBB p).origin.x + (s.includeInBB p).dimension.width = max (s.origin.x + s.dimension.width) p.x ∧
    (s.includeInBB p).origin.y + (s.includeInBB p).dimension.height = max (s.origin.y + s.dimension.height) p.y := by
  obtain ⟨hw, hh⟩ := hs
  obtain ⟨⟨ox, oy⟩, ⟨w, h⟩⟩ := s
  obtain ⟨px, py⟩ := p
  dsimp only at hw hh
  have mm : ∀ a b c : Rat, (a = min b c ↔ (a = b ∧ b ≤ c) ∨ (a = c ∧ c ≤ b)) := by
    intro a b c
    rcases le_total b c with h | h
    · rw [min_eq_left h]
      constructor
      · intro e; exact Or.inl ⟨e, h⟩
      · rintro (⟨e, -⟩ | ⟨e, h'⟩); exacts [e, by rw [e]; exact le_antisymm h' h]
    · rw [min_eq_right h]
      constructor
      · intro e; exact Or.inr ⟨e, h⟩
      · rintro (⟨e, h'⟩ | ⟨e, -⟩); exacts [by rw [e]; exact le_antisymm h' h, e]
  have mx : ∀ a b c : Rat, (a = max b c ↔ (a = b ∧ c ≤ b) ∨ (a = c ∧ b ≤ c)) := by
    intro a b c
    rcases le_total b c with h | h
    · rw [max_eq_right h]
      constructor
      · intro e; exact Or.inr ⟨e, h⟩
      · rintro (⟨e, h'⟩ | ⟨e, -⟩); exacts [by rw [e]; exact le_antisymm h h', e]
    · rw [max_eq_left h]
      constructor
      · intro e; exact Or.inl ⟨e, h⟩
      · rintro (⟨e, -⟩ | ⟨e, h'⟩); exacts [e, by rw [e]; exact le_antisymm h h']
  unfold Box.includeInBB Box.Ok
  dsimp only
  simp only [mm, mx]
  split_ifs <;> dsimp only at * <;>
    first
    | (exfalso; linarith)
    | (refine ⟨⟨by linarith, by linarith⟩, ?_, ?_, ?_, ?_⟩ <;>
        first | exact Or.inl ⟨by linarith, by linarith⟩ | exact Or.inr ⟨by linarith, by linarith⟩)

theorem include_has (s : Box) (p : Point) (hs : s.Ok) : (s.includeInBB p).Has p := by
  obtain ⟨-, h1, h2, h3, h4⟩ := include_spec s p hs
  refine ⟨?_, ?_, ?_, ?_⟩
  · rw [h1]; exact min_le_right _ _
  · rw [h3]; exact le_max_right _ _
  · rw [h2]; exact min_le_right _ _
  · rw [h4]; exact le_max_right _ _

theorem include_mono (s : Box) (p q : Point) (hs : s.Ok) (h : s.Has q) : (s.includeInBB p).Has q := by
  obtain ⟨-, h1, h2, h3, h4⟩ := include_spec s p hs
  obtain ⟨g1, g2, g3, g4⟩ := h
  refine ⟨?_, ?_, ?_, ?_⟩
  · rw [h1]; exact le_trans (min_le_left _ _) g1
  · rw [h3]; exact le_trans g2 (le_max_left _ _)
  · rw [h2]; exact le_trans (min_le_left _ _) g3
  · rw [h4]; exact le_trans g4 (le_max_left _ _)

/-- The box lies in the box with these sides. -/
def Box.Within (s : Box) (l r b t : Rat) : Prop :=
  l ≤ s.origin.x ∧ s.origin.x + s.dimension.width ≤ r ∧ b ≤ s.origin.y ∧ s.origin.y + s.dimension.height ≤ t

theorem include_least (s : Box) (p : Point) (hs : s.Ok) (l r b t : Rat) (h : s.Within l r b t) (hp : l ≤ p.x ∧ p.x ≤ r ∧ b ≤ p.y ∧ p.y ≤ t) :
    (s.includeInBB p).Within l r b t := by
  obtain ⟨-, h1, h2, h3, h4⟩ := include_spec s p hs
  obtain ⟨g1, g2, g3, g4⟩ := h
  obtain ⟨k1, k2, k3, k4⟩ := hp
  refine ⟨?_, ?_, ?_, ?_⟩
  · rw [h1]; exact le_min g1 k1
  · rw [h3]; exact max_le g2 k2
  · rw [h2]; exact le_min g3 k3
  · rw [h4]; exact max_le g4 k4

theorem fold_spec (ps : List Point) : ∀ s : Box, s.Ok → (ps.foldl Box.includeInBB s).Ok ∧
    (∀ p ∈ ps, (ps.foldl Box.includeInBB s).Has p) ∧ (∀ q, s.Has q → (ps.foldl Box.includeInBB s).Has q) ∧
    ∀ l r b t, s.Within l r b t → (∀ p ∈ ps, l ≤ p.x ∧ p.x ≤ r ∧ b ≤ p.y ∧ p.y ≤ t) → (ps.foldl Box.includeInBB s).Within l r b t := by
  induction ps with
  | nil => intro s hs; exact ⟨hs, by simp, fun _ h => h, fun _ _ _ _ h _ => h⟩
  | cons p ps ih =>
    intro s hs
    obtain ⟨h1, h2, h3, h4⟩ := ih (s.includeInBB p) (include_spec s p hs).1
    rw [List.foldl_cons]
    refine ⟨h1, ?_, fun q hq => h3 q (include_mono s p q hs hq), ?_⟩
    · intro q hq
      rcases List.mem_cons.1 hq with rfl | hq
      · exact h3 q (include_has s q hs)
      · exact h2 q hq
    · intro l r b t hw hall
      exact h4 l r b t (include_least s p hs l r b t hw (hall p List.mem_cons_self)) (fun q hq => hall q (List.mem_cons_of_mem _ hq))

/-- The points included for a shape, in the order of the calls. -/
def pts : Shape → List Point
  | .rectangle o d => [o, o.add d]
  | .circle o r => [o.add ⟨r, r⟩, o.add ⟨-r, -r⟩]
  | .ellipse o rx ry => [o.add ⟨rx, ry⟩, o.add ⟨-rx, -ry⟩]
  | .polygon ps => ps
  | .line p1 p2 => [p1, p2]
  | .polyline ps => ps

theorem draw_eq (s : Box) (sh : Shape) : s.draw sh = (pts sh).foldl Box.includeInBB s := by cases sh <;> rfl

theorem mem_pts (sh : Shape) (p : Point) : p ∈ pts sh ↔ p ∈ extreme sh := by
  cases sh <;> simp only [pts, extreme, Point.add, List.mem_cons, List.not_mem_nil, or_false, sub_eq_add_neg] <;> exact or_comm

theorem drawAll_eq (shapes : List Shape) : Box.drawAll shapes = (shapes.flatMap pts).foldl Box.includeInBB {} := by
  unfold Box.drawAll
  generalize ({} : Box) = s
  induction shapes generalizing s with
  | nil => rfl
  | cons sh shapes ih => rw [List.foldl_cons, ih, List.flatMap_cons, List.foldl_append, draw_eq]

theorem ok_new : (({} : Box)).Ok := ⟨le_refl 0, le_refl 0⟩

theorem drawAll_has (shapes : List Shape) (sh : Shape) (hsh : sh ∈ shapes) (p : Point) (hp : p ∈ extreme sh) :
    (Box.drawAll shapes).Has p := by
  rw [drawAll_eq]
  exact (fold_spec _ _ ok_new).2.1 p (List.mem_flatMap.2 ⟨sh, hsh, (mem_pts sh p).2 hp⟩)

theorem drawAll_least (shapes : List Shape) (l r b t : Rat) (h0 : l ≤ 0 ∧ 0 ≤ r ∧ b ≤ 0 ∧ 0 ≤ t)
    (h : ∀ sh ∈ shapes, ∀ p ∈ extreme sh, l ≤ p.x ∧ p.x ≤ r ∧ b ≤ p.y ∧ p.y ≤ t) : (Box.drawAll shapes).Within l r b t := by
  rw [drawAll_eq]
  refine (fold_spec _ _ ok_new).2.2.2 l r b t ⟨h0.1, ?_, h0.2.2.1, ?_⟩ ?_
  · change (0 : Rat) + 0 ≤ r
    rw [add_zero]; exact h0.2.1
  · change (0 : Rat) + 0 ≤ t
    rw [add_zero]; exact h0.2.2.2
  · intro p hp
    obtain ⟨sh, hsh, hp⟩ := List.mem_flatMap.1 hp
    exact h sh hsh p ((mem_pts sh p).1 hp)

/-- A box that has two opposite corners of an axis-parallel rectangle has everything between them. -/
theorem has_between {s : Box} {p q r : Point} (hp : s.Has p) (hq : s.Has q) (hx : min p.x q.x ≤ r.x ∧ r.x ≤ max p.x q.x)
    (hy : min p.y q.y ≤ r.y ∧ r.y ≤ max p.y q.y) : s.Has r := by
  obtain ⟨p1, p2, p3, p4⟩ := hp
  obtain ⟨q1, q2, q3, q4⟩ := hq
  exact ⟨le_trans (le_min p1 q1) hx.1, le_trans hx.2 (max_le p2 q2), le_trans (le_min p3 q3) hy.1, le_trans hy.2 (max_le p4 q4)⟩

theorem between_of_sq {c r v : Rat} (h : (v - c) ^ 2 ≤ r ^ 2) : min (c - r) (c + r) ≤ v ∧ v ≤ max (c - r) (c + r) := by
  have := abs_le.1 (sq_le_sq.1 h)
  rcases le_total 0 r with hr | hr
  · rw [abs_of_nonneg hr] at this
    rw [min_eq_left (by linarith), max_eq_right (by linarith)]
    constructor <;> linarith [this.1, this.2]
  · rw [abs_of_nonpos hr] at this
    rw [min_eq_right (by linarith), max_eq_left (by linarith)]
    constructor <;> linarith [this.1, this.2]

theorem has_hull {s : Box} {ps : List Point} (h : ∀ p ∈ ps, s.Has p) {p : Point} (hp : Hull ps p) : s.Has p := by
  induction hp with
  | point p hp => exact h p hp
  | mix p q t _ _ h0 h1 hp hq =>
    refine has_between hp hq ?_ ?_
    · constructor
      · rcases le_total p.x q.x with h | h
        · rw [min_eq_left h]; nlinarith
        · rw [min_eq_right h]; nlinarith
      · rcases le_total p.x q.x with h | h
        · rw [max_eq_right h]; nlinarith
        · rw [max_eq_left h]; nlinarith
    · constructor
      · rcases le_total p.y q.y with h | h
        · rw [min_eq_left h]; nlinarith
        · rw [min_eq_right h]; nlinarith
      · rcases le_total p.y q.y with h | h
        · rw [max_eq_right h]; nlinarith
        · rw [max_eq_left h]; nlinarith

theorem has_covers {s : Box} {sh : Shape} (h : ∀ p ∈ extreme sh, s.Has p) {p : Point} (hp : Covers sh p) : s.Has p := by
  cases sh with
  | rectangle o d =>
    obtain ⟨h1, h2, h3, h4⟩ := hp
    exact has_between (h o (by simp [extreme])) (h ⟨o.x + d.width, o.y + d.height⟩ (by simp [extreme]))
      ⟨le_trans (min_le_left _ _) h1, le_trans h2 (le_max_right _ _)⟩ ⟨le_trans (min_le_left _ _) h3, le_trans h4 (le_max_right _ _)⟩
  | circle o r =>
    have hp : (p.x - o.x) ^ 2 + (p.y - o.y) ^ 2 ≤ r ^ 2 := hp
    exact has_between (h ⟨o.x - r, o.y - r⟩ (by simp [extreme])) (h ⟨o.x + r, o.y + r⟩ (by simp [extreme]))
      (between_of_sq (by nlinarith [sq_nonneg (p.y - o.y)])) (between_of_sq (by nlinarith [sq_nonneg (p.x - o.x)]))
  | ellipse o rx ry =>
    obtain ⟨hp, hx, hy⟩ := hp
    have hx2 : 0 < rx ^ 2 := by positivity
    have hy2 : 0 < ry ^ 2 := by positivity
    refine has_between (h ⟨o.x - rx, o.y - ry⟩ (by simp [extreme])) (h ⟨o.x + rx, o.y + ry⟩ (by simp [extreme]))
      (between_of_sq ?_) (between_of_sq ?_)
    · have : (p.x - o.x) ^ 2 * ry ^ 2 ≤ rx ^ 2 * ry ^ 2 := by
        have := mul_nonneg (sq_nonneg (p.y - o.y)) (le_of_lt hx2)
        linarith
      exact le_of_mul_le_mul_right this hy2
    · have : (p.y - o.y) ^ 2 * rx ^ 2 ≤ ry ^ 2 * rx ^ 2 := by
        have := mul_nonneg (sq_nonneg (p.x - o.x)) (le_of_lt hy2)
        linarith
      exact le_of_mul_le_mul_right this hx2
  | polygon ps => exact has_hull h hp
  | line p1 p2 => exact has_hull h hp
  | polyline ps => exact has_hull h hp

/-! ## Colours as text -/

theorem hex_pair (x : Png.Byte) : ∃ c d, hexByte x = [c, d] ∧ hexPair c d = some x := by
  have h : ∀ n < 256, ∃ c d, hexByte (BitVec.ofNat 8 n) = [c, d] ∧ hexPair c d = some (BitVec.ofNat 8 n) := by
    intro n hn
    have hall : (List.range 256).all (fun n => match hexByte (BitVec.ofNat 8 n) with
        | [c, d] => hexPair c d == some (BitVec.ofNat 8 n)
        | _ => false) = true := by decide +kernel
    have := List.all_eq_true.1 hall n (List.mem_range.2 hn)
    split at this
    · rename_i c d heq
      exact ⟨c, d, heq, by simpa using this⟩
    · exact absurd this (by simp)
  have := h x.toNat x.isLt
  simpa using this

theorem parse_print (c : Color) : parseColor c.print = some c := by
  obtain ⟨r1, r2, hr, hr'⟩ := hex_pair c.r
  obtain ⟨g1, g2, hg, hg'⟩ := hex_pair c.g
  obtain ⟨b1, b2, hb, hb'⟩ := hex_pair c.b
  unfold Color.print
  rw [hr, hg, hb]
  simp [parseColor, hr', hg', hb']

end ICPC.Svg
