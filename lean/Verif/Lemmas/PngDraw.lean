import Verif.Spec.Png
import Mathlib.Tactic.Ring
import Mathlib.Tactic.Linarith
import Mathlib.Algebra.Order.Ring.Abs
import Mathlib.Data.List.Nodup

/-!
# Pixels, colours and `drawLine`
-/

namespace ICPC.Png

open Spec.PngFormat

/-! ## Mixing -/

theorem clampColor_nat (n : Nat) (h : n ≤ 255) : clampColor (n : Int) = BitVec.ofNat 8 n := by
  unfold clampColor
  rw [if_neg (by omega), if_neg (by omega), BitVec.ofInt_natCast]

theorem clampColor_min (n : Nat) : clampColor (n : Int) = BitVec.ofNat 8 (min 255 n) := by
  by_cases h : n ≤ 255
  · rw [clampColor_nat n h, Nat.min_eq_right h]
  · unfold clampColor
    rw [if_neg (by omega), if_pos (by omega), Nat.min_eq_left (by omega)]
    decide

theorem clampColor_sub (m n : Nat) (h : m ≤ 255) : clampColor ((m : Int) - n) = BitVec.ofNat 8 (m - n) := by
  by_cases hn : n ≤ m
  · rw [← Int.ofNat_sub hn, clampColor_nat _ (by omega)]
  · unfold clampColor
    rw [if_pos (by omega), Nat.sub_eq_zero_of_le (by omega)]
    rfl

theorem byte_le (x : Byte) : x.toNat ≤ 255 := by have := x.isLt; omega

theorem byte_eq {x : Byte} {n : Nat} (hn : n < 256) : x = BitVec.ofNat 8 n ↔ x.toNat = n := by
  constructor
  · rintro rfl; rw [BitVec.toNat_ofNat]; omega
  · intro h; rw [← h]; simp

/-- A weighted mean of bytes is a byte. -/
theorem mean_le (x y a l : Nat) (hx : x ≤ 255) (hy : y ≤ 255) (h : 0 < a + l) : (y * a + x * l) / (a + l) ≤ 255 := by
  have : y * a + x * l ≤ 255 * (a + l) := by
    have h1 := Nat.mul_le_mul_right a hy
    have h2 := Nat.mul_le_mul_right l hx
    omega
  calc (y * a + x * l) / (a + l) ≤ 255 * (a + l) / (a + l) := Nat.div_le_div_right this
    _ = 255 := Nat.mul_div_cancel _ h

theorem weight_le (x u : Nat) (hx : x ≤ 255) (hu : u ≤ 255) : u + x * (255 - u) / 255 ≤ 255 := by
  have : x * (255 - u) / 255 ≤ 255 - u := by
    calc x * (255 - u) / 255 ≤ 255 * (255 - u) / 255 := Nat.div_le_div_right (Nat.mul_le_mul_right _ hx)
      _ = 255 - u := Nat.mul_div_cancel_left _ (by omega)
  omega

/-- `combine` is total and computes the mixture. -/
theorem combine_eq (m : BlendMode) (lower upper : Color) : combine m lower upper = .ok (mix m lower upper) := by
  cases m with
  | assign => rfl
  | add =>
    unfold combine Color.add mix
    simp only [← Int.natCast_add, clampColor_min]
  | subtract =>
    unfold combine Color.sub mix
    simp only [clampColor_sub _ _ (byte_le _)]
  | blend =>
    unfold combine Png.blend mix
    have e1 : (upper.a = 0xFF#8) ↔ upper.a.toNat = 255 := byte_eq (by omega)
    have e2 : (upper.a = 0#8) ↔ upper.a.toNat = 0 := byte_eq (by omega)
    simp only [e1, e2]
    split
    · rfl
    split
    · rfl
    rename_i h1 h2
    have hu := byte_le upper.a
    have hw := weight_le lower.a.toNat upper.a.toNat (byte_le _) hu
    generalize hwt : lower.a.toNat * (255 - upper.a.toNat) / 255 = wt at *
    have hd : divInt ((lower.a.toNat : Int) * (0xFF - (upper.a.toNat : Int))) 0xFF = .ok (wt : Int) := by
      unfold divInt
      rw [if_neg (by omega), ← hwt]
      have : (0xFF : Int) - (upper.a.toNat : Int) = ((255 - upper.a.toNat : Nat) : Int) := by omega
      rw [this, ← Int.natCast_mul]
      rfl
    have hm : ∀ x y : Byte, divInt ((y.toNat : Int) * upper.a.toNat + x.toNat * (wt : Int)) (upper.a.toNat + (wt : Int)) =
        .ok (((y.toNat * upper.a.toNat + x.toNat * wt) / (upper.a.toNat + wt) : Nat) : Int) := by
      intro x y
      unfold divInt
      rw [if_neg (by omega), ← Int.natCast_mul, ← Int.natCast_mul, ← Int.natCast_add, ← Int.natCast_add]
      rfl
    rw [hd, ok_bind]
    simp only [hm, ok_bind, pure_out]
    rw [clampColor_nat _ (mean_le _ _ _ _ (byte_le _) (byte_le _) (by omega)),
      clampColor_nat _ (mean_le _ _ _ _ (byte_le _) (byte_le _) (by omega)),
      clampColor_nat _ (mean_le _ _ _ _ (byte_le _) (byte_le _) (by omega)), ← Int.natCast_add, clampColor_nat _ hw]

/-! ## Pixels -/

theorem getPixel_eq (im : Image) (p : Point) :
    getPixel im p.x p.y = match at? im p with | some c => .ok c | none => .error .ub := by
  unfold getPixel at?
  by_cases h : 0 ≤ p.x ∧ 0 ≤ p.y
  · rw [if_neg (by omega), if_pos h]
    cases im[p.y.toNat]? with
    | none => rfl
    | some row =>
      simp only [Option.bind_some]
      cases row[p.x.toNat]? <;> rfl
  · rw [if_pos (by omega), if_neg h]

theorem at_set (im : Image) (p q : Point) (c d : Color) (h : at? im p = some c) :
    at? (im.set p.y.toNat ((im.getD p.y.toNat []).set p.x.toNat d)) q = if q = p then some d else at? im q := by
  unfold at? at h ⊢
  split at h
  · rename_i hp
    cases hrow : im[p.y.toNat]? with
    | none => rw [hrow] at h; simp at h
    | some row =>
      rw [hrow, Option.bind_some] at h
      have hgd : im.getD p.y.toNat [] = row := by rw [List.getD_eq_getElem?_getD, hrow]; rfl
      have hlt : p.y.toNat < im.length := (List.getElem?_eq_some_iff.1 hrow).1
      have hlt' : p.x.toNat < row.length := (List.getElem?_eq_some_iff.1 h).1
      rw [hgd]
      by_cases hq : 0 ≤ q.x ∧ 0 ≤ q.y
      · rw [if_pos hq, if_pos hq]
        by_cases hy : q.y = p.y
        · rw [hy, List.getElem?_set_self hlt, Option.bind_some, hrow, Option.bind_some]
          by_cases hx : q.x = p.x
          · rw [hx, List.getElem?_set_self hlt', if_pos]
            cases p; cases q; simp_all
          · rw [List.getElem?_set_ne (by omega), if_neg]
            rintro rfl; exact hx rfl
        · rw [List.getElem?_set_ne (by omega), if_neg]
          rintro rfl; exact hy rfl
      · rw [if_neg hq, if_neg hq, if_neg]
        rintro rfl; exact hq hp
  · simp at h

theorem rect_set (im : Image) (p : Point) (c d : Color) (h : at? im p = some c) (w k : Nat) (hr : Rect w k im) :
    Rect w k (im.set p.y.toNat ((im.getD p.y.toNat []).set p.x.toNat d)) := by
  obtain ⟨h1, h2⟩ := hr
  refine ⟨by rw [List.length_set, h1], ?_⟩
  intro row hrow
  rcases List.mem_or_eq_of_mem_set hrow with h' | h'
  · exact h2 row h'
  · rw [h', List.length_set]
    unfold at? at h
    split at h
    · cases hrow : im[p.y.toNat]? with
      | none => rw [hrow] at h; simp at h
      | some row' =>
        have hgd : im.getD p.y.toNat [] = row' := by rw [List.getD_eq_getElem?_getD, hrow]; rfl
        rw [hgd]
        exact h2 _ (List.mem_of_getElem? hrow)
    · simp at h

/-- Painting one pixel. -/
theorem paint_ok (m : BlendMode) (im : Image) (p : Point) (fill c : Color) (h : at? im p = some c) :
    ∃ im', paint m im p.x p.y fill = .ok im' ∧ (∀ q, at? im' q = if q = p then some (mix m c fill) else at? im q) ∧
      ∀ w k, Rect w k im → Rect w k im' := by
  refine ⟨im.set p.y.toNat ((im.getD p.y.toNat []).set p.x.toNat (mix m c fill)), ?_,
    fun q => at_set im p q c _ h, fun w k hr => rect_set im p c _ h w k hr⟩
  unfold paint setPixel
  rw [getPixel_eq, h]
  simp only [ok_bind, combine_eq, pure_out]

theorem at_rect {w k : Nat} {im : Image} (hr : Rect w k im) (p : Point) :
    (∃ c, at? im p = some c) ↔ (0 ≤ p.x ∧ p.x < w ∧ 0 ≤ p.y ∧ p.y < k) := by
  obtain ⟨h1, h2⟩ := hr
  unfold at?
  constructor
  · rintro ⟨c, h⟩
    split at h
    · rename_i hp
      cases hrow : im[p.y.toNat]? with
      | none => rw [hrow] at h; simp at h
      | some row =>
        rw [hrow, Option.bind_some] at h
        have hlt : p.y.toNat < im.length := (List.getElem?_eq_some_iff.1 hrow).1
        have hlt' : p.x.toNat < row.length := (List.getElem?_eq_some_iff.1 h).1
        rw [h2 _ (List.mem_of_getElem? hrow)] at hlt'
        omega
    · simp at h
  · rintro ⟨a1, a2, a3, a4⟩
    rw [if_pos ⟨a1, a3⟩, List.getElem?_eq_getElem (by omega), Option.bind_some]
    have := h2 _ (List.getElem_mem (h := show p.y.toNat < im.length by omega))
    rw [List.getElem?_eq_getElem (by omega)]
    exact ⟨_, rfl⟩

/-- Painting the points of a list one after the other. -/
def paintList (m : BlendMode) (fill : Color) : List Point → Image → Out Image
  | [], im => .ok im
  | p :: ps, im => do
    let im ← paint m im p.x p.y fill
    paintList m fill ps im

theorem paintList_ok (m : BlendMode) (fill : Color) : ∀ (ps : List Point) (im : Image), ps.Nodup →
    (∀ p ∈ ps, ∃ c, at? im p = some c) →
    ∃ im', paintList m fill ps im = .ok im' ∧ Painted m fill (· ∈ ps) im im' ∧ ∀ w k, Rect w k im → Rect w k im' := by
  intro ps
  induction ps with
  | nil => intro im _ _; exact ⟨im, rfl, fun q => ⟨by simp, fun _ => rfl⟩, fun _ _ h => h⟩
  | cons p ps ih =>
    intro im hnd hin
    obtain ⟨c, hc⟩ := hin p List.mem_cons_self
    obtain ⟨im1, h1, h2, h3⟩ := paint_ok m im p fill c hc
    obtain ⟨hp, hnd'⟩ := List.nodup_cons.1 hnd
    obtain ⟨im2, g1, g2, g3⟩ := ih im1 hnd' (by
      intro q hq
      rw [h2]
      split
      · exact ⟨_, rfl⟩
      · exact hin q (List.mem_cons_of_mem _ hq))
    refine ⟨im2, by rw [paintList, h1, ok_bind, g1], ?_, fun w k h => g3 _ _ (h3 _ _ h)⟩
    intro q
    constructor
    · intro hq
      rcases List.mem_cons.1 hq with rfl | hq'
      · rw [(g2 q).2 hp, h2, if_pos rfl, hc]; rfl
      · rw [(g2 q).1 hq', h2, if_neg]
        rintro rfl
        exact hp hq'
    · intro hq
      have hq : ¬ q ∈ p :: ps := hq
      rw [List.mem_cons, not_or] at hq
      rw [(g2 q).2 hq.2, h2, if_neg hq.1]

/-! ## `drawLine` -/

/-- The point after `i` steps in x-direction and `j` steps in y-direction. -/
def pt (a : Point) (sx sy : Int) (q : Int × Int) : Point := ⟨a.x + sx * q.1, a.y + sy * q.2⟩

/-- One step, or a step in both directions. -/
def Step (p q : Int × Int) : Prop := (q.1 = p.1 ∨ q.1 = p.1 + 1) ∧ (q.2 = p.2 ∨ q.2 = p.2 + 1) ∧ p ≠ q

/-- The steps of the loop after `(i, j)`. -/
structure Walk (dx D : Int) (i j : Int) (qs : List (Int × Int)) : Prop where
  chain : ((i, j) :: qs).IsChain Step
  last : ((i, j) :: qs).getLast? = some (dx, D)
  mem : ∀ q ∈ qs, 0 ≤ q.1 ∧ q.1 ≤ dx ∧ 0 ≤ q.2 ∧ q.2 ≤ D ∧ -(max dx D) ≤ 2 * (q.2 * dx - q.1 * D) ∧
    2 * (q.2 * dx - q.1 * D) ≤ max dx D
  nodup : ((i, j) :: qs).Nodup
  grow : ∀ q ∈ qs, i ≤ q.1 ∧ j ≤ q.2 ∧ (i < q.1 ∨ j < q.2)

theorem Walk.cons {dx D i j i' j' : Int} {qs : List (Int × Int)} (h : Walk dx D i' j' qs) (hi : i' = i ∨ i' = i + 1)
    (hj : j' = j ∨ j' = j + 1) (hne : i' ≠ i ∨ j' ≠ j) (hb : 0 ≤ i' ∧ i' ≤ dx ∧ 0 ≤ j' ∧ j' ≤ D ∧
      -(max dx D) ≤ 2 * (j' * dx - i' * D) ∧ 2 * (j' * dx - i' * D) ≤ max dx D) : Walk dx D i j ((i', j') :: qs) := by
  have hgrow : ∀ q ∈ (i', j') :: qs, i ≤ q.1 ∧ j ≤ q.2 ∧ (i < q.1 ∨ j < q.2) := by
    intro q hq
    rcases List.mem_cons.1 hq with rfl | hq
    · dsimp only; omega
    · have := h.grow q hq; omega
  refine ⟨?_, ?_, ?_, ?_, hgrow⟩
  · refine List.IsChain.cons_cons ⟨hi, hj, ?_⟩ h.chain
    intro e
    simp only [Prod.mk.injEq] at e
    omega
  · have := h.last
    rw [List.getLast?_cons_cons]
    exact this
  · intro q hq
    rcases List.mem_cons.1 hq with rfl | hq
    · exact hb
    · exact h.mem q hq
  · refine List.nodup_cons.2 ⟨?_, h.nodup⟩
    intro hmem
    have := hgrow _ hmem
    dsimp only at this
    omega

/-- What is known about the two end points. -/
structure LineCfg (a b : Point) (dx D sx sy : Int) : Prop where
  bx : b.x = a.x + sx * dx
  byy : b.y = a.y + sy * D
  sx1 : sx = 1 ∨ sx = -1 ∨ (sx = 0 ∧ dx = 0)
  sy1 : sy = 1 ∨ sy = -1 ∨ (sy = 0 ∧ D = 0)
  dx0 : 0 ≤ dx ∧ dx < 2 ^ 60
  D0 : 0 ≤ D ∧ D < 2 ^ 60
  ax : 0 ≤ a.x ∧ a.x < 2 ^ 60
  ay : 0 ≤ a.y ∧ a.y < 2 ^ 60

theorem pt_eq {a b : Point} {dx D sx sy : Int} (h : LineCfg a b dx D sx sy) {i j : Int} (hi : 0 ≤ i ∧ i ≤ dx) (hj : 0 ≤ j ∧ j ≤ D) :
    pt a sx sy (i, j) = b ↔ i = dx ∧ j = D := by
  obtain ⟨hbx, hby, h1, h2, -, -, -, -⟩ := h
  have : pt a sx sy (i, j) = b ↔ a.x + sx * i = b.x ∧ a.y + sy * j = b.y := by
    cases b; unfold pt; simp
  rw [this, hbx, hby]
  constructor
  · rintro ⟨e1, e2⟩
    constructor
    · rcases h1 with rfl | rfl | ⟨rfl, h⟩ <;> omega
    · rcases h2 with rfl | rfl | ⟨rfl, h⟩ <;> omega
  · rintro ⟨rfl, rfl⟩
    exact ⟨rfl, rfl⟩

/-- One iteration of the loop. -/
theorem lineLoop_step {a b : Point} {dx D sx sy : Int} (h : LineCfg a b dx D sx sy) (m : BlendMode) (fill : Color) (i j : Int)
    (hi : 0 ≤ i ∧ i ≤ dx) (hj : 0 ≤ j ∧ j ≤ D) (hne : ¬ (i = dx ∧ j = D))
    (hinv : -(max dx D) ≤ 2 * (j * dx - i * D) ∧ 2 * (j * dx - i * D) ≤ max dx D) (i' j' : Int)
    (hi' : i' = if 2 * (j * dx - i * D) ≥ D - 2 * dx then i + 1 else i)
    (hj' : j' = if 2 * (j * dx - i * D) ≤ 2 * D - dx then j + 1 else j) (n : Nat) (im : Image) :
    lineLoop m fill dx (-D) sx sy b (n + 1) (pt a sx sy (i, j)) ((j + 1) * dx - (i + 1) * D) im =
      paint m im (pt a sx sy (i', j')).x (pt a sx sy (i', j')).y fill >>= fun im =>
        lineLoop m fill dx (-D) sx sy b n (pt a sx sy (i', j')) ((j' + 1) * dx - (i' + 1) * D) im := by
  have hc := (pt_eq h hi hj).not.2 hne
  obtain ⟨hbx, hby, h1, h2, ⟨d1, d2⟩, ⟨d3, d4⟩, ⟨a1, a2⟩, ⟨a3, a4⟩⟩ := h
  have hmax : max dx D ≤ dx + D := by omega
  have e1 : (j + 1) * dx = j * dx + dx := by ring
  have e2 : (i + 1) * D = i * D + D := by ring
  rw [e1, e2]
  have e3 : (i + 1 + 1) * D = i * D + D + D := by ring
  have e4 : (j + 1 + 1) * dx = j * dx + dx + dx := by ring
  have hx : ∀ k, 0 ≤ k → k ≤ dx + 1 → I64 (a.x + sx * k) := by
    intro k hk hk'
    unfold I64
    rcases h1 with rfl | rfl | ⟨rfl, -⟩ <;> omega
  have hy : ∀ k, 0 ≤ k → k ≤ D + 1 → I64 (a.y + sy * k) := by
    intro k hk hk'
    unfold I64
    rcases h2 with rfl | rfl | ⟨rfl, -⟩ <;> omega
  have hx1 : I64 (a.x + sx * i + sx) := by
    have := hx (i + 1) (by omega) (by omega)
    rwa [show a.x + sx * (i + 1) = a.x + sx * i + sx by ring] at this
  have hy1 : I64 (a.y + sy * j + sy) := by
    have := hy (j + 1) (by omega) (by omega)
    rwa [show a.y + sy * (j + 1) = a.y + sy * j + sy by ring] at this
  generalize hP : j * dx = P at *
  generalize hQ : i * D = Q at *
  rw [lineLoop, if_neg hc, chk_ok (by unfold I64; omega), ok_bind]
  by_cases c1 : 2 * (P - Q) ≥ D - 2 * dx
  · rw [if_pos c1] at hi'
    rw [if_pos (by omega), chk_ok (by unfold I64; omega), ok_bind]
    rw [show (pt a sx sy (i, j)).x = a.x + sx * i from rfl, chk_ok hx1, ok_bind, pure_out, ok_bind]
    by_cases c2 : 2 * (P - Q) ≤ 2 * D - dx
    · rw [if_pos c2] at hj'
      simp only []
      rw [if_pos (by omega), chk_ok (by unfold I64; omega), ok_bind]
      rw [show (pt a sx sy (i, j)).y = a.y + sy * j from rfl, chk_ok hy1, ok_bind, pure_out, ok_bind]
      have hpt : pt a sx sy (i', j') = ⟨a.x + sx * i + sx, a.y + sy * j + sy⟩ := by
        rw [hi', hj']; unfold pt; simp only [Point.mk.injEq]; refine ⟨?_, ?_⟩ <;> first | trivial | ring
      rw [hpt]
      have her : (j' + 1) * dx - (i' + 1) * D = P + dx - (Q + D) + -D + dx := by
        rw [hi', hj', e3, e4]; ring
      rw [her]
    · rw [if_neg c2] at hj'
      simp only []
      rw [if_neg (by omega), pure_out, ok_bind]
      have hpt : pt a sx sy (i', j') = ⟨a.x + sx * i + sx, a.y + sy * j⟩ := by
        rw [hi', hj']; unfold pt; simp only [Point.mk.injEq]; refine ⟨?_, ?_⟩ <;> first | trivial | ring
      rw [hpt]
      have her : (j' + 1) * dx - (i' + 1) * D = P + dx - (Q + D) + -D := by
        rw [hi', hj', e3, e1]; ring
      rw [her]
      rfl
  · rw [if_neg c1] at hi'
    rw [if_neg (by omega), pure_out, ok_bind]
    by_cases c2 : 2 * (P - Q) ≤ 2 * D - dx
    · rw [if_pos c2] at hj'
      simp only []
      rw [if_pos (by omega), chk_ok (by unfold I64; omega), ok_bind]
      rw [show (pt a sx sy (i, j)).y = a.y + sy * j from rfl, chk_ok hy1, ok_bind, pure_out, ok_bind]
      have hpt : pt a sx sy (i', j') = ⟨a.x + sx * i, a.y + sy * j + sy⟩ := by
        rw [hi', hj']; unfold pt; simp only [Point.mk.injEq]; refine ⟨?_, ?_⟩ <;> first | trivial | ring
      rw [hpt]
      have her : (j' + 1) * dx - (i' + 1) * D = P + dx - (Q + D) + dx := by
        rw [hi', hj', e2, e4]; ring
      rw [her]
      rfl
    · omega

/-- Lines that are at least as wide as high. -/
theorem lineLoop_x {a b : Point} {dx D sx sy : Int} (h : LineCfg a b dx D sx sy) (hD : D ≤ dx) (m : BlendMode) (fill : Color) :
    ∀ (k : Nat) (i j : Int), i + k = dx → 0 ≤ i → 0 ≤ j ∧ j ≤ D → -dx ≤ 2 * (j * dx - i * D) ∧ 2 * (j * dx - i * D) ≤ dx →
      ∃ qs, Walk dx D i j qs ∧ qs.length = k ∧ ∀ n, k < n → ∀ im,
        lineLoop m fill dx (-D) sx sy b n (pt a sx sy (i, j)) ((j + 1) * dx - (i + 1) * D) im =
          paintList m fill (qs.map (pt a sx sy)) im := by
  have hmax : max dx D = dx := by omega
  have h0 := h.dx0
  have h0' := h.D0
  intro k
  induction k with
  | zero =>
    intro i j hi hi0 hj hinv
    obtain rfl : i = dx := by omega
    have hj' : j = D := by
      rcases eq_or_lt_of_le h0.1 with h1 | h1
      · omega
      · by_contra hne
        have : j + 1 ≤ D := by omega
        have := Int.mul_le_mul_of_nonneg_right this h0.1
        have e : (j + 1) * i = j * i + i := by ring
        have e' : D * i = i * D := by ring
        omega
    subst hj'
    refine ⟨[], ⟨List.IsChain.singleton _, rfl, by simp, by simp, by simp⟩, rfl, ?_⟩
    intro n hn im
    obtain ⟨n, rfl⟩ : ∃ l, n = l + 1 := ⟨n - 1, by omega⟩
    rw [lineLoop, if_pos ((pt_eq h ⟨by omega, by omega⟩ ⟨by omega, by omega⟩).2 ⟨rfl, rfl⟩)]
    rfl
  | succ k ih =>
    intro i j hi hi0 hj hinv
    generalize hi' : (if 2 * (j * dx - i * D) ≥ D - 2 * dx then i + 1 else i) = i'
    generalize hj' : (if 2 * (j * dx - i * D) ≤ 2 * D - dx then j + 1 else j) = j'
    have hstep := lineLoop_step h m fill i j ⟨hi0, by omega⟩ hj (by omega) (by rw [hmax]; exact hinv) i' j' hi'.symm hj'.symm
    rw [if_pos (by omega)] at hi'
    subst hi'
    have e2 : (i + 1) * D = i * D + D := by ring
    have e1 : (j + 1) * dx = j * dx + dx := by ring
    have hinv' : -dx ≤ 2 * (j' * dx - (i + 1) * D) ∧ 2 * (j' * dx - (i + 1) * D) ≤ dx := by
      rw [e2]
      split at hj'
      · subst hj'; rw [e1]; omega
      · subst hj'; omega
    have hjD : j' ≤ D := by
      by_contra hlt
      have h1 : D + 1 ≤ j' := by omega
      have h2 := Int.mul_le_mul_of_nonneg_right h1 h0.1
      have h3 : (i + 1) * D ≤ dx * D := Int.mul_le_mul_of_nonneg_right (by omega) h0'.1
      have e : (D + 1) * dx = dx * D + dx := by ring
      omega
    have hj0 : (j' = j ∨ j' = j + 1) := by split at hj' <;> omega
    obtain ⟨qs, hw, hlen, hloop⟩ := ih (i + 1) j' (by omega) (by omega) ⟨by omega, hjD⟩ hinv'
    refine ⟨(i + 1, j') :: qs, hw.cons (Or.inr rfl) hj0 (by omega) ⟨by omega, by omega, by omega, hjD, by rw [hmax]; exact hinv'⟩,
      by simp [hlen], ?_⟩
    intro n hn im
    obtain ⟨n, rfl⟩ : ∃ l, n = l + 1 := ⟨n - 1, by omega⟩
    rw [hstep, List.map_cons, paintList]
    congr 1
    funext im
    exact hloop n (by omega) im

/-- Lines that are higher than wide. -/
theorem lineLoop_y {a b : Point} {dx D sx sy : Int} (h : LineCfg a b dx D sx sy) (hD : dx ≤ D) (m : BlendMode) (fill : Color) :
    ∀ (k : Nat) (i j : Int), j + k = D → 0 ≤ j → 0 ≤ i ∧ i ≤ dx → -D ≤ 2 * (j * dx - i * D) ∧ 2 * (j * dx - i * D) ≤ D →
      ∃ qs, Walk dx D i j qs ∧ qs.length = k ∧ ∀ n, k < n → ∀ im,
        lineLoop m fill dx (-D) sx sy b n (pt a sx sy (i, j)) ((j + 1) * dx - (i + 1) * D) im =
          paintList m fill (qs.map (pt a sx sy)) im := by
  have hmax : max dx D = D := by omega
  have h0 := h.dx0
  have h0' := h.D0
  intro k
  induction k with
  | zero =>
    intro i j hj hj0 hi hinv
    obtain rfl : j = D := by omega
    have hi' : i = dx := by
      rcases eq_or_lt_of_le h0'.1 with h1 | h1
      · omega
      · by_contra hne
        have : i + 1 ≤ dx := by omega
        have := Int.mul_le_mul_of_nonneg_right this h0'.1
        have e : (i + 1) * j = i * j + j := by ring
        have e' : dx * j = j * dx := by ring
        omega
    subst hi'
    refine ⟨[], ⟨List.IsChain.singleton _, rfl, by simp, by simp, by simp⟩, rfl, ?_⟩
    intro n hn im
    obtain ⟨n, rfl⟩ : ∃ l, n = l + 1 := ⟨n - 1, by omega⟩
    rw [lineLoop, if_pos ((pt_eq h ⟨by omega, by omega⟩ ⟨by omega, by omega⟩).2 ⟨rfl, rfl⟩)]
    rfl
  | succ k ih =>
    intro i j hj hj0 hi hinv
    generalize hi' : (if 2 * (j * dx - i * D) ≥ D - 2 * dx then i + 1 else i) = i'
    generalize hj' : (if 2 * (j * dx - i * D) ≤ 2 * D - dx then j + 1 else j) = j'
    have hstep := lineLoop_step h m fill i j hi ⟨hj0, by omega⟩ (by omega) (by rw [hmax]; exact hinv) i' j' hi'.symm hj'.symm
    rw [if_pos (by omega)] at hj'
    subst hj'
    have e2 : (i + 1) * D = i * D + D := by ring
    have e1 : (j + 1) * dx = j * dx + dx := by ring
    have hinv' : -D ≤ 2 * ((j + 1) * dx - i' * D) ∧ 2 * ((j + 1) * dx - i' * D) ≤ D := by
      rw [e1]
      split at hi'
      · subst hi'; rw [e2]; omega
      · subst hi'; omega
    have hiD : i' ≤ dx := by
      by_contra hlt
      have h1 : dx + 1 ≤ i' := by omega
      have h2 := Int.mul_le_mul_of_nonneg_right h1 h0'.1
      have h3 : (j + 1) * dx ≤ D * dx := Int.mul_le_mul_of_nonneg_right (by omega) h0.1
      have e : (dx + 1) * D = D * dx + D := by ring
      omega
    have hi0 : (i' = i ∨ i' = i + 1) := by split at hi' <;> omega
    obtain ⟨qs, hw, hlen, hloop⟩ := ih i' (j + 1) (by omega) (by omega) ⟨by omega, hiD⟩ hinv'
    refine ⟨(i', j + 1) :: qs, hw.cons hi0 (Or.inr rfl) (by omega) ⟨by omega, hiD, by omega, by omega, by rw [hmax]; exact hinv'⟩,
      by simp [hlen], ?_⟩
    intro n hn im
    obtain ⟨n, rfl⟩ : ∃ l, n = l + 1 := ⟨n - 1, by omega⟩
    rw [hstep, List.map_cons, paintList]
    congr 1
    funext im
    exact hloop n (by omega) im

theorem signNeg_cfg (u v : Int) : v = u + signNeg (u - v) * |v - u| ∧
    (signNeg (u - v) = 1 ∨ signNeg (u - v) = -1 ∨ (signNeg (u - v) = 0 ∧ |v - u| = 0)) := by
  unfold signNeg
  rcases Int.lt_trichotomy u v with h | h | h
  · rw [if_pos (by omega), if_neg (by omega), abs_of_pos (by omega)]
    constructor <;> omega
  · rw [if_neg (by omega), if_neg (by omega), h]
    simp
  · rw [if_neg (by omega), if_pos (by omega), abs_of_neg (by omega)]
    constructor <;> omega

theorem absI_eq {x : Int} (h : |x| < 2 ^ 63) : absI x = .ok |x| := by
  unfold absI
  have : (if x < 0 then -x else x) = |x| := by
    split
    · rw [abs_of_neg (by assumption)]
    · rw [abs_of_nonneg (by omega)]
  rw [this]
  exact chk_ok ⟨by have := abs_nonneg x; omega, h⟩

/-- The points of a walk form a line. -/
theorem isLine_of_walk {a b : Point} {dx D sx sy : Int} (h : LineCfg a b dx D sx sy) {qs : List (Int × Int)}
    (hw : Walk dx D 0 0 qs) (hlen : (qs.length : Int) = max dx D) : IsLine a b (((0, 0) :: qs).map (pt a sx sy)) := by
  obtain ⟨hbx, hby, h1, h2, ⟨d1, d2⟩, ⟨d3, d4⟩, ⟨a1, a2⟩, ⟨a3, a4⟩⟩ := h
  have habx : |b.x - a.x| = dx := by
    rw [hbx]
    rcases h1 with rfl | rfl | ⟨rfl, h⟩
    · rw [show a.x + 1 * dx - a.x = dx by ring, abs_of_nonneg d1]
    · rw [show a.x + -1 * dx - a.x = -dx by ring, abs_neg, abs_of_nonneg d1]
    · rw [h]; simp
  have haby : |b.y - a.y| = D := by
    rw [hby]
    rcases h2 with rfl | rfl | ⟨rfl, h⟩
    · rw [show a.y + 1 * D - a.y = D by ring, abs_of_nonneg d3]
    · rw [show a.y + -1 * D - a.y = -D by ring, abs_neg, abs_of_nonneg d3]
    · rw [h]; simp
  have hall : ∀ q ∈ ((0, 0) :: qs : List (Int × Int)), 0 ≤ q.1 ∧ q.1 ≤ dx ∧ 0 ≤ q.2 ∧ q.2 ≤ D ∧
      -(max dx D) ≤ 2 * (q.2 * dx - q.1 * D) ∧ 2 * (q.2 * dx - q.1 * D) ≤ max dx D := by
    intro q hq
    rcases List.mem_cons.1 hq with rfl | hq
    · simp only [Int.zero_mul]; omega
    · exact hw.mem q hq
  have hinj : ∀ q ∈ ((0, 0) :: qs : List (Int × Int)), ∀ q' ∈ ((0, 0) :: qs : List (Int × Int)), pt a sx sy q = pt a sx sy q' → q = q' := by
    intro q hq q' hq' e
    have b1 := hall q hq
    have b2 := hall q' hq'
    unfold pt at e
    simp only [Point.mk.injEq] at e
    obtain ⟨e1, e2⟩ := e
    have : q.1 = q'.1 := by rcases h1 with rfl | rfl | ⟨rfl, h⟩ <;> omega
    have : q.2 = q'.2 := by rcases h2 with rfl | rfl | ⟨rfl, h⟩ <;> omega
    exact Prod.ext (by assumption) (by assumption)
  refine ⟨?_, ?_, ?_, ?_, ?_, ?_, ?_⟩
  · simp [pt]
  · rw [List.getLast?_map, hw.last]
    simp only [Option.map_some, pt, ← hbx, ← hby]
  · rw [List.length_map, List.length_cons, habx, haby]
    omega
  · exact List.Nodup.map_on (fun x hx y hy e => hinj x hx y hy e) hw.nodup
  · rw [List.isChain_map]
    refine List.IsChain.imp_of_mem_imp ?_ hw.chain
    rintro p q hp hq ⟨s1, s2, s3⟩
    refine ⟨fun e => s3 (hinj p hp q hq e), ?_, ?_⟩
    · unfold pt
      rw [show a.x + sx * q.1 - (a.x + sx * p.1) = sx * (q.1 - p.1) by ring, abs_le]
      rcases h1 with rfl | rfl | ⟨rfl, h⟩ <;> omega
    · unfold pt
      rw [show a.y + sy * q.2 - (a.y + sy * p.2) = sy * (q.2 - p.2) by ring, abs_le]
      rcases h2 with rfl | rfl | ⟨rfl, h⟩ <;> omega
  · intro q hq
    obtain ⟨q, hq', rfl⟩ := List.mem_map.1 hq
    have b1 := hall q hq'
    unfold pt
    rw [hbx, hby]
    dsimp only
    refine ⟨?_, ?_, ?_, ?_⟩
    · rcases h1 with rfl | rfl | ⟨rfl, h⟩ <;> omega
    · rcases h1 with rfl | rfl | ⟨rfl, h⟩ <;> omega
    · rcases h2 with rfl | rfl | ⟨rfl, h⟩ <;> omega
    · rcases h2 with rfl | rfl | ⟨rfl, h⟩ <;> omega
  · intro q hq
    obtain ⟨q, hq', rfl⟩ := List.mem_map.1 hq
    have b1 := hall q hq'
    rw [habx, haby]
    unfold pt
    rw [hbx, hby]
    dsimp only
    have e : (a.y + sy * q.2 - a.y) * (a.x + sx * dx - a.x) - (a.x + sx * q.1 - a.x) * (a.y + sy * D - a.y) =
        (sx * sy) * (q.2 * dx - q.1 * D) := by ring
    rw [e]
    have habs : |(sx * sy) * (q.2 * dx - q.1 * D)| ≤ |q.2 * dx - q.1 * D| := by
      rw [abs_mul]
      have : |sx * sy| ≤ 1 := by
        rcases h1 with rfl | rfl | ⟨rfl, h⟩ <;> rcases h2 with rfl | rfl | ⟨rfl, h'⟩ <;> decide
      calc |sx * sy| * |q.2 * dx - q.1 * D| ≤ 1 * |q.2 * dx - q.1 * D| := Int.mul_le_mul_of_nonneg_right this (abs_nonneg _)
        _ = _ := one_mul _
    have : 2 * |q.2 * dx - q.1 * D| ≤ max dx D := by
      rcases abs_cases (q.2 * dx - q.1 * D) with ⟨e, -⟩ | ⟨e, -⟩ <;> rw [e] <;> omega
    omega

/-- `drawLine` paints a line. -/
theorem drawLine_ok (m : BlendMode) (im : Image) (w k : Nat) (hr : Rect w k im) (hw : w ≤ 2 ^ 60) (hk : k ≤ 2 ^ 60) (a b : Point)
    (fill : Color) (ha : 0 ≤ a.x ∧ a.x < w ∧ 0 ≤ a.y ∧ a.y < k) (hb : 0 ≤ b.x ∧ b.x < w ∧ 0 ≤ b.y ∧ b.y < k) :
    ∃ path im', IsLine a b path ∧ Painted m fill (· ∈ path) im im' ∧ Rect w k im' ∧
      ∀ fuel : Nat, max |b.x - a.x| |b.y - a.y| < (fuel : Int) → drawLine fuel m im a b fill = .ok im' := by
  have hx : |b.x - a.x| < 2 ^ 60 := by rw [abs_lt]; omega
  have hy : |b.y - a.y| < 2 ^ 60 := by rw [abs_lt]; omega
  have hx0 := abs_nonneg (b.x - a.x)
  have hy0 := abs_nonneg (b.y - a.y)
  obtain ⟨x1, x2⟩ := signNeg_cfg a.x b.x
  obtain ⟨y1, y2⟩ := signNeg_cfg a.y b.y
  have cfg : LineCfg a b |b.x - a.x| |b.y - a.y| (signNeg (a.x - b.x)) (signNeg (a.y - b.y)) :=
    ⟨x1, y1, x2, y2, ⟨hx0, hx⟩, ⟨hy0, hy⟩, by omega, by omega⟩
  have hdl : ∀ fuel, drawLine fuel m im a b fill = paint m im a.x a.y fill >>= fun im =>
      lineLoop m fill |b.x - a.x| (-|b.y - a.y|) (signNeg (a.x - b.x)) (signNeg (a.y - b.y)) b fuel a (|b.x - a.x| + -|b.y - a.y|) im := by
    intro fuel
    unfold drawLine
    rw [chk_ok (by unfold I64; omega), ok_bind, absI_eq (by omega), ok_bind, chk_ok (by unfold I64; omega), ok_bind,
      chk_ok (by unfold I64; omega), ok_bind, absI_eq (by omega), ok_bind, chk_ok (by unfold I64; omega), ok_bind,
      chk_ok (by unfold I64; omega), ok_bind, chk_ok (by unfold I64; omega), ok_bind]
  generalize hsx : signNeg (a.x - b.x) = sx at *
  generalize hsy : signNeg (a.y - b.y) = sy at *
  generalize hdx : |b.x - a.x| = dx at *
  generalize hD : |b.y - a.y| = D at *
  have hwalk : ∃ qs, Walk dx D 0 0 qs ∧ (qs.length : Int) = max dx D ∧ ∀ n : Nat, max dx D < (n : Int) → ∀ im,
      lineLoop m fill dx (-D) sx sy b n (pt a sx sy (0, 0)) ((0 + 1) * dx - (0 + 1) * D) im = paintList m fill (qs.map (pt a sx sy)) im := by
    rcases le_total D dx with h | h
    · obtain ⟨qs, h1, h2, h3⟩ := lineLoop_x cfg h m fill dx.toNat 0 0 (by omega) (by omega) (by omega) (by omega)
      exact ⟨qs, h1, by omega, fun n hn => h3 n (by omega)⟩
    · obtain ⟨qs, h1, h2, h3⟩ := lineLoop_y cfg h m fill D.toNat 0 0 (by omega) (by omega) (by omega) (by omega)
      exact ⟨qs, h1, by omega, fun n hn => h3 n (by omega)⟩
  obtain ⟨qs, h1, h2, h3⟩ := hwalk
  have hline := isLine_of_walk cfg h1 h2
  obtain ⟨im', p1, p2, p3⟩ := paintList_ok m fill (((0, 0) :: qs).map (pt a sx sy)) im hline.nodup (by
    intro q hq
    rw [at_rect hr]
    have := hline.box q hq
    omega)
  refine ⟨_, im', hline, p2, p3 w k hr, ?_⟩
  intro fuel hf
  rw [hdl, ← p1, List.map_cons, paintList]
  have e : pt a sx sy (0, 0) = a := by cases a; simp [pt]
  rw [e]
  congr 1
  funext im
  have := h3 fuel hf im
  rw [e, show (0 + 1) * dx - (0 + 1) * D = dx + -D by ring] at this
  exact this

end ICPC.Png
