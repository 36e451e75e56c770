import Verif.Lemmas.PngDecode
import Verif.Lemmas.PngFill
import Verif.Lemmas.PngColor

/-!
# C61–C65: the PNG visualizer
-/

namespace ICPC.Props

open ICPC ICPC.Png Spec.PngFormat

/-! ## C61 -/

/-- **C61, partial.** `PNG::write` of an image of `w` by `h` pixels with `0 < w ≤ 16383` (the limit asserted by `clear`) writes a file from
which the decoder reads exactly the picture; the row numbered `h - 1` is on top. The full claim has no bound on `h`: missing are images
whose compressed data, `6 + h * (4 * w + 6)` bytes, do not fit into one chunk (see `C61_large_refuted`). -/
theorem C61_roundtrip_partial (t : PNG) (name : String) (hname : t.fileName = some name) (w h : Nat) (hr : Rect w h t.colors)
    (hw : 0 < w ∧ w ≤ 16383) (hh : 0 < h) (hsize : 6 + h * (4 * w + 6) < 2 ^ 31) :
    ∃ bytes, t.write = .ok (some (name, bytes)) ∧ decode bytes = some t.colors.reverse := by
  obtain ⟨r, h1, h2⟩ := decode_write t.colors w h hr hw.1 hw.2 hh hsize
  refine ⟨r.out, ?_, h2⟩
  unfold PNG.write
  rw [hname]
  simp only []
  rw [if_neg (by rw [rect_width hr hh]; omega), h1]
  rfl

/-- **C61, refutation for large images.** Within the limit on the width, an image whose data need between `2^31` and `2^32` bytes is
written to a file that is not a PNG file. -/
theorem C61_large_refuted (t : PNG) (name : String) (hname : t.fileName = some name) (w h : Nat) (hr : Rect w h t.colors)
    (hw : 0 < w ∧ w ≤ 16383) (hh : 0 < h) (hsize : 2 ^ 31 ≤ 6 + h * (4 * w + 6)) (hsize' : 6 + h * (4 * w + 6) < 2 ^ 32) :
    ∃ bytes, t.write = .ok (some (name, bytes)) ∧ decode bytes = none := by
  obtain ⟨r, h1, h2⟩ := decode_large t.colors w h hr hw.2 hh hsize hsize'
  refine ⟨r.out, ?_, h2⟩
  unfold PNG.write
  rw [hname]
  simp only []
  rw [if_neg (by rw [rect_width hr hh]; omega), h1]
  rfl

/-- Such images exist: 16383 by 40000 pixels. -/
example : ∃ t : PNG, Rect 16383 40000 t.colors ∧ 2 ^ 31 ≤ 6 + 40000 * (4 * 16383 + 6) ∧ 6 + 40000 * (4 * 16383 + 6) < 2 ^ 32 :=
  ⟨⟨some "a", List.replicate 40000 (List.replicate 16383 ⟨0, 0, 0, 0⟩)⟩,
    ⟨List.length_replicate, fun row h => by rw [List.eq_of_mem_replicate h, List.length_replicate]⟩, by decide, by decide⟩

/-- **C61, images.** `clear` makes an image of the given size in the given colour. -/
theorem C61_clear (t : PNG) (w h : Int) (fill : Color) (hw : 0 ≤ w ∧ w ≤ 16383) (hh : 0 ≤ h) :
    ∃ t', t.clear w h fill = .ok t' ∧ t'.fileName = t.fileName ∧ Rect w.toNat h.toNat t'.colors ∧
      ∀ p : Point, 0 ≤ p.x ∧ p.x < w ∧ 0 ≤ p.y ∧ p.y < h → at? t'.colors p = some fill := by
  refine ⟨{ t with colors := List.replicate h.toNat (List.replicate w.toNat fill) }, ?_, rfl, ?_, ?_⟩
  · unfold PNG.clear
    simp [judgeAssert, hw, hh, ok_bind, pure_out]
  · exact ⟨List.length_replicate, fun row h => by rw [List.eq_of_mem_replicate h, List.length_replicate]⟩
  · intro p hp
    unfold at?
    rw [if_pos (by omega), List.getElem?_replicate, if_pos (by omega), Option.bind_some, List.getElem?_replicate, if_pos (by omega)]

/-- **C61, no file.** Without a file name or without pixels nothing is written. -/
theorem C61_nofile (t : PNG) (h : t.fileName = none ∨ width t.colors = 0) : t.write = .ok none := by
  unfold PNG.write
  cases hn : t.fileName with
  | none => rfl
  | some name =>
    rcases h with h | h
    · rw [hn] at h; exact absurd h (by simp)
    · simp only []
      rw [if_pos h]

/-- A file of two rows, byte by byte (the checksums agree with those of zlib). -/
example : ((PNG.write ⟨some "x.png", [[⟨1, 2, 3, 4⟩], [⟨255, 254, 253, 252⟩]]⟩).map fun f => f.map Prod.snd) = .ok (some
    [0x89, 0x50, 0x4E, 0x47, 0x0D, 0x0A, 0x1A, 0x0A,
     0, 0, 0, 13, 0x49, 0x48, 0x44, 0x52, 0, 0, 0, 1, 0, 0, 0, 2, 8, 6, 0, 0, 0, 0x99, 0x81, 0xB6, 0x27,
     0, 0, 0, 26, 0x49, 0x44, 0x41, 0x54, 0x78, 0x01, 0, 5, 0, 0xFA, 0xFF, 0, 255, 254, 253, 252,
       1, 5, 0, 0xFA, 0xFF, 0, 1, 2, 3, 4, 0x1D, 0xD8, 0x04, 0x01, 0xDC, 0x53, 0x93, 0x1F,
     0, 0, 0, 0, 0x49, 0x45, 0x4E, 0x44, 0xAE, 0x42, 0x60, 0x82]) := by decide +kernel

/-- The decoder on that file. -/
example : (match PNG.write ⟨some "x.png", [[⟨1, 2, 3, 4⟩], [⟨255, 254, 253, 252⟩]]⟩ with
    | .ok (some (_, bytes)) => decode bytes | _ => none) = some [[⟨255, 254, 253, 252⟩], [⟨1, 2, 3, 4⟩]] := by decide +kernel

/-- The checksums of "123456789" (ISO 3309 and RFC 1950). -/
example : crc32 [0x31, 0x32, 0x33, 0x34, 0x35, 0x36, 0x37, 0x38, 0x39] = 0xCBF43926 ∧
    adler32 [0x31, 0x32, 0x33, 0x34, 0x35, 0x36, 0x37, 0x38, 0x39] = 0x091E01DE := by decide +kernel

/-! ## C62 -/

/-- **C62.** For all end points inside the image and every mode, `drawLine` ends and paints exactly the pixels of a digital line from `a`
to `b`, each of them once. (An image has fewer than `2^60` rows and columns since it is stored in vectors.) -/
theorem C62_drawLine (m : BlendMode) (im : Image) (w h : Nat) (hr : Rect w h im) (hw : w ≤ 2 ^ 60) (hh : h ≤ 2 ^ 60) (a b : Point)
    (fill : Color) (ha : 0 ≤ a.x ∧ a.x < w ∧ 0 ≤ a.y ∧ a.y < h) (hb : 0 ≤ b.x ∧ b.x < w ∧ 0 ≤ b.y ∧ b.y < h) :
    ∃ path im', IsLine a b path ∧ Painted m fill (· ∈ path) im im' ∧ Rect w h im' ∧
      ∀ fuel : Nat, max |b.x - a.x| |b.y - a.y| < (fuel : Int) → drawLine fuel m im a b fill = .ok im' :=
  drawLine_ok m im w h hr hw hh a b fill ha hb

/-- A line of slope 1/3, drawn from the right. -/
example : drawLine 10 .add (List.replicate 2 (List.replicate 4 ⟨1, 1, 1, 1⟩)) ⟨3, 1⟩ ⟨0, 0⟩ ⟨1, 0, 0, 0⟩ =
    .ok [[⟨2, 1, 1, 1⟩, ⟨2, 1, 1, 1⟩, ⟨1, 1, 1, 1⟩, ⟨1, 1, 1, 1⟩], [⟨1, 1, 1, 1⟩, ⟨1, 1, 1, 1⟩, ⟨2, 1, 1, 1⟩, ⟨2, 1, 1, 1⟩]] := by
  decide +kernel

/-! ## C63 -/

/-- **C63.** For every image, start point, mode and colour `floodFill` ends and paints exactly the 4-connected region of the colour of the
start point. -/
theorem C63_floodFill (m : BlendMode) (im : Image) (w h : Nat) (hr : Rect w h im) (p : Point) (fill : Color)
    (hp : 0 ≤ p.x ∧ p.x < w ∧ 0 ≤ p.y ∧ p.y < h) :
    ∃ im', Painted m fill (Region im p) im im' ∧ Rect w h im' ∧ ∀ fuel, h * w ≤ fuel → floodFill fuel m im p fill = .ok im' :=
  floodFill_ok m im w h hr p fill hp

/-- Corners do not connect. -/
example : (floodFill 9 .assign [[⟨1, 0, 0, 0⟩, ⟨1, 0, 0, 0⟩, ⟨2, 0, 0, 0⟩], [⟨2, 0, 0, 0⟩, ⟨2, 0, 0, 0⟩, ⟨1, 0, 0, 0⟩]] ⟨1, 0⟩ ⟨7, 7, 7, 7⟩) =
    .ok [[⟨7, 7, 7, 7⟩, ⟨7, 7, 7, 7⟩, ⟨2, 0, 0, 0⟩], [⟨2, 0, 0, 0⟩, ⟨2, 0, 0, 0⟩, ⟨1, 0, 0, 0⟩]] := by decide +kernel

/-! ## C64 -/

/-- **C64, refutation.** If a corner lies in row 2 or above, `fillRectangle` does not end, whatever the image, the colours and the mode:
`y = a.y or ...` in its condition (line 345) is an assignment. -/
theorem C64_diverges_refuted (m : BlendMode) (im : Image) (w h : Nat) (hr : Rect w h im) (a b : Point) (border fill : Color)
    (ha : 0 ≤ a.x ∧ a.x < w ∧ 0 ≤ a.y ∧ a.y < h) (hb : 0 ≤ b.x ∧ b.x < w ∧ 0 ≤ b.y ∧ b.y < h) (h2 : 2 ≤ a.y ∨ 2 ≤ b.y) :
    ∀ fuel, fillRectangle fuel m im a b border fill = .error .fuel := by
  intro fuel
  exact rectOuter_diverges m a b border fill w h (by omega) (by omega) (by omega) (by omega) fuel _ im hr (by omega)

/-- **C64, refutation.** If it ends it may paint the wrong pixels: row 1 in place of row 0 (undefined behaviour if there is no row 1), and
only one of two rows. -/
theorem C64_rows_refuted :
    fillRectangle 9 .assign [[⟨0, 0, 0, 0⟩], [⟨0, 0, 0, 0⟩]] ⟨0, 0⟩ ⟨0, 0⟩ ⟨1, 1, 1, 1⟩ ⟨2, 2, 2, 2⟩ = .ok [[⟨0, 0, 0, 0⟩], [⟨1, 1, 1, 1⟩]] ∧
    fillRectangle 9 .assign [[⟨0, 0, 0, 0⟩]] ⟨0, 0⟩ ⟨0, 0⟩ ⟨1, 1, 1, 1⟩ ⟨2, 2, 2, 2⟩ = .error .ub ∧
    fillRectangle 9 .assign [[⟨0, 0, 0, 0⟩], [⟨0, 0, 0, 0⟩]] ⟨0, 0⟩ ⟨0, 1⟩ ⟨1, 1, 1, 1⟩ ⟨2, 2, 2, 2⟩ = .ok [[⟨0, 0, 0, 0⟩], [⟨1, 1, 1, 1⟩]] ∧
    fillRectangle 9 .assign [[⟨0, 0, 0, 0⟩], [⟨0, 0, 0, 0⟩]] ⟨0, 1⟩ ⟨0, 0⟩ ⟨1, 1, 1, 1⟩ ⟨2, 2, 2, 2⟩ = .ok [[⟨0, 0, 0, 0⟩], [⟨1, 1, 1, 1⟩]] := by
  decide +kernel

/-- **C64, partial.** If both corners lie in row 1, the rectangle (which is all rim) is painted in the border colour. Missing: all other
rectangles, for which the claim is false. -/
theorem C64_row_partial (m : BlendMode) (im : Image) (w h : Nat) (hr : Rect w h im) (a b : Point) (border fill : Color)
    (ha : 0 ≤ a.x ∧ a.x < w ∧ a.y = 1) (hb : 0 ≤ b.x ∧ b.x < w ∧ b.y = 1) (hh : 1 < h) :
    (∀ q, InRect a b q ↔ OnRim a b q) ∧ ∃ im', Painted m border (OnRim a b) im im' ∧ Rect w h im' ∧
      ∀ fuel : Nat, |b.x - a.x| + 2 < (fuel : Int) → fillRectangle fuel m im a b border fill = .ok im' := by
  have hrim : ∀ q, InRect a b q ↔ OnRim a b q := by
    intro q
    unfold OnRim
    refine ⟨fun hq => ⟨hq, ?_⟩, And.left⟩
    unfold InRect at hq
    omega
  refine ⟨hrim, ?_⟩
  obtain ⟨im', h1, h2, h3⟩ := fillRectangle_row m im w h hr a b border fill ha hb hh
  refine ⟨im', ?_, h2, h3⟩
  intro q
  rw [← hrim]
  exact h1 q

example : fillRectangle 9 .assign [[⟨0, 0, 0, 0⟩, ⟨0, 0, 0, 0⟩], [⟨0, 0, 0, 0⟩, ⟨0, 0, 0, 0⟩]] ⟨1, 1⟩ ⟨0, 1⟩ ⟨1, 1, 1, 1⟩ ⟨2, 2, 2, 2⟩ =
    .ok [[⟨0, 0, 0, 0⟩, ⟨0, 0, 0, 0⟩], [⟨1, 1, 1, 1⟩, ⟨1, 1, 1, 1⟩]] := by decide +kernel

/-! ## C65 -/

/-- **C65, addition.** Saturating; opaque colours stay opaque. -/
theorem C65_add (a b : Color) : ((a.add b).r.toNat = min 255 (a.r.toNat + b.r.toNat) ∧ (a.add b).g.toNat = min 255 (a.g.toNat + b.g.toNat) ∧
    (a.add b).b.toNat = min 255 (a.b.toNat + b.b.toNat) ∧ (a.add b).a.toNat = min 255 (a.a.toNat + b.a.toNat)) ∧
    (a.a = 255 ∨ b.a = 255 → (a.add b).a = 255) := by
  have key : ∀ x y : Byte, (clampColor ((x.toNat : Int) + y.toNat)).toNat = min 255 (x.toNat + y.toNat) := by
    intro x y
    have := clampColor_toNat ((x.toNat : Int) + y.toNat)
    omega
  refine ⟨⟨key _ _, key _ _, key _ _, key _ _⟩, ?_⟩
  intro h
  apply BitVec.eq_of_toNat_eq
  unfold Color.add
  rw [key]
  have e : (255 : Byte).toNat = 255 := rfl
  rcases h with h | h <;> rw [h, e] <;> omega

/-- **C65, subtraction.** Saturating. -/
theorem C65_sub (a b : Color) : (a.sub b).r.toNat = a.r.toNat - b.r.toNat ∧ (a.sub b).g.toNat = a.g.toNat - b.g.toNat ∧
    (a.sub b).b.toNat = a.b.toNat - b.b.toNat ∧ (a.sub b).a.toNat = a.a.toNat - b.a.toNat := by
  have key : ∀ x y : Byte, (clampColor ((x.toNat : Int) - y.toNat)).toNat = x.toNat - y.toNat := by
    intro x y
    have := clampColor_toNat ((x.toNat : Int) - y.toNat)
    have := byte_le x
    omega
  exact ⟨key _ _, key _ _, key _ _, key _ _⟩

/-- **C65, blending.** `blend` never divides by zero; over an opaque colour the result is opaque; every channel lies between those of the
two colours. -/
theorem C65_blend (lower upper : Color) : ∃ c, Png.blend lower upper = .ok c ∧ (lower.a = 255 ∨ upper.a = 255 → c.a = 255) ∧
    (∀ ch ∈ [Color.r, Color.g, Color.b], min (ch lower).toNat (ch upper).toNat ≤ (ch c).toNat ∧
      (ch c).toNat ≤ max (ch lower).toNat (ch upper).toNat) ∧ upper.a.toNat ≤ c.a.toNat := by
  have h := combine_eq .blend lower upper
  have h : Png.blend lower upper = .ok (mix .blend lower upper) := h
  refine ⟨_, h, ?_⟩
  have hu := byte_le upper.a
  have hl := byte_le lower.a
  have e255 : ∀ x : Byte, x = 255 ↔ x.toNat = 255 := fun x => ⟨fun h => h ▸ rfl, fun h => BitVec.eq_of_toNat_eq h⟩
  simp only [e255]
  unfold mix
  simp only []
  split
  · rename_i h1
    refine ⟨fun _ => h1, ?_, le_rfl⟩
    intro ch _
    omega
  split
  · rename_i h1 h2
    refine ⟨?_, ?_, by omega⟩
    · rintro (h | h)
      · exact h
      · exact absurd h h1
    · intro ch _
      omega
  · rename_i h1 h2
    have hw := weight_le lower.a.toNat upper.a.toNat hl hu
    generalize hwt : lower.a.toNat * (255 - upper.a.toNat) / 255 = wt at *
    have hchan : ∀ x y : Byte, min x.toNat y.toNat ≤ (BitVec.ofNat 8 ((y.toNat * upper.a.toNat + x.toNat * wt) / (upper.a.toNat + wt))).toNat ∧
        (BitVec.ofNat 8 ((y.toNat * upper.a.toNat + x.toNat * wt) / (upper.a.toNat + wt))).toNat ≤ max x.toNat y.toNat := by
      intro x y
      have hm := mean_le x.toNat y.toNat upper.a.toNat wt (byte_le _) (byte_le _) (by omega)
      rw [BitVec.toNat_ofNat, Nat.mod_eq_of_lt (by omega)]
      constructor
      · rw [Nat.le_div_iff_mul_le (by omega), Nat.mul_add]
        have a1 := Nat.mul_le_mul_right upper.a.toNat (Nat.min_le_right x.toNat y.toNat)
        have a2 := Nat.mul_le_mul_right wt (Nat.min_le_left x.toNat y.toNat)
        omega
      · have a1 := Nat.mul_le_mul_right upper.a.toNat (Nat.le_max_right x.toNat y.toNat)
        have a2 := Nat.mul_le_mul_right wt (Nat.le_max_left x.toNat y.toNat)
        calc (y.toNat * upper.a.toNat + x.toNat * wt) / (upper.a.toNat + wt)
            ≤ (max x.toNat y.toNat * (upper.a.toNat + wt)) / (upper.a.toNat + wt) := Nat.div_le_div_right (by rw [Nat.mul_add]; omega)
          _ = max x.toNat y.toNat := Nat.mul_div_cancel _ (by omega)
    refine ⟨?_, ?_, ?_⟩
    · intro h
      rw [BitVec.toNat_ofNat, Nat.mod_eq_of_lt (by omega)]
      rcases h with h | h
      · rw [h, Nat.mul_div_cancel_left _ (by omega)] at hwt
        omega
      · exact absurd h h1
    · intro ch hch
      simp only [List.mem_cons, List.not_mem_nil, or_false] at hch
      rcases hch with rfl | rfl | rfl <;> exact hchan _ _
    · rw [BitVec.toNat_ofNat, Nat.mod_eq_of_lt (by omega)]
      omega

/-- **C65, scaling.** Every channel, including alpha, is the nearest integer cut off to `0..255`. (Beyond `2^54` the product may exceed
the range of `llround`.) -/
theorem C65_scale (c : Color) (f : Rat) (hf : |f| ≤ 2 ^ 54) : ∃ d, c.scale f = .ok d ∧ NearestByte (c.r.toNat * f) d.r ∧
    NearestByte (c.g.toNat * f) d.g ∧ NearestByte (c.b.toNat * f) d.b ∧ NearestByte (c.a.toNat * f) d.a := by
  refine ⟨_, scale_eq c hf, ?_, ?_, ?_, ?_⟩ <;> exact ⟨_, roundAway_near _, clampColor_toNat _⟩

/-- **C65, refutation.** Scaling does not leave opaque colours opaque. -/
theorem C65_scale_refuted : ∃ c d : Color, c.a = 255 ∧ c.scale (1 / 2) = .ok d ∧ d.a ≠ 255 :=
  ⟨⟨10, 20, 30, 255⟩, ⟨5, 10, 15, 128⟩, rfl, by decide +kernel, by decide⟩

/-- **C65, partial.** Scaling by at least 1 leaves opaque colours opaque. Missing: factors below 1, for which the claim is false. -/
theorem C65_scale_partial (c : Color) (f : Rat) (h1 : 1 ≤ f) (hf : f ≤ 2 ^ 54) (hc : c.a = 255) : ∃ d, c.scale f = .ok d ∧ d.a = 255 := by
  refine ⟨_, scale_eq c (by rw [abs_of_nonneg (by linarith)]; exact hf), ?_⟩
  apply BitVec.eq_of_toNat_eq
  have h := clampColor_toNat (roundAway (c.a.toNat * f))
  have hn : (255 : Int) ≤ roundAway (c.a.toNat * f) := by
    rw [hc]
    unfold roundAway
    have e : (((255 : Byte).toNat : Nat) : Rat) = 255 := by
      have e' : (255 : Byte).toNat = 255 := rfl
      rw [e']; norm_num
    rw [e, if_pos (by linarith)]
    exact Rat.le_floor_iff.2 (by push_cast; linarith)
  have e : (255 : Byte).toNat = 255 := rfl
  rw [e]
  simp only
  omega

/-- **C65, interpolation.** Every channel is within 1 of the exact value, and opaque colours give an opaque colour. -/
theorem C65_lerp (a b : Color) (f : Rat) (h0 : 0 ≤ f) (h1 : f ≤ 1) : ∃ c, lerp a b f = .ok c ∧ (a.a = 255 → b.a = 255 → c.a = 255) ∧
    ∀ ch ∈ [Color.r, Color.g, Color.b, Color.a], |((ch c).toNat : Rat) - ((ch a).toNat * f + (ch b).toNat * (1 - f))| ≤ 1 := by
  have e1 := scale_eq a (f := f) (by rw [abs_of_nonneg h0]; linarith)
  have e2 := scale_eq b (f := 1 - f) (by rw [abs_of_nonneg (by linarith)]; linarith)
  refine ⟨_, show lerp a b f = .ok _ from by
    unfold lerp
    rw [decide_eq_true h0, decide_eq_true h1, Bool.and_true, judgeAssert_true, ok_bind, e1, ok_bind, e2, ok_bind, pure_out], ?_, ?_⟩
  · intro ha hb
    apply BitVec.eq_of_toNat_eq
    unfold Color.add
    simp only
    rw [ha, hb]
    have h := clampColor_toNat (((clampColor (roundAway ((255 : Byte).toNat * f))).toNat : Int) +
      (clampColor (roundAway ((255 : Byte).toNat * (1 - f)))).toNat)
    have k1 := clampColor_toNat (roundAway ((255 : Byte).toNat * f))
    have k2 := clampColor_toNat (roundAway ((255 : Byte).toNat * (1 - f)))
    have k3 := round_parts 255 h0 h1
    have e : (255 : Byte).toNat = 255 := rfl
    rw [e] at h k1 k2 ⊢
    have e' : ((255 : Nat) : Int) = 255 := rfl
    rw [e'] at k3
    omega
  · intro ch hch
    simp only [List.mem_cons, List.not_mem_nil, or_false] at hch
    rcases hch with rfl | rfl | rfl | rfl <;> exact lerp_channel _ _ h0 h1

/-- The bound 1 is attained: interpolating between equal colours changes them. -/
example : lerp ⟨1, 3, 5, 255⟩ ⟨1, 3, 5, 255⟩ (1 / 2) = .ok ⟨2, 4, 6, 255⟩ := by decide +kernel

/-- Subtracting an opaque colour from an opaque colour gives a transparent one. -/
example : (Color.sub ⟨9, 9, 9, 255⟩ ⟨1, 2, 3, 255⟩) = ⟨8, 7, 6, 0⟩ := by decide

example : Png.blend ⟨0, 100, 200, 128⟩ ⟨200, 100, 0, 64⟩ = .ok ⟨80, 100, 119, 159⟩ := by decide

end ICPC.Props
