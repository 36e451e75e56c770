import Verif.Spec.Png

/-!
# The file written by `PNGWriter`
-/

namespace ICPC.Png

open Spec.PngFormat

/-! ## CRC-32 -/

theorem crcBit_even {c : BitVec 32} (h : c.getLsbD 0 = false) : crcBit c = c >>> 1 := by
  unfold crcBit
  rw [if_neg]
  intro h1
  have := congrArg (·.getLsbD 0) h1
  simp only [BitVec.getLsbD_and, h, Bool.false_and] at this
  exact absurd this (by decide)

/-- Four bits at a time. -/
def crcBit4 (c : BitVec 32) : BitVec 32 := crcBit (crcBit (crcBit (crcBit c)))

theorem crcBit_xor (a b : BitVec 32) : crcBit (a ^^^ b) = crcBit a ^^^ crcBit b := by
  unfold crcBit
  have h : ∀ c : BitVec 32, (c &&& 1#32 = 1#32) ↔ c.getLsbD 0 = true := by
    intro c
    constructor
    · intro h
      have := congrArg (·.getLsbD 0) h
      simpa using this
    · intro h
      apply BitVec.eq_of_getLsbD_eq
      intro i hi
      rcases Nat.eq_zero_or_pos i with rfl | h0
      · simpa using h
      · rw [BitVec.getLsbD_and]
        have : (1#32).getLsbD i = false := by
          have h1 : i ≠ 0 := by omega
          rw [BitVec.getLsbD_one]; simp [h1]
        simp [this]
  simp only [h, BitVec.getLsbD_xor, BitVec.ushiftRight_xor_distrib]
  cases a.getLsbD 0 <;> cases b.getLsbD 0 <;> simp
  · ac_rfl
  · ac_rfl
  · rw [show ∀ k x y : BitVec 32, k ^^^ x ^^^ (k ^^^ y) = (k ^^^ k) ^^^ (x ^^^ y) from by intros; ac_rfl, BitVec.xor_self,
      BitVec.zero_xor]

theorem crcBit4_xor (a b : BitVec 32) : crcBit4 (a ^^^ b) = crcBit4 a ^^^ crcBit4 b := by
  unfold crcBit4
  simp only [crcBit_xor]

theorem crcBit4_high {c : BitVec 32} (h : ∀ i < 4, c.getLsbD i = false) : crcBit4 c = c >>> 4 := by
  unfold crcBit4
  rw [crcBit_even (h 0 (by omega)), crcBit_even (c := c >>> 1), crcBit_even (c := c >>> 1 >>> 1),
    crcBit_even (c := c >>> 1 >>> 1 >>> 1)]
  · simp only [← BitVec.shiftRight_add]
  all_goals
    simp only [BitVec.getLsbD_ushiftRight]
    exact h _ (by omega)

theorem crcBit4_low : ∀ n < 16, crcBit4 (BitVec.ofNat 32 n) = CRC32.getD n 0 := by decide

/-- The table processes four bits. -/
theorem crcNibble_eq (c : BitVec 32) : crcNibble c = crcBit4 c := by
  have hsplit : c = (c &&& ~~~15#32) ^^^ (c &&& 15#32) := by
    apply BitVec.eq_of_getLsbD_eq
    intro i hi
    simp only [BitVec.getLsbD_xor, BitVec.getLsbD_and, BitVec.getLsbD_not]
    cases c.getLsbD i <;> cases (15#32).getLsbD i <;> simp [hi]
  have hlow : c &&& 15#32 = BitVec.ofNat 32 (c &&& 15#32).toNat := by simp
  have hlt : (c &&& 15#32).toNat < 16 := by
    rw [BitVec.toNat_and]
    exact Nat.lt_of_le_of_lt Nat.and_le_right (by decide)
  unfold crcNibble
  conv => rhs; rw [hsplit, crcBit4_xor, hlow, crcBit4_low _ hlt]
  rw [crcBit4_high]
  · congr 1
    apply BitVec.eq_of_getLsbD_eq
    intro i hi
    simp only [BitVec.getLsbD_ushiftRight, BitVec.getLsbD_and, BitVec.getLsbD_not]
    by_cases h : 4 + i < 32
    · have : (15#32).getLsbD (4 + i) = false := by
        have h15 : ∀ i < 28, (15#32).getLsbD (4 + i) = false := by decide
        exact h15 i (by omega)
      rw [this]
      simp [h]
    · rw [BitVec.getLsbD_of_ge c _ (by omega)]
      simp
  · intro i hi
    have : (15#32).getLsbD i = true := by
      have : ∀ i < 4, (15#32).getLsbD i = true := by decide
      exact this i hi
    rw [BitVec.getLsbD_and, BitVec.getLsbD_not, this]
    simp

theorem writeU8_crc (c : BitVec 32) (x : Byte) : crcNibble (crcNibble (c ^^^ x.setWidth 32)) = crcByte c x := by
  simp only [crcNibble_eq, crcBit4, crcByte]

/-! ## What a sequence of writes does -/

/-- One byte of Adler-32. -/
def adlerStep (s : BitVec 32 × BitVec 32) (x : Byte) : BitVec 32 × BitVec 32 :=
  let a := (s.1 + x.setWidth 32) % 65521#32
  (a, (s.2 + a) % 65521#32)

/-- From `w` to `w'` the bytes `plain` were written, of which `ad` were subject to Adler-32. -/
structure Emits (w w' : Writer) (plain ad : List Byte) : Prop where
  out : w'.out = w.out ++ plain
  c : w'.c = plain.foldl crcByte w.c
  ab : (w'.a, w'.b) = ad.foldl adlerStep (w.a, w.b)

theorem Emits.refl (w : Writer) : Emits w w [] [] := ⟨by simp, rfl, rfl⟩

theorem Emits.trans {w w' w'' : Writer} {p p' q q' : List Byte} (h : Emits w w' p q) (h' : Emits w' w'' p' q') :
    Emits w w'' (p ++ p') (q ++ q') :=
  ⟨by rw [h'.out, h.out, List.append_assoc], by rw [h'.c, h.c, List.foldl_append], by rw [h'.ab, h.ab, List.foldl_append]⟩

theorem emits_u8 (w : Writer) (x : Byte) : Emits w (w.writeU8 x) [x] [] :=
  ⟨rfl, by simp [Writer.writeU8, writeU8_crc], rfl⟩

theorem emits_adler (w : Writer) (x : Byte) : Emits w (w.writeU8Adler x) [x] [x] :=
  ⟨rfl, by simp [Writer.writeU8Adler, Writer.writeU8, writeU8_crc], rfl⟩

theorem emits_u8s (xs : List Byte) : ∀ w : Writer, Emits w (xs.foldl Writer.writeU8 w) xs [] := by
  induction xs with
  | nil => intro w; exact Emits.refl w
  | cons x xs ih => intro w; exact (emits_u8 w x).trans (ih _)

/-- Two bytes, least significant first. -/
def le16 (x : BitVec 32) : List Byte := [((x >>> 0) &&& 0xFF#32).setWidth 8, ((x >>> 8) &&& 0xFF#32).setWidth 8]

/-- Four bytes, most significant first. -/
def be32 (x : BitVec 32) : List Byte :=
  [((x >>> 24) &&& 0xFF#32).setWidth 8, ((x >>> 16) &&& 0xFF#32).setWidth 8, ((x >>> 8) &&& 0xFF#32).setWidth 8,
    ((x >>> 0) &&& 0xFF#32).setWidth 8]

theorem emits_u16 (w : Writer) (x : BitVec 32) : Emits w (w.writeU16L x) (le16 x) [] := emits_u8s (le16 x) w

theorem emits_u32 (w : Writer) (x : BitVec 32) : Emits w (w.writeU32 x) (be32 x) [] := emits_u8s (be32 x) w

/-- The bytes of a pixel. -/
def rgba (x : Color) : List Byte := [x.r, x.g, x.b, x.a]

theorem emits_pixel (w : Writer) (x : Color) : Emits w (w.writePixel x) (rgba x) (rgba x) :=
  (emits_adler w x.r).trans <| (emits_adler _ x.g).trans <| (emits_adler _ x.b).trans (emits_adler _ x.a)

theorem emits_pixels (row : List Color) : ∀ w : Writer,
    Emits w (row.foldl Writer.writePixel w) (row.flatMap rgba) (row.flatMap rgba) := by
  induction row with
  | nil => intro w; exact Emits.refl w
  | cons x xs ih => intro w; exact (emits_pixel w x).trans (ih _)

/-- A scan line. -/
def scan (row : List Color) : List Byte := 0#8 :: row.flatMap rgba

/-- A scan line in a stored block. -/
def block (final : Bool) (p : BitVec 32) (row : List Color) : List Byte :=
  [if final then 1#8 else 0#8] ++ (le16 p ++ (le16 (~~~p) ++ scan row))

theorem emits_row (colors : Image) (p : BitVec 32) (w : Writer) (y : Nat) (row : List Color)
    (hy : colors.getD (colors.length - 1 - y) [] = row) :
    Emits w (writeRow colors p w y) (block (decide (y + 1 = colors.length)) p row) (scan row) := by
  unfold writeRow
  simp only [hy]
  have h1 := emits_u8 w (if y + 1 = colors.length then 1#8 else 0#8)
  have h := h1.trans ((emits_u16 _ p).trans ((emits_u16 _ (~~~p)).trans ((emits_adler _ 0#8).trans (emits_pixels row _))))
  simpa [block, scan] using h

/-- All blocks. -/
def blocks (p : BitVec 32) : List (List Color) → List Byte
  | [] => []
  | row :: rows => block rows.isEmpty p row ++ blocks p rows

theorem emits_rows (colors : Image) (p : BitVec 32) : ∀ (n s : Nat) (w : Writer), s + n = colors.length →
    Emits w ((List.range' s n).foldl (writeRow colors p) w) (blocks p (colors.reverse.drop s)) ((colors.reverse.drop s).flatMap scan) := by
  intro n
  induction n with
  | zero =>
    intro s w h
    rw [List.drop_eq_nil_of_le (by rw [List.length_reverse]; omega)]
    exact Emits.refl w
  | succ n ih =>
    intro s w h
    have hs : s < colors.reverse.length := by rw [List.length_reverse]; omega
    have hrow : colors.getD (colors.length - 1 - s) [] = colors.reverse[s] := by
      rw [List.getElem_reverse, List.getD_eq_getElem?_getD, List.getElem?_eq_getElem (by omega)]
      rfl
    have hfin : (colors.reverse.drop (s + 1)).isEmpty = decide (s + 1 = colors.length) := by
      rw [Bool.eq_iff_iff, List.isEmpty_iff, List.drop_eq_nil_iff, decide_eq_true_iff, List.length_reverse]
      omega
    rw [List.drop_eq_getElem_cons hs]
    rw [List.range'_succ, List.foldl_cons, blocks, hfin, List.flatMap_cons]
    exact (emits_row colors p w s _ hrow).trans (ih (s + 1) _ (by omega))

/-- A chunk. -/
def chunk (type data : List Byte) : List Byte :=
  be32 (BitVec.ofNat 32 data.length) ++ (type ++ (data ++ be32 (crc32 (type ++ data))))

theorem chunk_done (w w' : Writer) (type data ad : List Byte) (l : BitVec 32) (hl : l = BitVec.ofNat 32 data.length)
    (h : Emits (w.beginChunk type l) w' data ad) :
    w'.endChunk.out = w.out ++ chunk type data ∧ (w'.endChunk.a, w'.endChunk.b) = ad.foldl adlerStep (w.a, w.b) := by
  have h1 := emits_u8s type { (w.writeU32 l) with c := ~~~(0#32) }
  have h2 := emits_u32 w l
  have h3 := emits_u32 w' (~~~w'.c)
  have hc : w'.c = (type ++ data).foldl crcByte (~~~(0#32)) := by
    rw [h.c, Writer.beginChunk, h1.c, List.foldl_append]
  have hones : ~~~(0#32) = BitVec.allOnes 32 := by decide
  constructor
  · unfold Writer.endChunk
    rw [h3.out, h.out, Writer.beginChunk, h1.out]
    have h2' : (let __src := w.writeU32 l; ({ out := __src.out, a := __src.a, b := __src.b, c := ~~~0#32 } : Writer)).out =
        w.out ++ be32 l := h2.out
    rw [h2', hc]
    simp only [chunk, hl, List.append_assoc, crc32, hones]
  · unfold Writer.endChunk
    rw [h3.ab, h.ab, Writer.beginChunk, List.foldl_nil, h1.ab]
    rfl

/-- The bytes of the header chunk. -/
def headerBytes (w h : Nat) : List Byte := be32 (BitVec.ofNat 32 w) ++ (be32 (BitVec.ofNat 32 h) ++ SETTINGS)

/-- The zlib stream. -/
def zlibBytes (p : BitVec 32) (rows : List (List Color)) (ab : BitVec 32 × BitVec 32) : List Byte :=
  [0x78#8, 0x01#8] ++ (blocks p rows ++ be32 ((ab.2 <<< 16) ||| ab.1))

theorem rgba_length (row : List Color) : (row.flatMap rgba).length = 4 * row.length := by
  induction row with
  | nil => rfl
  | cons x xs ih => simp [List.flatMap_cons, ih, rgba]; omega

theorem blocks_length (p : BitVec 32) (w : Nat) : ∀ rows : List (List Color), (∀ row ∈ rows, row.length = w) →
    (blocks p rows).length = rows.length * (4 * w + 6) := by
  intro rows
  induction rows with
  | nil => intro; simp [blocks]
  | cons row rows ih =>
    intro h
    have h1 := h row List.mem_cons_self
    rw [blocks, List.length_append, ih (fun r hr => h r (List.mem_cons_of_mem _ hr))]
    have h2 := rgba_length row
    simp only [block, scan, le16, List.length_append, List.length_cons, List.length_nil, h2, h1, Nat.add_mul]
    omega

attribute [local irreducible] Writer.writeU8 writeRow crcByte adlerStep blocks

/-- The file. -/
theorem write_out (colors : Image) (w h : Nat) (hr : Rect w h colors) (hw : w ≤ 16383) (hh : 0 < h) :
    ∃ r, Writer.write {} colors = .ok r ∧ r.out = MAGICK ++ (chunk IHDR (headerBytes w h) ++
      (chunk IDAT (zlibBytes (BitVec.ofNat 32 (4 * w + 1)) colors.reverse ((colors.reverse.flatMap scan).foldl adlerStep (1, 0))) ++
        chunk IEND [])) := by
  obtain ⟨hlen, hrows⟩ := hr
  obtain ⟨row0, rest, hcol⟩ : ∃ r rs, colors = r :: rs := by
    cases colors with
    | nil => simp at hlen; omega
    | cons r rs => exact ⟨r, rs, rfl⟩
  have hne : (!colors.isEmpty) = true := by rw [hcol]; rfl
  have hsize : (colors.headD []).length = w := by
    rw [hcol]
    exact hrows row0 (by rw [hcol]; exact List.mem_cons_self)
  unfold Writer.write
  rw [hne, judgeAssert_true, ok_bind]
  simp only [hsize, hlen, pure_out]
  generalize hp : BitVec.ofNat 32 (4 * w + 1) = p
  have hp5 : (p + 5).toNat = 4 * w + 6 := by
    rw [← hp, BitVec.toNat_add, BitVec.toNat_ofNat]
    have : (5 : BitVec 32).toNat = 5 := by decide
    omega
  refine ⟨_, rfl, ?_⟩
  generalize hw1 : ({ out := [], a := 1, b := 0, c := 0 } : Writer) = w1
  have e1 := emits_u8s MAGICK w1
  change Emits w1 w1.writeMagick MAGICK [] at e1
  generalize w1.writeMagick = w2 at e1 ⊢
  have e2 : Emits (w2.beginChunk IHDR 13) _ (headerBytes w h) [] :=
    (emits_u32 _ (BitVec.ofNat 32 w)).trans ((emits_u32 _ (BitVec.ofNat 32 h)).trans (emits_u8s SETTINGS _))
  have d2 := chunk_done w2 _ IHDR (headerBytes w h) [] 13 (by simp [headerBytes, be32, SETTINGS]) e2
  change ((((w2.beginChunk IHDR 13).writeU32 (BitVec.ofNat 32 w)).writeU32 (BitVec.ofNat 32 h)).writeSettings).endChunk.out = _ ∧
    (((((w2.beginChunk IHDR 13).writeU32 (BitVec.ofNat 32 w)).writeU32 (BitVec.ofNat 32 h)).writeSettings).endChunk.a,
     ((((w2.beginChunk IHDR 13).writeU32 (BitVec.ofNat 32 w)).writeU32 (BitVec.ofNat 32 h)).writeSettings).endChunk.b) = _ at d2
  generalize ((((w2.beginChunk IHDR 13).writeU32 (BitVec.ofNat 32 w)).writeU32 (BitVec.ofNat 32 h)).writeSettings).endChunk = w3 at d2 ⊢
  have hlen4 : 2 + h * (p + 5).toNat + 4 = (zlibBytes p colors.reverse ((colors.reverse.flatMap scan).foldl adlerStep (1, 0))).length := by
    have hb := blocks_length p w colors.reverse (fun r hr => hrows r (List.mem_reverse.1 hr))
    rw [List.length_reverse, hlen] at hb
    simp only [zlibBytes, List.length_append, List.length_cons, List.length_nil, be32, hb, hp5]
    omega
  rw [hlen4]
  generalize hL : BitVec.ofNat 32 (zlibBytes p colors.reverse ((colors.reverse.flatMap scan).foldl adlerStep (1, 0))).length = L
  have e3 := (emits_u8s [0x78#8, 0x01#8] (w3.beginChunk IDAT L)).trans (emits_rows colors p h 0 _ (by omega))
  rw [← List.range_eq_range', List.drop_zero] at e3
  change Emits (w3.beginChunk IDAT L) ((List.range h).foldl (writeRow colors p) (((w3.beginChunk IDAT L).writeU8 120).writeU8 1)) _ _ at e3
  generalize hw4 : (List.range h).foldl (writeRow colors p) (((w3.beginChunk IDAT L).writeU8 120).writeU8 1) = w4 at e3 ⊢
  have hab : (w4.a, w4.b) = (colors.reverse.flatMap scan).foldl adlerStep (1, 0) := by
    rw [e3.ab, List.nil_append, Writer.beginChunk, (emits_u8s _ _).ab, List.foldl_nil]
    have h1 := (emits_u32 w3 L).ab
    rw [List.foldl_nil, d2.2, List.foldl_nil, e1.ab, List.foldl_nil, ← hw1] at h1
    rw [← h1]
  have e4 := e3.trans (emits_u32 w4 ((w4.b <<< 16) ||| w4.a))
  have hdata : [0x78#8, 0x01#8] ++ blocks p colors.reverse ++ be32 ((w4.b <<< 16) ||| w4.a) =
      zlibBytes p colors.reverse ((colors.reverse.flatMap scan).foldl adlerStep (1, 0)) := by
    rw [← hab, zlibBytes, List.append_assoc]
  rw [hdata] at e4
  have d4 := chunk_done _ _ _ _ _ _ hL.symm e4
  generalize (w4.writeU32 ((w4.b <<< 16) ||| w4.a)).endChunk = w5 at d4 ⊢
  have d5 := chunk_done w5 _ IEND [] [] 0 rfl (Emits.refl _)
  rw [d5.1, d4.1, d2.1, e1.out, ← hw1]
  simp only [List.append_assoc, List.nil_append]

end ICPC.Png
