import Verif.Lemmas.PngFile

/-!
# The decoder accepts the file and returns the picture
-/

namespace ICPC.Png

open Spec.PngFormat

theorem guard_of {p : Prop} [Decidable p] (h : p) : (guard p : Option Unit) = some () := by simp [guard, h]

theorem byte_toNat (x : BitVec 32) (k : Nat) : (((x >>> k) &&& 0xFF#32).setWidth 8).toNat = x.toNat / 2 ^ k % 256 := by
  rw [BitVec.toNat_setWidth, BitVec.toNat_and, BitVec.toNat_ushiftRight, Nat.shiftRight_eq_div_pow]
  have h : (0xFF#32).toNat = 2 ^ 8 - 1 := by decide
  rw [h, Nat.and_two_pow_sub_one_eq_mod]
  omega

theorem bigEndian_be32 (x : BitVec 32) : bigEndian (be32 x) = x.toNat := by
  simp only [bigEndian, be32, List.foldl_cons, List.foldl_nil, byte_toNat]
  have := x.isLt
  omega

theorem takeExact_append (x l : List Byte) (n : Nat) (h : x.length = n) : takeExact n (x ++ l) = some (x, l) := by
  subst h
  unfold takeExact
  rw [if_pos (by simp)]
  simp

theorem readU32_be32 (x : BitVec 32) (l : List Byte) : readU32 (be32 x ++ l) = some (x.toNat, l) := by
  unfold readU32
  rw [takeExact_append (be32 x) l 4 rfl]
  simp [bigEndian_be32]

theorem readChunk_chunk (type data l : List Byte) (ht : type.length = 4) (hd : data.length < 2 ^ 31) :
    readChunk (chunk type data ++ l) = some ((type, data), l) := by
  have hn : (BitVec.ofNat 32 data.length).toNat = data.length := by
    rw [BitVec.toNat_ofNat]
    omega
  unfold readChunk chunk
  simp only [List.append_assoc, readU32_be32, hn, Option.bind_eq_bind, Option.bind_some, guard_of hd, takeExact_append _ _ _ ht,
    takeExact_append data _ _ rfl, guard_of trivial]
  simp

/-! ## Adler-32 -/

theorem setWidth_toNat (x : Byte) : (x.setWidth 32).toNat = x.toNat := by
  rw [BitVec.toNat_setWidth]
  have := x.isLt
  omega

theorem adler_fold (l : List Byte) : ∀ a b : BitVec 32, a.toNat < 65521 → b.toNat < 65521 →
    (l.foldl adlerStep (a, b)).1.toNat = (a.toNat + (l.map BitVec.toNat).sum) % 65521 ∧
    (l.foldl adlerStep (a, b)).2.toNat = (b.toNat + l.length * a.toNat + weighted l) % 65521 := by
  induction l with
  | nil => intro a b ha hb; simp [weighted]; omega
  | cons x l ih =>
    intro a b ha hb
    have hx := x.isLt
    have h65 : (65521#32).toNat = 65521 := by decide
    have h1 : ((a + x.setWidth 32) % 65521#32).toNat = (a.toNat + x.toNat) % 65521 := by
      rw [BitVec.toNat_umod, BitVec.toNat_add, setWidth_toNat, h65]
      omega
    have h2 : ((b + (a + x.setWidth 32) % 65521#32) % 65521#32).toNat = (b.toNat + (a.toNat + x.toNat) % 65521) % 65521 := by
      rw [BitVec.toNat_umod, BitVec.toNat_add, h1, h65]
      omega
    rw [List.foldl_cons, adlerStep]
    obtain ⟨i1, i2⟩ := ih _ _ (by rw [h1]; omega) (by rw [h2]; omega)
    rw [i1, i2, h1, h2]
    constructor
    · rw [List.map_cons, List.sum_cons]
      omega
    · rw [weighted, List.length_cons]
      generalize hs : a.toNat + x.toNat = s
      have hm : (l.length * (s % 65521)) % 65521 = (l.length * s) % 65521 := by
        rw [Nat.mul_mod, Nat.mod_mod, ← Nat.mul_mod]
      have hr : b.toNat + (l.length + 1) * a.toNat + ((l.length + 1) * x.toNat + weighted l) =
          b.toNat + s + l.length * s + weighted l := by
        rw [← hs, Nat.add_mul, Nat.add_mul, Nat.mul_add]
        omega
      rw [hr]
      generalize l.length * (s % 65521) = P at *
      generalize l.length * s = Q at *
      omega

theorem adler_eq (l : List Byte) :
    ((((l.foldl adlerStep (1, 0)).2 <<< 16) ||| (l.foldl adlerStep (1, 0)).1 : BitVec 32)).toNat = adler32 l := by
  obtain ⟨h1, h2⟩ := adler_fold l 1 0 (by decide) (by decide)
  have e1 : (1 : BitVec 32).toNat = 1 := by decide
  have e0 : (0 : BitVec 32).toNat = 0 := by decide
  rw [e1] at h1
  rw [e1, e0, Nat.zero_add, Nat.mul_one] at h2
  generalize (l.foldl adlerStep (1, 0)).1 = a at *
  generalize (l.foldl adlerStep (1, 0)).2 = b at *
  have ha : a.toNat < 2 ^ 16 := by rw [h1]; omega
  have hb : b.toNat < 2 ^ 16 := by rw [h2]; omega
  rw [BitVec.toNat_or, BitVec.toNat_shiftLeft, Nat.mod_eq_of_lt (by rw [Nat.shiftLeft_eq]; omega), ← Nat.shiftLeft_add_eq_or_of_lt ha,
    Nat.shiftLeft_eq, adler32, adlerA, adlerB, ← h1, ← h2]
  omega

/-! ## Blocks and scan lines -/

theorem le16_len (p : BitVec 32) (hp : p.toNat < 65536) : ∃ l0 l1 n0 n1 : Byte, le16 p = [l0, l1] ∧ le16 (~~~p) = [n0, n1] ∧
    l0.toNat + 256 * l1.toNat = p.toNat ∧ (l0.toNat + 256 * l1.toNat) + (n0.toNat + 256 * n1.toNat) = 65535 := by
  refine ⟨_, _, _, _, rfl, rfl, ?_, ?_⟩
  · simp only [byte_toNat]
    omega
  · simp only [byte_toNat, BitVec.toNat_not]
    omega

theorem inflate_blocks (p : BitVec 32) (w : Nat) (hp : p.toNat = 4 * w + 1) (hw : w ≤ 16383) (tail : List Byte) :
    ∀ (rows : List (List Color)) (n : Nat), rows ≠ [] → rows.length ≤ n → (∀ row ∈ rows, row.length = w) →
      inflateStored n (blocks p rows ++ tail) = some (rows.flatMap scan, tail) := by
  obtain ⟨l0, l1, n0, n1, hl, hn, hlen, hnlen⟩ := le16_len p (by omega)
  intro rows
  induction rows with
  | nil => intro n h; exact absurd rfl h
  | cons row rows ih =>
    intro n _ hn1 hrows
    obtain ⟨n, rfl⟩ : ∃ m, n = m + 1 := ⟨n - 1, by simp at hn1; omega⟩
    have hr := hrows row List.mem_cons_self
    have hscan : (scan row).length = l0.toNat + 256 * l1.toNat := by
      rw [hlen, hp, scan, List.length_cons, rgba_length, hr]
    have hform : blocks p (row :: rows) ++ tail =
        (if rows.isEmpty then 1#8 else 0#8) :: l0 :: l1 :: n0 :: n1 :: (scan row ++ (blocks p rows ++ tail)) := by
      rw [blocks, block, hl, hn]
      simp only [List.cons_append, List.nil_append, List.append_assoc]
    rw [hform, inflateStored]
    simp only [takeExact_append _ _ _ hscan, guard_of hnlen]
    cases rows with
    | nil =>
      simp [blocks, guard, List.flatMap_cons]
    | cons row' rows =>
      have := ih n (by simp) (by simp at hn1 ⊢; omega) (fun r h => hrows r (List.mem_cons_of_mem _ h))
      simp [guard, this, List.flatMap_cons]

theorem pixels_row : ∀ row : List Color, pixels (row.flatMap rgba) = some row
  | [] => rfl
  | x :: row => by
    rw [List.flatMap_cons, rgba]
    simp [pixels, pixels_row row]

theorem scanlines_rows (w : Nat) : ∀ rows : List (List Color), (∀ row ∈ rows, row.length = w) →
    scanlines w rows.length (rows.flatMap scan) = some rows := by
  intro rows
  induction rows with
  | nil => intro; rfl
  | cons row rows ih =>
    intro h
    have hr := h row List.mem_cons_self
    have hscan : (scan row).length = 1 + 4 * w := by
      rw [scan, List.length_cons, rgba_length, hr]
      omega
    rw [List.length_cons, scanlines, List.flatMap_cons, takeExact_append _ _ _ hscan]
    simp [scan, pixels_row, guard, ih (fun r hr => h r (List.mem_cons_of_mem _ hr))]

theorem zlib_ok (p : BitVec 32) (w : Nat) (hp : p.toNat = 4 * w + 1) (hw : w ≤ 16383) (rows : List (List Color)) (hne : rows ≠ [])
    (hrows : ∀ row ∈ rows, row.length = w) :
    zlib (zlibBytes p rows ((rows.flatMap scan).foldl adlerStep (1, 0))) = some (rows.flatMap scan) := by
  unfold zlib zlibBytes
  have h2 := adler_eq (rows.flatMap scan)
  generalize hx : (((rows.flatMap scan).foldl adlerStep (1, 0)).2 <<< 16) ||| ((rows.flatMap scan).foldl adlerStep (1, 0)).1 = x at h2 ⊢
  have hl := blocks_length p w rows hrows
  have h1 := inflate_blocks p w hp hw (be32 x) rows (blocks p rows ++ be32 x).length hne (by
    rw [List.length_append, hl]
    have := Nat.le_mul_of_pos_right rows.length (show 0 < 4 * w + 6 by omega)
    omega) hrows
  have h3 := readU32_be32 x []
  rw [List.append_nil] at h3
  simp only [List.cons_append, List.nil_append]
  rw [h1]
  simp [guard, h3, h2]

/-- The decoder inverts the writer. -/
theorem decode_write (colors : Image) (w h : Nat) (hr : Rect w h colors) (hw0 : 0 < w) (hw : w ≤ 16383) (hh : 0 < h)
    (hsize : 6 + h * (4 * w + 6) < 2 ^ 31) :
    ∃ r, Writer.write {} colors = .ok r ∧ decode r.out = some colors.reverse := by
  obtain ⟨r, hr1, hr2⟩ := write_out colors w h hr hw hh
  refine ⟨r, hr1, ?_⟩
  rw [hr2]
  obtain ⟨hlen, hrows⟩ := hr
  have hrows' : ∀ row ∈ colors.reverse, row.length = w := fun r hr => hrows r (List.mem_reverse.1 hr)
  have hp : (BitVec.ofNat 32 (4 * w + 1)).toNat = 4 * w + 1 := by
    rw [BitVec.toNat_ofNat]; omega
  generalize BitVec.ofNat 32 (4 * w + 1) = p at *
  have hz := zlib_ok p w hp hw colors.reverse (by rw [Ne, List.reverse_eq_nil_iff]; rintro rfl; simp at hlen; omega) hrows'
  have hs := scanlines_rows w colors.reverse hrows'
  rw [List.length_reverse, hlen] at hs
  have hb := blocks_length p w colors.reverse hrows'
  rw [List.length_reverse, hlen] at hb
  generalize hd : zlibBytes p colors.reverse ((colors.reverse.flatMap scan).foldl adlerStep (1, 0)) = data at *
  have hdl : data.length < 2 ^ 31 := by
    rw [← hd]
    simp only [zlibBytes, List.length_append, List.length_cons, List.length_nil, be32, hb]
    omega
  have hh31 : h < 2 ^ 31 := by
    have := Nat.le_mul_of_pos_right h (show 0 < 4 * w + 6 by omega)
    omega
  have hhead : header (headerBytes w h) = some (w, h) := by
    unfold header headerBytes
    rw [readU32_be32]
    simp only [Option.bind_eq_bind, Option.bind_some, readU32_be32]
    rw [BitVec.toNat_ofNat, BitVec.toNat_ofNat, Nat.mod_eq_of_lt (by omega), Nat.mod_eq_of_lt (by omega)]
    simp [guard, SETTINGS]
    rw [if_pos (by omega)]
    rfl
  unfold decode
  rw [takeExact_append MAGICK _ 8 rfl]
  have c1 := readChunk_chunk IHDR (headerBytes w h) (chunk IDAT data ++ chunk IEND []) rfl (by simp [headerBytes, be32, SETTINGS])
  have c2 := readChunk_chunk IDAT data (chunk IEND []) rfl hdl
  have c3 := readChunk_chunk IEND [] [] rfl (by simp)
  rw [List.append_nil] at c3
  have hcs : ∀ n, readChunks (n + 3) (chunk IHDR (headerBytes w h) ++ (chunk IDAT data ++ chunk IEND [])) =
      some [(IHDR, headerBytes w h), (IDAT, data), (IEND, [])] := by
    intro n
    have step : ∀ (n : Nat) (l : List Byte) (c : List Byte × List Byte) (l' : List Byte), readChunk l = some (c, l') →
        readChunks (n + 1) l = (readChunks n l').bind fun cs => some (c :: cs) := by
      intro n l c l' h
      cases l with
      | nil => simp [readChunk, readU32, takeExact] at h
      | cons x l => rw [readChunks, h]; rfl; simp
    rw [step _ _ _ _ c1, step _ _ _ _ c2, step _ _ _ _ c3]
    cases n <;> rfl
  have hlen3 : ∃ n, (chunk IHDR (headerBytes w h) ++ (chunk IDAT data ++ chunk IEND [])).length = n + 3 := by
    refine ⟨_, (Nat.sub_add_cancel ?_).symm⟩
    simp only [chunk, be32, List.length_append, List.length_cons]
    omega
  obtain ⟨n, hn⟩ := hlen3
  rw [Option.bind_eq_bind, Option.bind_some]
  simp only [hn, hcs]
  simp [guard, MAGICK, IHDR, IDAT, IEND, hhead, hz, hs]

/-- If the zlib stream has between 2^31 and 2^32 bytes, the length field of its chunk is not a valid length. -/
theorem decode_large (colors : Image) (w h : Nat) (hr : Rect w h colors) (hw : w ≤ 16383) (hh : 0 < h)
    (hsize : 2 ^ 31 ≤ 6 + h * (4 * w + 6)) (hsize' : 6 + h * (4 * w + 6) < 2 ^ 32) :
    ∃ r, Writer.write {} colors = .ok r ∧ decode r.out = none := by
  obtain ⟨r, hr1, hr2⟩ := write_out colors w h hr hw hh
  refine ⟨r, hr1, ?_⟩
  rw [hr2]
  obtain ⟨hlen, hrows⟩ := hr
  have hb := blocks_length (BitVec.ofNat 32 (4 * w + 1)) w colors.reverse (fun r hr => hrows r (List.mem_reverse.1 hr))
  rw [List.length_reverse, hlen] at hb
  have hdl : (zlibBytes (BitVec.ofNat 32 (4 * w + 1)) colors.reverse ((colors.reverse.flatMap scan).foldl adlerStep (1, 0))).length =
      6 + h * (4 * w + 6) := by
    simp only [zlibBytes, List.length_append, List.length_cons, List.length_nil, be32, hb]
    omega
  generalize zlibBytes (BitVec.ofNat 32 (4 * w + 1)) colors.reverse ((colors.reverse.flatMap scan).foldl adlerStep (1, 0)) = data at *
  rw [← hdl] at hsize hsize'
  unfold decode
  rw [takeExact_append MAGICK _ 8 rfl]
  have c1 := readChunk_chunk IHDR (headerBytes w h) (chunk IDAT data ++ chunk IEND []) rfl (by simp [headerBytes, be32, SETTINGS])
  have c2 : readChunk (chunk IDAT data ++ chunk IEND []) = none := by
    have hn : (BitVec.ofNat 32 data.length).toNat = data.length := by
      rw [BitVec.toNat_ofNat]
      omega
    unfold readChunk chunk
    have : ¬ data.length < 2 ^ 31 := by omega
    simp only [List.append_assoc, readU32_be32, hn, Option.bind_eq_bind, Option.bind_some, guard, if_neg this]
    rfl
  have hcs : ∀ n, readChunks n (chunk IHDR (headerBytes w h) ++ (chunk IDAT data ++ chunk IEND [])) = none := by
    intro n
    have ne : ∀ (type d l : List Byte), ∃ x l', chunk type d ++ l = x :: l' := by
      intro type d l
      exact ⟨_, _, rfl⟩
    match n with
    | 0 =>
      obtain ⟨x, l', e⟩ := ne IHDR (headerBytes w h) (chunk IDAT data ++ chunk IEND [])
      rw [e, readChunks]
      simp
    | n + 1 =>
      obtain ⟨x, l', e⟩ := ne IHDR (headerBytes w h) (chunk IDAT data ++ chunk IEND [])
      rw [e] at c1 ⊢
      rw [readChunks, c1, Option.bind_eq_bind, Option.bind_some]
      · have : readChunks n (chunk IDAT data ++ chunk IEND []) = none := by
          obtain ⟨x, l', e⟩ := ne IDAT data (chunk IEND [])
          rw [e] at c2 ⊢
          cases n with
          | zero => rw [readChunks]; simp
          | succ n =>
            rw [readChunks, c2]
            · rfl
            · simp
        simp only [this]
        rfl
      · simp
  rw [Option.bind_eq_bind, Option.bind_some]
  simp only [hcs]
  simp

end ICPC.Png
