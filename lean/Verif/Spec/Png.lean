import Verif.Model.Png
import Mathlib.Algebra.Order.Group.Unbundled.Int
import Mathlib.Data.List.Chain

/-!
# What a PNG file is and what the drawing functions are to do

The decoder follows the PNG specification (signature, chunks, CRC-32, `IHDR`, `IDAT`, `IEND`), RFC 1950 (zlib header,
Adler-32) and RFC 1951 restricted to stored blocks. It knows nothing of the writer.
-/

namespace ICPC.Spec.PngFormat

open ICPC.Png (Byte Color)

/-- One bit of the CRC-32 of the PNG specification. -/
def crcBit (c : BitVec 32) : BitVec 32 := if c &&& 1#32 = 1#32 then 0xedb88320#32 ^^^ (c >>> 1) else c >>> 1

/-- One byte. -/
def crcByte (c : BitVec 32) (x : Byte) : BitVec 32 :=
  crcBit (crcBit (crcBit (crcBit (crcBit (crcBit (crcBit (crcBit (c ^^^ x.setWidth 32))))))))

/-- The CRC-32 of a sequence of bytes: register preset to ones, complemented at the end. -/
def crc32 (l : List Byte) : BitVec 32 := ~~~(l.foldl crcByte (BitVec.allOnes 32))

/-- First sum of Adler-32: one plus the sum of the bytes. -/
def adlerA (l : List Byte) : Nat := (1 + (l.map BitVec.toNat).sum) % 65521

/-- The sum of all prefix sums: the first of `n` bytes counts `n` times, and so on. -/
def weighted : List Byte → Nat
  | [] => 0
  | x :: l => (l.length + 1) * x.toNat + weighted l

/-- Second sum of Adler-32: the sum of all values of the first sum. -/
def adlerB (l : List Byte) : Nat := (l.length + weighted l) % 65521

/-- Adler-32. -/
def adler32 (l : List Byte) : Nat := 65536 * adlerB l + adlerA l

/-- A big-endian number. -/
def bigEndian (l : List Byte) : Nat := l.foldl (fun n x => 256 * n + x.toNat) 0

/-- The first `n` bytes and the rest. -/
def takeExact (n : Nat) (l : List Byte) : Option (List Byte × List Byte) :=
  if n ≤ l.length then some (l.take n, l.drop n) else none

/-- Four bytes, most significant first. -/
def readU32 (l : List Byte) : Option (Nat × List Byte) := do
  let (x, l) ← takeExact 4 l
  pure (bigEndian x, l)

/-- A chunk: length (less than 2^31), type, data, CRC of type and data. -/
def readChunk (l : List Byte) : Option ((List Byte × List Byte) × List Byte) := do
  let (n, l) ← readU32 l
  guard (n < 2 ^ 31)
  let (type, l) ← takeExact 4 l
  let (data, l) ← takeExact n l
  let (crc, l) ← readU32 l
  guard (crc = (crc32 (type ++ data)).toNat)
  pure ((type, data), l)

/-- All chunks up to the end of the file; every chunk has at least twelve bytes, so that `l.length` is more than enough fuel. -/
def readChunks : Nat → List Byte → Option (List (List Byte × List Byte))
  | _, [] => some []
  | 0, _ => none
  | n + 1, l => do
    let (c, l) ← readChunk l
    let cs ← readChunks n l
    pure (c :: cs)

/-- Stored blocks of RFC 1951 (every block starts at a byte): the data and what follows the final block. -/
def inflateStored : Nat → List Byte → Option (List Byte × List Byte)
  | 0, _ => none
  | n + 1, l =>
    match l with
    | hd :: l0 :: l1 :: n0 :: n1 :: l => do
      let len := l0.toNat + 256 * l1.toNat
      let nlen := n0.toNat + 256 * n1.toNat
      guard (hd.toNat / 2 % 4 = 0)
      guard (len + nlen = 65535)
      let (data, l) ← takeExact len l
      if hd.toNat % 2 = 1 then pure (data, l)
      else do
        let (more, l) ← inflateStored n l
        pure (data ++ more, l)
    | _ => none

/-- A zlib stream (RFC 1950). -/
def zlib (l : List Byte) : Option (List Byte) :=
  match l with
  | cmf :: flg :: l => do
    guard (cmf.toNat % 16 = 8 ∧ cmf.toNat / 16 ≤ 7)
    guard ((256 * cmf.toNat + flg.toNat) % 31 = 0)
    guard (flg.toNat / 32 % 2 = 0)
    let (data, l) ← inflateStored l.length l
    let (sum, l) ← readU32 l
    guard (l = [])
    guard (sum = adler32 data)
    pure data
  | _ => none

/-- Pixels of four bytes: red, green, blue, alpha. -/
def pixels : List Byte → Option (List Color)
  | [] => some []
  | r :: g :: b :: a :: l => do
    let cs ← pixels l
    pure ({ r := r, g := g, b := b, a := a } :: cs)
  | _ => none

/-- `h` scan lines of `w` pixels, each preceded by filter type 0. -/
def scanlines (w : Nat) : Nat → List Byte → Option (List (List Color))
  | 0, [] => some []
  | 0, _ => none
  | h + 1, l => do
    let (line, l) ← takeExact (1 + 4 * w) l
    match line with
    | [] => none
    | filter :: line => do
      guard (filter = 0#8)
      let row ← pixels line
      let rows ← scanlines w h l
      pure (row :: rows)

/-- The data of the image header: width, height, eight bits per channel, colours with alpha, no interlacing. -/
def header (data : List Byte) : Option (Nat × Nat) := do
  let (w, l) ← readU32 data
  let (h, l) ← readU32 l
  guard (l = [8, 6, 0, 0, 0])
  guard (0 < w ∧ w < 2 ^ 31 ∧ 0 < h ∧ h < 2 ^ 31)
  pure (w, h)

/-- A PNG file: `IHDR`, one or more `IDAT` and `IEND`. The rows are those of the picture from top to bottom. -/
def decode (file : List Byte) : Option (List (List Color)) := do
  let (sig, l) ← takeExact 8 file
  guard (sig = [0x89, 0x50, 0x4E, 0x47, 0x0D, 0x0A, 0x1A, 0x0A])
  let chunks ← readChunks l.length l
  match chunks with
  | [] => none
  | first :: rest => do
    let last ← rest.getLast?
    let idat := rest.dropLast
    guard (first.1 = [0x49, 0x48, 0x44, 0x52])
    guard (last = ([0x49, 0x45, 0x4E, 0x44], []))
    guard (idat ≠ [] ∧ ∀ c ∈ idat, c.1 = [0x49, 0x44, 0x41, 0x54])
    let (w, h) ← header first.2
    let raw ← zlib (idat.map Prod.snd).flatten
    scanlines w h raw

/-- The colour at a position of an image given by its rows; the rows are numbered from 0 upwards, as are the columns. -/
def at? (im : List (List Color)) (p : ICPC.Png.Point) : Option Color :=
  if 0 ≤ p.x ∧ 0 ≤ p.y then (im[p.y.toNat]?).bind (fun row => row[p.x.toNat]?) else none

/-- An image of `h` rows of `w` pixels. -/
def Rect (w h : Nat) (im : List (List Color)) : Prop := im.length = h ∧ ∀ row ∈ im, row.length = w

/-- How two colours are mixed, channel by channel: `assign` takes the upper one, `add` and `subtract` saturate, `blend` is alpha
compositing ("over") in whole numbers. -/
def mix (m : ICPC.Png.BlendMode) (lower upper : Color) : Color :=
  match m with
  | .assign => upper
  | .add =>
    let f := fun x y : Byte => BitVec.ofNat 8 (min 255 (x.toNat + y.toNat))
    ⟨f lower.r upper.r, f lower.g upper.g, f lower.b upper.b, f lower.a upper.a⟩
  | .subtract =>
    let f := fun x y : Byte => BitVec.ofNat 8 (x.toNat - y.toNat)
    ⟨f lower.r upper.r, f lower.g upper.g, f lower.b upper.b, f lower.a upper.a⟩
  | .blend =>
    if upper.a.toNat = 255 then upper
    else if upper.a.toNat = 0 then lower
    else
      let weight := lower.a.toNat * (255 - upper.a.toNat) / 255
      let total := upper.a.toNat + weight
      let f := fun x y : Byte => BitVec.ofNat 8 ((y.toNat * upper.a.toNat + x.toNat * weight) / total)
      ⟨f lower.r upper.r, f lower.g upper.g, f lower.b upper.b, BitVec.ofNat 8 total⟩

/-- `im'` is `im` with exactly the pixels in `S` painted, and nothing else changed. -/
def Painted (m : ICPC.Png.BlendMode) (fill : Color) (S : ICPC.Png.Point → Prop) (im im' : List (List Color)) : Prop :=
  ∀ q, (S q → at? im' q = (at? im q).map (mix m · fill)) ∧ (¬ S q → at? im' q = at? im q)

/-- Pixels that touch at a side or a corner. -/
def Touch (p q : ICPC.Png.Point) : Prop := p ≠ q ∧ |q.x - p.x| ≤ 1 ∧ |q.y - p.y| ≤ 1

/-- A digital line from `a` to `b`. -/
structure IsLine (a b : ICPC.Png.Point) (path : List ICPC.Png.Point) : Prop where
  first : path.head? = some a
  last : path.getLast? = some b
  length : (path.length : Int) = max |b.x - a.x| |b.y - a.y| + 1
  nodup : path.Nodup
  chain : path.IsChain Touch
  box : ∀ q ∈ path, min a.x b.x ≤ q.x ∧ q.x ≤ max a.x b.x ∧ min a.y b.y ≤ q.y ∧ q.y ≤ max a.y b.y
  near : ∀ q ∈ path, 2 * |(q.y - a.y) * (b.x - a.x) - (q.x - a.x) * (b.y - a.y)| ≤ max |b.x - a.x| |b.y - a.y|

/-- Pixels that touch at a side. -/
def Adjacent (p q : ICPC.Png.Point) : Prop := |q.x - p.x| + |q.y - p.y| = 1

/-- The 4-connected region of the colour of `p`. -/
inductive Region (im : List (List Color)) (p : ICPC.Png.Point) : ICPC.Png.Point → Prop
  | start : Region im p p
  | step (q r : ICPC.Png.Point) : Region im p q → Adjacent q r → at? im r = at? im p → Region im p r

/-- The rectangle spanned by two corners. -/
def InRect (a b q : ICPC.Png.Point) : Prop := min a.x b.x ≤ q.x ∧ q.x ≤ max a.x b.x ∧ min a.y b.y ≤ q.y ∧ q.y ≤ max a.y b.y

/-- Its rim. -/
def OnRim (a b q : ICPC.Png.Point) : Prop := InRect a b q ∧ (q.x = a.x ∨ q.x = b.x ∨ q.y = a.y ∨ q.y = b.y)

end ICPC.Spec.PngFormat
