import Verif.Model.Basic

/-!
# The PNG visualizer (src/visualizer_png.h)

* `std::uint8_t` and `std::uint32_t` are `BitVec 8` and `BitVec 32`; an image is the list of its rows
  (`std::vector<std::vector<Color>>`, line 308).
* `Real` is `Rat`: products and `1 - f` are exact; `llround` outside the range of `long long int` is `Stop.ub`.
* Reading or writing `colors[y][x]` out of bounds is `Stop.ub`.
* The parameter `const Color& fill` is a value: calls in which it refers to a pixel of the same image are not modelled.
* The file is the list of bytes passed to `os`; the text mode of the stream (line 237) is the identity.
-/

namespace ICPC.Png

/-- `std::uint8_t`. -/
abbrev Byte := BitVec 8

/-- `Color` (src/visualizer_png.h 26-74). -/
structure Color where
  r : Byte
  g : Byte
  b : Byte
  a : Byte
  deriving DecidableEq, Repr

/-- `Color(rgb, a)` (src/visualizer_png.h 28-32). -/
def Color.ofRgb (rgb : BitVec 32) (a : Byte := 0xFF) : Color :=
  { r := ((rgb >>> 16) &&& 0xFF#32).setWidth 8, g := ((rgb >>> 8) &&& 0xFF#32).setWidth 8,
    b := ((rgb >>> 0) &&& 0xFF#32).setWidth 8, a := a }

/-- `clamp_color` of an integer (src/visualizer_png.h 83-91); `std::clamp(c, 0, 0xFF)`. -/
def clampColor (c : Int) : Byte :=
  BitVec.ofInt 8 (if c < 0 then 0 else if 0xFF < c then 0xFF else c)

/-- `std::llround`: nearest integer, halves away from zero; no defined value if it does not fit. -/
def llround (q : Rat) : Out Int :=
  chk (if 0 ≤ q then (q + 1 / 2).floor else -((-q + 1 / 2).floor))

/-- `clamp_color` of a real (src/visualizer_png.h 93-101). -/
def clampReal (c : Rat) : Out Byte := do
  let i ← llround c
  pure (clampColor i)

/-- `operator*` (src/visualizer_png.h 103-112). -/
def Color.scale (f : Rat) (c : Color) : Out Color := do
  let r ← clampReal (c.r.toNat * f)
  let g ← clampReal (c.g.toNat * f)
  let b ← clampReal (c.b.toNat * f)
  let a ← clampReal (c.a.toNat * f)
  pure { r := r, g := g, b := b, a := a }

/-- `operator+` (src/visualizer_png.h 118-123). -/
def Color.add (a b : Color) : Color :=
  { r := clampColor (a.r.toNat + b.r.toNat), g := clampColor (a.g.toNat + b.g.toNat),
    b := clampColor (a.b.toNat + b.b.toNat), a := clampColor (a.a.toNat + b.a.toNat) }

/-- `operator-` (src/visualizer_png.h 129-134). -/
def Color.sub (a b : Color) : Color :=
  { r := clampColor (a.r.toNat - b.r.toNat), g := clampColor (a.g.toNat - b.g.toNat),
    b := clampColor (a.b.toNat - b.b.toNat), a := clampColor (a.a.toNat - b.a.toNat) }

/-- `lerp` (src/visualizer_png.h 140-143); a failed `assert` ends the program (`Stop.throw`). -/
def lerp (a b : Color) (f : Rat) : Out Color := do
  judgeAssert (decide (0 ≤ f) && decide (f ≤ 1))
  let x ← a.scale f
  let y ← b.scale (1 - f)
  pure (x.add y)

/-- Division of `int`s: undefined for a zero divisor. -/
def divInt (x y : Int) : Out Int := if y = 0 then .error .ub else .ok (x.tdiv y)

/-- `blend` (src/visualizer_png.h 145-154). -/
def blend (lower upper : Color) : Out Color :=
  if upper.a = 0xFF#8 then .ok upper
  else if upper.a = 0#8 then .ok lower
  else do
    let aLower ← divInt (lower.a.toNat * (0xFF - upper.a.toNat)) 0xFF
    let aRes : Int := upper.a.toNat + aLower
    let r ← divInt (upper.r.toNat * upper.a.toNat + lower.r.toNat * aLower) aRes
    let g ← divInt (upper.g.toNat * upper.a.toNat + lower.g.toNat * aLower) aRes
    let b ← divInt (upper.b.toNat * upper.a.toNat + lower.b.toNat * aLower) aRes
    pure { r := clampColor r, g := clampColor g, b := clampColor b, a := clampColor aRes }

/-- `BlendMode` (src/visualizer_png.h 156). -/
inductive BlendMode where
  | assign
  | blend
  | add
  | subtract
  deriving DecidableEq, Repr

/-- `details::combine<M>` (src/visualizer_png.h 164-170). -/
def combine (m : BlendMode) (lower upper : Color) : Out Color :=
  match m with
  | .assign => .ok upper
  | .blend => Png.blend lower upper
  | .add => .ok (lower.add upper)
  | .subtract => .ok (lower.sub upper)

/-! ## The writer -/

/-- `details::CRC32` (src/visualizer_png.h 190-193). -/
def CRC32 : List (BitVec 32) :=
  [0x00000000, 0x1db71064, 0x3b6e20c8, 0x26d930ac, 0x76dc4190, 0x6b6b51f4, 0x4db26158, 0x5005713c,
   0xedb88320, 0xf00f9344, 0xd6d6a3e8, 0xcb61b38c, 0x9b64c2b0, 0x86d3d2d4, 0xa00ae278, 0xbdbdf21c]

/-- `details::MAGICK` (src/visualizer_png.h 194). -/
def MAGICK : List Byte := [0x89, 0x50, 0x4E, 0x47, 0x0D, 0x0A, 0x1A, 0x0A]

/-- `details::SETTINGS` (src/visualizer_png.h 195-201). -/
def SETTINGS : List Byte := [0x08, 0x06, 0x00, 0x00, 0x00]

/-- `details::PNGWriter` (src/visualizer_png.h 203-205): the bytes written so far and the running checksums. -/
structure Writer where
  out : List Byte := []
  a : BitVec 32 := 0
  b : BitVec 32 := 0
  c : BitVec 32 := 0
  deriving DecidableEq, Repr

/-- One half of the checksum update (src/visualizer_png.h 210). -/
def crcNibble (c : BitVec 32) : BitVec 32 := (c >>> 4) ^^^ CRC32.getD (c &&& 15#32).toNat 0

/-- `writeU8` (src/visualizer_png.h 207-212). -/
def Writer.writeU8 (w : Writer) (x : Byte) : Writer :=
  { w with out := w.out ++ [x], c := crcNibble (crcNibble (w.c ^^^ x.setWidth 32)) }

/-- `writeU16L` (src/visualizer_png.h 213-216). -/
def Writer.writeU16L (w : Writer) (x : BitVec 32) : Writer :=
  (w.writeU8 (((x >>> 0) &&& 0xFF#32).setWidth 8)).writeU8 (((x >>> 8) &&& 0xFF#32).setWidth 8)

/-- `writeU32` (src/visualizer_png.h 217-222). -/
def Writer.writeU32 (w : Writer) (x : BitVec 32) : Writer :=
  (((w.writeU8 (((x >>> 24) &&& 0xFF#32).setWidth 8)).writeU8 (((x >>> 16) &&& 0xFF#32).setWidth 8)).writeU8
    (((x >>> 8) &&& 0xFF#32).setWidth 8)).writeU8 (((x >>> 0) &&& 0xFF#32).setWidth 8)

/-- `writeU8Adler` (src/visualizer_png.h 223-227). -/
def Writer.writeU8Adler (w : Writer) (x : Byte) : Writer :=
  let w := w.writeU8 x
  let a := (w.a + x.setWidth 32) % 65521#32
  { w with a := a, b := (w.b + a) % 65521#32 }

/-- `writeMagick` (src/visualizer_png.h 228). -/
def Writer.writeMagick (w : Writer) : Writer := MAGICK.foldl Writer.writeU8 w

/-- `writeSettings` (src/visualizer_png.h 229). -/
def Writer.writeSettings (w : Writer) : Writer := SETTINGS.foldl Writer.writeU8 w

/-- `beginChunk` (src/visualizer_png.h 230-234); the name is given by its bytes. -/
def Writer.beginChunk (w : Writer) (s : List Byte) (l : BitVec 32) : Writer :=
  let w := w.writeU32 l
  s.foldl Writer.writeU8 { w with c := ~~~(0#32) }

/-- `endChunk` (src/visualizer_png.h 235). -/
def Writer.endChunk (w : Writer) : Writer := w.writeU32 (~~~w.c)

/-- `"IHDR"`, `"IDAT"`, `"IEND"` (src/visualizer_png.h 251, 257, 284). -/
def IHDR : List Byte := [0x49, 0x48, 0x44, 0x52]
@[inherit_doc IHDR] def IDAT : List Byte := [0x49, 0x44, 0x41, 0x54]
@[inherit_doc IHDR] def IEND : List Byte := [0x49, 0x45, 0x4E, 0x44]

/-- An image: `colors` (src/visualizer_png.h 308). -/
abbrev Image := List (List Color)

/-- One pixel of a row (src/visualizer_png.h 266-271). -/
def Writer.writePixel (w : Writer) (x : Color) : Writer :=
  (((w.writeU8Adler x.r).writeU8Adler x.g).writeU8Adler x.b).writeU8Adler x.a

/-- One iteration of the loop over the rows (src/visualizer_png.h 260-280), `FLIP_Y` being true (line 24). -/
def writeRow (colors : Image) (p : BitVec 32) (w : Writer) (y : Nat) : Writer :=
  let w := w.writeU8 (if y + 1 = colors.length then 1 else 0)
  let w := w.writeU16L p
  let w := w.writeU16L (~~~p)
  let w := w.writeU8Adler 0
  (colors.getD (colors.length - 1 - y) []).foldl Writer.writePixel w

/-- `PNGWriter::write` (src/visualizer_png.h 244-286). -/
def Writer.write (w : Writer) (colors : Image) : Out Writer := do
  judgeAssert (!colors.isEmpty)
  let w := { w with a := 1, b := 0 }
  let size := (colors.headD []).length
  let p : BitVec 32 := BitVec.ofNat 32 (4 * size + 1)
  let w := w.writeMagick
  let w := w.beginChunk IHDR 13
  let w := w.writeU32 (BitVec.ofNat 32 size)
  let w := w.writeU32 (BitVec.ofNat 32 colors.length)
  let w := w.writeSettings
  let w := w.endChunk
  let w := w.beginChunk IDAT (BitVec.ofNat 32 (2 + colors.length * (p + 5).toNat + 4))
  let w := w.writeU8 0x78
  let w := w.writeU8 0x01
  let w := (List.range colors.length).foldl (writeRow colors p) w
  let w := w.writeU32 ((w.b <<< 16) ||| w.a)
  let w := w.endChunk
  let w := w.beginChunk IEND 0
  let w := w.endChunk
  pure w

/-- `PNG` (src/visualizer_png.h 306-312). -/
structure PNG where
  fileName : Option String := none
  colors : Image := []
  deriving DecidableEq, Repr

/-- `clear` (src/visualizer_png.h 319-323). A negative number of rows or columns is a huge `size_t` (the allocation throws). -/
def PNG.clear (t : PNG) (w h : Int) (fill : Color) : Out PNG := do
  judgeAssert (decide (w ≤ 16383))
  judgeAssert (decide (0 ≤ w) && decide (0 ≤ h))
  pure { t with colors := List.replicate h.toNat (List.replicate w.toNat fill) }

/-- `width` (src/visualizer_png.h 333-335). -/
def width (colors : Image) : Int := if colors.isEmpty then 0 else ((colors.headD []).length : Int)

/-- `height` (src/visualizer_png.h 337-339). -/
def height (colors : Image) : Int := (colors.length : Int)

/-- `PNG::write` (src/visualizer_png.h 402-406): the name and the bytes of the file written, if any. -/
def PNG.write (t : PNG) : Out (Option (String × List Byte)) :=
  match t.fileName with
  | none => .ok none
  | some name => if width t.colors = 0 then .ok none else do
    let w ← Writer.write {} t.colors
    pure (some (name, w.out))

/-! ## Drawing -/

/-- `Point` (src/visualizer_png.h 292-304). -/
structure Point where
  x : Int
  y : Int
  deriving DecidableEq, Repr

/-- Reading `colors[y][x]` (e.g. src/visualizer_png.h 325-331). -/
def getPixel (colors : Image) (x y : Int) : Out Color :=
  if x < 0 ∨ y < 0 then .error .ub
  else match colors[y.toNat]? with
    | none => .error .ub
    | some row => match row[x.toNat]? with
      | none => .error .ub
      | some c => .ok c

/-- Assigning `colors[y][x]`. -/
def setPixel (colors : Image) (x y : Int) (c : Color) : Out Image := do
  let _ ← getPixel colors x y
  pure (colors.set y.toNat ((colors.getD y.toNat []).set x.toNat c))

/-- `colors[y][x] = details::combine<M>(colors[y][x], fill)` (src/visualizer_png.h 346, 348, 363, 372, 387, 398). -/
def paint (m : BlendMode) (colors : Image) (x y : Int) (fill : Color) : Out Image := do
  let c ← getPixel colors x y
  let d ← combine m c fill
  setPixel colors x y d

/-- The body of the inner loop of `fillRectangle` (src/visualizer_png.h 345-349). The condition
`y = a.y or y == b.y or x == a.x or x == b.x` assigns the truth value of the disjunction to `y`. -/
def rectBody (m : BlendMode) (a b : Point) (border fill : Color) (x y : Int) (colors : Image) : Out (Int × Image) :=
  let t : Bool := decide (a.y ≠ 0) || decide (y = b.y) || decide (x = a.x) || decide (x = b.x)
  let y : Int := if t then 1 else 0
  if t then do
    let colors ← paint m colors x y border
    pure (y, colors)
  else do
    let colors ← paint m colors x y fill
    pure (y, colors)

/-- The inner loop of `fillRectangle` (src/visualizer_png.h 344-350). -/
def rectInner (m : BlendMode) (a b : Point) (border fill : Color) : Nat → Int → Int → Image → Out (Int × Image)
  | 0, _, _, _ => .error .fuel
  | n + 1, x, y, colors =>
    if x ≤ max a.x b.x then do
      let (y, colors) ← rectBody m a b border fill x y colors
      rectInner m a b border fill n (x + 1) y colors
    else .ok (y, colors)

/-- The outer loop of `fillRectangle` (src/visualizer_png.h 343-351). -/
def rectOuter (m : BlendMode) (a b : Point) (border fill : Color) : Nat → Int → Image → Out Image
  | 0, _, _ => .error .fuel
  | n + 1, y, colors =>
    if y ≤ max a.y b.y then do
      let (y, colors) ← rectInner m a b border fill n (min a.x b.x) y colors
      rectOuter m a b border fill n (y + 1) colors
    else .ok colors

/-- `fillRectangle` (src/visualizer_png.h 341-352). -/
def fillRectangle (fuel : Nat) (m : BlendMode) (colors : Image) (a b : Point) (border fill : Color) : Out Image :=
  rectOuter m a b border fill fuel (min a.y b.y) colors

/-- `details::DIRECTIONS` (src/visualizer_png.h 289). -/
def DIRECTIONS : List (Int × Int) := [(0, 1), (0, -1), (1, 0), (-1, 0)]

/-- The loop over the directions in `floodFill` (src/visualizer_png.h 368-374); the end of `todo` is the head of the list. -/
def floodDirs (m : BlendMode) (old fill : Color) (p : Point) : List (Int × Int) → Image → List Point → Out (Image × List Point)
  | [], colors, todo => .ok (colors, todo)
  | (dx, dy) :: ds, colors, todo =>
    if p.y + dy < 0 ∨ p.y + dy ≥ height colors then floodDirs m old fill p ds colors todo
    else if p.x + dx < 0 ∨ p.x + dx ≥ width colors then floodDirs m old fill p ds colors todo
    else do
      let c ← getPixel colors (p.x + dx) (p.y + dy)
      if c ≠ old then floodDirs m old fill p ds colors todo
      else do
        let colors ← paint m colors (p.x + dx) (p.y + dy) fill
        floodDirs m old fill p ds colors (⟨p.x + dx, p.y + dy⟩ :: todo)

/-- The outer loop of `floodFill` (src/visualizer_png.h 365-375). -/
def floodLoop (m : BlendMode) (old fill : Color) : Nat → Image → List Point → Out Image
  | _, colors, [] => .ok colors
  | 0, _, _ :: _ => .error .fuel
  | n + 1, colors, p :: todo => do
    let (colors, todo) ← floodDirs m old fill p DIRECTIONS colors todo
    floodLoop m old fill n colors todo

/-- `floodFill` (src/visualizer_png.h 359-376). -/
def floodFill (fuel : Nat) (m : BlendMode) (colors : Image) (a : Point) (fill : Color) : Out Image := do
  let old ← getPixel colors a.x a.y
  let colors ← paint m colors a.x a.y fill
  let c ← getPixel colors a.x a.y
  if old = c then pure colors
  else floodLoop m old fill fuel colors [a]

/-- The loop of `drawLine` (src/visualizer_png.h 388-399). -/
def lineLoop (m : BlendMode) (fill : Color) (dx dy sx sy : Int) (b : Point) : Nat → Point → Int → Image → Out Image
  | 0, _, _, _ => .error .fuel
  | n + 1, c, error, colors =>
    if c = b then .ok colors
    else do
      let e2 ← chk (2 * error)
      let (error, c) ← if e2 ≥ dy then do
          let error ← chk (error + dy)
          let x ← chk (c.x + sx)
          pure (error, { c with x := x })
        else (pure (error, c) : Out (Int × Point))
      let (error, c) ← if e2 ≤ dx then do
          let error ← chk (error + dx)
          let y ← chk (c.y + sy)
          pure (error, { c with y := y })
        else (pure (error, c) : Out (Int × Point))
      let colors ← paint m colors c.x c.y fill
      lineLoop m fill dx dy sx sy b n c error colors

/-- `std::abs`: undefined if the result does not fit. -/
def absI (x : Int) : Out Int := chk (if x < 0 then -x else x)

/-- `(d < 0) - (d > 0)` (src/visualizer_png.h 382, 384). -/
def signNeg (d : Int) : Int := (if d < 0 then 1 else 0) - (if d > 0 then 1 else 0)

/-- `drawLine` (src/visualizer_png.h 378-400). -/
def drawLine (fuel : Nat) (m : BlendMode) (colors : Image) (a b : Point) (fill : Color) : Out Image := do
  let ex ← chk (b.x - a.x)
  let dx ← absI ex
  let fx ← chk (a.x - b.x)
  let sx := signNeg fx
  let ey ← chk (b.y - a.y)
  let ay ← absI ey
  let dy ← chk (-ay)
  let fy ← chk (a.y - b.y)
  let sy := signNeg fy
  let error ← chk (dx + dy)
  let colors ← paint m colors a.x a.y fill
  lineLoop m fill dx dy sx sy b fuel a error colors

end ICPC.Png
