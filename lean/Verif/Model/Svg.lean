import Verif.Model.Png

/-!
# The SVG visualizer (src/visualizer_svg.h): colours and the bounding box

`Real` is `Rat` with exact arithmetic. The text written for a shape and the decimal form of the numbers are not modelled, except for
colours.
-/

namespace ICPC.Svg

open ICPC.Png (Byte clampColor clampReal)

/-- `Color` (src/visualizer_svg.h 26-83). -/
structure Color where
  r : Byte
  g : Byte
  b : Byte
  deriving DecidableEq, Repr

/-- `operator*` (src/visualizer_svg.h 112-120); `clamp_color` (91-110) is that of src/visualizer_png.h. -/
def Color.scale (f : Rat) (c : Color) : Out Color := do
  let r ← clampReal (c.r.toNat * f)
  let g ← clampReal (c.g.toNat * f)
  let b ← clampReal (c.b.toNat * f)
  pure { r := r, g := g, b := b }

/-- `operator+` (src/visualizer_svg.h 126-130). -/
def Color.add (a b : Color) : Color :=
  { r := clampColor (a.r.toNat + b.r.toNat), g := clampColor (a.g.toNat + b.g.toNat), b := clampColor (a.b.toNat + b.b.toNat) }

/-- `operator-` (src/visualizer_svg.h 137-141). -/
def Color.sub (a b : Color) : Color :=
  { r := clampColor (a.r.toNat - b.r.toNat), g := clampColor (a.g.toNat - b.g.toNat), b := clampColor (a.b.toNat - b.b.toNat) }

/-- `lerp` (src/visualizer_svg.h 147-150). -/
def lerp (a b : Color) (f : Rat) : Out Color := do
  judgeAssert (decide (0 ≤ f) && decide (f ≤ 1))
  let x ← a.scale f
  let y ← b.scale (1 - f)
  pure (x.add y)

/-- A hexadecimal digit as written with `std::hex`. -/
def hexDigit (n : Nat) : Char := if n < 10 then Char.ofNat (48 + n) else Char.ofNat (87 + n)

/-- A number below 256 written with `std::hex`, `std::setw(2)` and `std::setfill('0')`. -/
def hexByte (x : Byte) : List Char :=
  if x.toNat < 16 then ['0', hexDigit x.toNat] else [hexDigit (x.toNat / 16), hexDigit (x.toNat % 16)]

/-- `operator<<` of a colour (src/visualizer_svg.h 74-81). -/
def Color.print (c : Color) : List Char := '#' :: (hexByte c.r ++ (hexByte c.g ++ hexByte c.b))

/-- `Point` (src/visualizer_svg.h 263-285). -/
structure Point where
  x : Rat
  y : Rat
  deriving DecidableEq, Repr

/-- `Dimension` (src/visualizer_svg.h 239-261). -/
structure Dimension where
  width : Rat
  height : Rat
  deriving DecidableEq, Repr

/-- `Point::operator+` (src/visualizer_svg.h 268-270). -/
def Point.add (p : Point) (d : Dimension) : Point := ⟨p.x + d.width, p.y + d.height⟩

/-- `flipY` (src/visualizer_svg.h 287-293), `FLIP_Y` being true (line 24). -/
def flipY (y : Rat) (height : Rat := 0) : Rat := -(y + height)

/-- The bounding box kept by `SVG` (src/visualizer_svg.h 299-300). -/
structure Box where
  origin : Point := ⟨0, 0⟩
  dimension : Dimension := ⟨0, 0⟩
  deriving DecidableEq, Repr

/-- The `viewBox` attribute (src/visualizer_svg.h 322-325): left, top, width, height. -/
def Box.viewBox (s : Box) : Rat × Rat × Rat × Rat :=
  (s.origin.x, flipY s.origin.y s.dimension.height, s.dimension.width, s.dimension.height)

/-- `includeInBB` (src/visualizer_svg.h 330-345). -/
def Box.includeInBB (s : Box) (p : Point) : Box :=
  let s := if p.x < s.origin.x then
      { origin := { s.origin with x := p.x }, dimension := { s.dimension with width := s.dimension.width + (s.origin.x - p.x) } }
    else s
  let s := if p.x > s.origin.x + s.dimension.width then
      { s with dimension := { s.dimension with width := p.x - s.origin.x } }
    else s
  let s := if p.y < s.origin.y then
      { origin := { s.origin with y := p.y }, dimension := { s.dimension with height := s.dimension.height + (s.origin.y - p.y) } }
    else s
  if p.y > s.origin.y + s.dimension.height then
    { s with dimension := { s.dimension with height := p.y - s.origin.y } }
  else s

/-- The shapes (src/visualizer_svg.h 372-528). -/
inductive Shape where
  | rectangle (origin : Point) (dimension : Dimension)
  | circle (origin : Point) (r : Rat)
  | ellipse (origin : Point) (rx ry : Rat)
  | polygon (points : List Point)
  | line (p1 p2 : Point)
  | polyline (points : List Point)
  deriving DecidableEq, Repr

/-- `operator<<(SVG&, shape)` (src/visualizer_svg.h 395-400, 421-426, 448-453, 473-477, 498-503, 523-527): the calls of `includeInBB`. -/
def Box.draw (s : Box) : Shape → Box
  | .rectangle o d => (s.includeInBB o).includeInBB (o.add d)
  | .circle o r => (s.includeInBB (o.add ⟨r, r⟩)).includeInBB (o.add ⟨-r, -r⟩)
  | .ellipse o rx ry => (s.includeInBB (o.add ⟨rx, ry⟩)).includeInBB (o.add ⟨-rx, -ry⟩)
  | .polygon ps => ps.foldl Box.includeInBB s
  | .line p1 p2 => (s.includeInBB p1).includeInBB p2
  | .polyline ps => ps.foldl Box.includeInBB s

/-- The box after a sequence of shapes, starting from that of a new `SVG`. -/
def Box.drawAll (shapes : List Shape) : Box := shapes.foldl Box.draw {}

end ICPC.Svg
