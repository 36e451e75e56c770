import Verif.Model.Svg

/-!
# What the bounding box is to contain
-/

namespace ICPC.Spec.SvgFormat

open ICPC.Svg

/-- The vertical axis of an SVG image points downwards: a point `(x, y)` of the drawing is shown at `(x, -y)`. -/
def shown (p : Point) : Point := ⟨p.x, -p.y⟩

/-- The area selected by a `viewBox` attribute: left, top, width, height. -/
def InView (v : Rat × Rat × Rat × Rat) (p : Point) : Prop :=
  v.1 ≤ p.x ∧ p.x ≤ v.1 + v.2.2.1 ∧ v.2.1 ≤ p.y ∧ p.y ≤ v.2.1 + v.2.2.2

/-- The points of the convex hull of the points in `ps` are the mixtures of two points of it, starting with `ps`. -/
inductive Hull (ps : List Point) : Point → Prop
  | point (p : Point) : p ∈ ps → Hull ps p
  | mix (p q : Point) (t : Rat) : Hull ps p → Hull ps q → 0 ≤ t → t ≤ 1 → Hull ps ⟨p.x + t * (q.x - p.x), p.y + t * (q.y - p.y)⟩

/-- The area covered by a shape (without the width of the stroke). Radii may have either sign. -/
def Covers : Shape → Point → Prop
  | .rectangle o d, p => o.x ≤ p.x ∧ p.x ≤ o.x + d.width ∧ o.y ≤ p.y ∧ p.y ≤ o.y + d.height
  | .circle o r, p => (p.x - o.x) ^ 2 + (p.y - o.y) ^ 2 ≤ r ^ 2
  | .ellipse o rx ry, p => (p.x - o.x) ^ 2 * ry ^ 2 + (p.y - o.y) ^ 2 * rx ^ 2 ≤ rx ^ 2 * ry ^ 2 ∧ rx ≠ 0 ∧ ry ≠ 0
  | .polygon ps, p => Hull ps p
  | .line p1 p2, p => Hull [p1, p2] p
  | .polyline ps, p => Hull ps p

/-- The corners of the smallest boxes around the shapes. -/
def extreme : Shape → List Point
  | .rectangle o d => [o, ⟨o.x + d.width, o.y + d.height⟩]
  | .circle o r => [⟨o.x - r, o.y - r⟩, ⟨o.x + r, o.y + r⟩]
  | .ellipse o rx ry => [⟨o.x - rx, o.y - ry⟩, ⟨o.x + rx, o.y + ry⟩]
  | .polygon ps => ps
  | .line p1 p2 => [p1, p2]
  | .polyline ps => ps

/-- The value of a hexadecimal digit. -/
def hexValue (c : Char) : Option Nat :=
  if '0' ≤ c ∧ c ≤ '9' then some (c.toNat - '0'.toNat)
  else if 'a' ≤ c ∧ c ≤ 'f' then some (c.toNat - 'a'.toNat + 10) else none

/-- The value of two hexadecimal digits. -/
def hexPair (c d : Char) : Option (BitVec 8) := do
  let x ← hexValue c
  let y ← hexValue d
  pure (BitVec.ofNat 8 (16 * x + y))

/-- A colour in the notation `#rrggbb`. -/
def parseColor : List Char → Option Color
  | ['#', r1, r2, g1, g2, b1, b2] => do
    let r ← hexPair r1 r2
    let g ← hexPair g1 g2
    let b ← hexPair b1 b2
    pure { r := r, g := g, b := b }
  | _ => none

end ICPC.Spec.SvgFormat
