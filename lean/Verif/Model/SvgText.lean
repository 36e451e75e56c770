import Verif.Model.Svg

/-!
# The SVG visualizer (src/visualizer_svg.h): the text that is written

The decimal notation of numbers is a parameter: `num` is `std::ostream << Real`, `toString` is `std::to_string(Real)`.
Coordinates are rationals with exact arithmetic, as in `Model/Svg`.
-/

namespace ICPC.Svg

variable (num toString : Rat → List Char)

/-- `attribute(key, value)` (src/visualizer_svg.h 168-173), the value already printed. -/
def attr (key value : List Char) : List Char := key ++ "=\"".toList ++ value ++ "\" ".toList

/-- `attribute(key, std::optional value)` (src/visualizer_svg.h 175-180). -/
def attrOpt (key : List Char) : Option (List Char) → List Char
  | some value => key ++ "=\"".toList ++ value ++ "\" ".toList
  | none => []

/-- `Linecap` (src/visualizer_svg.h 191-195). -/
inductive Linecap where
  | butt | round | square
  deriving DecidableEq

/-- `operator<<` (src/visualizer_svg.h 197-204). -/
def Linecap.print : Linecap → List Char
  | .butt => "butt".toList
  | .round => "round".toList
  | .square => "square".toList

/-- `Linejoin` (src/visualizer_svg.h 206-210). -/
inductive Linejoin where
  | round | bevel | miter
  deriving DecidableEq

/-- `operator<<` (src/visualizer_svg.h 212-219). -/
def Linejoin.print : Linejoin → List Char
  | .round => "round".toList
  | .bevel => "bevel".toList
  | .miter => "miter".toList

/-- `Stroke` (src/visualizer_svg.h 221-237). -/
structure Stroke where
  color : Color
  width : Rat
  linecap : Option Linecap
  linejoin : Option Linejoin
  scale : Bool

/-- `operator<<` of `Stroke` (src/visualizer_svg.h 230-236). -/
def Stroke.print (s : Stroke) : List Char :=
  attr "stroke".toList s.color.print ++
  attr "stroke-width".toList (num s.width) ++
  attrOpt "stroke-linecap".toList (s.linecap.map Linecap.print) ++
  attrOpt "stroke-linejoin".toList (s.linejoin.map Linejoin.print) ++
  if !s.scale then attr "vector-effect".toList "non-scaling-stroke".toList else []

/-- The members of `Shape` (src/visualizer_svg.h 353-356); a `Fill` is its colour. -/
structure Style where
  stroke : Option Stroke
  fill : Option Color

/-- `operator<<` of `Shape` (src/visualizer_svg.h 360-367), with that of `Fill` (186-188). -/
def Style.print (s : Style) : List Char :=
  (match s.stroke with
    | some stroke => stroke.print num
    | none => attr "stroke".toList "none".toList) ++
  (match s.fill with
    | some fill => attr "fill".toList fill.print
    | none => attr "fill".toList "none".toList)

/-- The loop over the points of a polygon or polyline (src/visualizer_svg.h 467, 517). -/
def printPoints : List Point → List Char
  | [] => []
  | p :: ps => num p.x ++ ",".toList ++ num (flipY p.y) ++ " ".toList ++ printPoints ps

/-- `operator<<` of the shapes (src/visualizer_svg.h 384-393, 411-419, 437-446, 464-471, 487-496, 514-521). -/
def Shape.print (sh : Shape) (style : Style) : List Char :=
  match sh with
  | .rectangle o d => "<rect ".toList ++ attr "x".toList (num o.x) ++ attr "y".toList (num (flipY o.y d.height)) ++
      attr "width".toList (num d.width) ++ attr "height".toList (num d.height) ++ style.print num ++ "/>".toList
  | .circle o r => "<circle ".toList ++ attr "r".toList (num r) ++ attr "cx".toList (num o.x) ++
      attr "cy".toList (num (flipY o.y)) ++ style.print num ++ "/>".toList
  | .ellipse o rx ry => "<ellipse ".toList ++ attr "rx".toList (num rx) ++ attr "ry".toList (num ry) ++
      attr "cx".toList (num o.x) ++ attr "cy".toList (num (flipY o.y)) ++ style.print num ++ "/>".toList
  | .polygon ps => "<polygon ".toList ++ "points=\"".toList ++ printPoints num ps ++ "\" ".toList ++ style.print num ++ "/>".toList
  | .line p1 p2 => "<line ".toList ++ attr "x1".toList (num p1.x) ++ attr "y1".toList (num (flipY p1.y)) ++
      attr "x2".toList (num p2.x) ++ attr "y2".toList (num (flipY p2.y)) ++ style.print num ++ "/>".toList
  | .polyline ps => "<polyline ".toList ++ "points=\"".toList ++ printPoints num ps ++ "\" ".toList ++ style.print num ++ "/>".toList

/-- What can be written to an `SVG`: a shape, a `Comment`, or text, as `std::endl`. -/
inductive Item where
  | shape (sh : Shape) (style : Style)
  | comment (c : List Char)
  | text (t : List Char)

/-- The text of an item; `Comment` (src/visualizer_svg.h 531-538). -/
def Item.print : Item → List Char
  | .shape sh style => sh.print num style
  | .comment c => "<!-- ".toList ++ c ++ " -->".toList
  | .text t => t

/-- The box of an image after an item. -/
def Box.item (s : Box) : Item → Box
  | .shape sh _ => s.draw sh
  | _ => s

/-- `image.origin -= shift; image.dimension += grow` (src/visualizer_svg.h 251-255, 280-284), the way in which
example/visualizer.svg.cpp 28-29 enlarges the box. -/
def Box.enlarge (s : Box) (shift grow : Dimension) : Box :=
  { origin := ⟨s.origin.x - shift.width, s.origin.y - shift.height⟩
    dimension := ⟨s.dimension.width + grow.width, s.dimension.height + grow.height⟩ }

/-- `SVG::write` (src/visualizer_svg.h 312-328) of an image with a file name after the items were written and the box was
enlarged: the content of the file, if one is written. -/
def file (items : List Item) (shift grow : Dimension := ⟨0, 0⟩) : Option (List Char) :=
  let out := (items.map (Item.print num)).flatten
  let box : Box := (items.foldl Box.item {}).enlarge shift grow
  if out.isEmpty then none
  else some (
    "<?xml ".toList ++ attr "version".toList "1.0".toList ++ attr "encoding".toList "UTF8".toList ++ "?>".toList ++ "\n".toList ++
    "<svg ".toList ++ attr "xmlns".toList "http://www.w3.org/2000/svg".toList ++
    attr "version".toList "1.0".toList ++
    attr "baseProfile".toList "full".toList ++
    attr "viewBox".toList (toString box.origin.x ++ " ".toList ++ toString (flipY box.origin.y box.dimension.height) ++ " ".toList ++
      toString box.dimension.width ++ " ".toList ++ toString box.dimension.height) ++ ">".toList ++ "\n".toList ++
    out ++ "</svg>".toList)

end ICPC.Svg
