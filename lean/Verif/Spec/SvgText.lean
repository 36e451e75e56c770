import Verif.Model.SvgText
import Verif.Spec.Svg
import Verif.Spec.Xml

/-!
# The elements of an SVG image

The element that the SVG recommendation has for each shape, with the coordinates of the image, whose vertical axis points
downwards.
-/

namespace ICPC.Spec.SvgFormat

open ICPC.Svg ICPC.Spec.Xml

/-- The characters of the notation of a number. -/
def NumberChar (c : Char) : Prop := c ≠ '"' ∧ c ≠ '<' ∧ c ≠ '&'

/-- A notation of numbers that can be used in attributes. -/
def Notation (num : Rat → List Char) : Prop := ∀ q, ∀ c ∈ num q, NumberChar c

/-- The presentation attributes. -/
def styleAttributes (num : Rat → List Char) (s : Style) : List (List Char × List Char) :=
  (match s.stroke with
    | none => [("stroke".toList, "none".toList)]
    | some st =>
      [("stroke".toList, st.color.print), ("stroke-width".toList, num st.width)] ++
      (match st.linecap with
        | none => []
        | some .butt => [("stroke-linecap".toList, "butt".toList)]
        | some .round => [("stroke-linecap".toList, "round".toList)]
        | some .square => [("stroke-linecap".toList, "square".toList)]) ++
      (match st.linejoin with
        | none => []
        | some .round => [("stroke-linejoin".toList, "round".toList)]
        | some .bevel => [("stroke-linejoin".toList, "bevel".toList)]
        | some .miter => [("stroke-linejoin".toList, "miter".toList)]) ++
      (if st.scale then [] else [("vector-effect".toList, "non-scaling-stroke".toList)])) ++
  [("fill".toList, match s.fill with
    | none => "none".toList
    | some c => c.print)]

/-- The value of the attribute `points`. -/
def pointList (num : Rat → List Char) (ps : List Point) : List Char :=
  (ps.map fun p => num (shown p).x ++ ',' :: num (shown p).y ++ [' ']).flatten

/-- Name and geometry of the element for a shape.  The attributes of a rectangle name its upper left corner in the image. -/
def element (num : Rat → List Char) : Shape → List Char × List (List Char × List Char)
  | .rectangle o d => ("rect".toList, [("x".toList, num (shown (o.add ⟨0, d.height⟩)).x), ("y".toList, num (shown (o.add ⟨0, d.height⟩)).y),
      ("width".toList, num d.width), ("height".toList, num d.height)])
  | .circle o r => ("circle".toList, [("r".toList, num r), ("cx".toList, num (shown o).x), ("cy".toList, num (shown o).y)])
  | .ellipse o rx ry => ("ellipse".toList, [("rx".toList, num rx), ("ry".toList, num ry), ("cx".toList, num (shown o).x), ("cy".toList, num (shown o).y)])
  | .polygon ps => ("polygon".toList, [("points".toList, pointList num ps)])
  | .line p q => ("line".toList, [("x1".toList, num (shown p).x), ("y1".toList, num (shown p).y), ("x2".toList, num (shown q).x), ("y2".toList, num (shown q).y)])
  | .polyline ps => ("polyline".toList, [("points".toList, pointList num ps)])

/-- The node of an item; text is not a node of its own. -/
def node (num : Rat → List Char) : Item → Option Node
  | .shape sh style => some (.element (element num sh).1 ((element num sh).2 ++ styleAttributes num style) [])
  | .comment c => some (.comment (' ' :: c ++ [' ']))
  | .text _ => none

/-- Two hyphens do not follow each other. -/
def NoDoubleHyphen (c : List Char) : Prop := ¬ ∃ a b, c = a ++ '-' :: '-' :: b

/-- Items that are allowed in an image: comments without two hyphens in a row, text without markup. -/
def Allowed : Item → Prop
  | .shape _ _ => True
  | .comment c => NoDoubleHyphen c
  | .text t => ∀ c ∈ t, c ≠ '<' ∧ c ≠ '&' ∧ c ≠ '>'

/-- The shapes among the items. -/
def shapes (items : List Item) : List Shape := items.filterMap fun
  | .shape sh _ => some sh
  | _ => none

/-- The box `left`, `top`, `width`, `height` of the image after the lower left corner was moved by `shift` to the left and down
and the size was increased by `grow`. -/
def enlarged (v : Rat × Rat × Rat × Rat) (shift grow : Dimension) : Rat × Rat × Rat × Rat :=
  (v.1 - shift.width, v.2.1 + shift.height - grow.height, v.2.2.1 + grow.width, v.2.2.2 + grow.height)

/-- The attributes of the root element, for the box `left`, `top`, `width`, `height`. -/
def rootAttributes (toString : Rat → List Char) (v : Rat × Rat × Rat × Rat) : List (List Char × List Char) :=
  [("xmlns".toList, "http://www.w3.org/2000/svg".toList), ("version".toList, "1.0".toList), ("baseProfile".toList, "full".toList),
    ("viewBox".toList, toString v.1 ++ ' ' :: toString v.2.1 ++ ' ' :: toString v.2.2.1 ++ ' ' :: toString v.2.2.2)]

end ICPC.Spec.SvgFormat
