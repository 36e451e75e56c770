import Verif.Model.Png
import Verif.Model.RealText
import Verif.Model.SvgText

/-!
# The example visualizers (example/visualizer.png.cpp and example/visualizer.svg.cpp)

The programs are functions of the numbers that they read with `>>`. Coordinates of the SVG example are rationals, as in `Model/Svg`.
-/

namespace ICPC.VisualizerExample

open ICPC

/-- `WHITE`, `BLACK` and `TRANSPARENT` (src/visualizer_png.h 174-179). -/
def white : Png.Color := Png.Color.ofRgb 0xFFFFFF
def black : Png.Color := Png.Color.ofRgb 0x000000
def transparent : Png.Color := Png.Color.ofRgb 0x000000 0x00

/-- `{x+1, y+1}` (example/visualizer.png.cpp 16). -/
def moved (p : Png.Point) : Png.Point := ⟨p.x + 1, p.y + 1⟩

/-- The loop over the lines (example/visualizer.png.cpp 13-17). -/
def drawLines (fuel : Nat) : List (Png.Point × Png.Point) → Png.Image → Out Png.Image
  | [], im => .ok im
  | s :: l, im => do
    let im ← Png.drawLine fuel .assign im (moved s.1) (moved s.2) black
    drawLines fuel l im

/-- The picture before the last statement (example/visualizer.png.cpp 11-19). The additions do not overflow for the sizes of the theorems. -/
def picture (fuel : Nat) (w h : Int) (lines : List (Png.Point × Png.Point)) : Out Png.Image := do
  let t ← Png.PNG.clear {} (w + 2) (h + 2) white
  let im ← drawLines fuel lines t.colors
  Png.floodFill fuel .assign im ⟨0, 0⟩ transparent

/-- example/visualizer.png.cpp 5-22, up to the destructor that writes the file. -/
def pngMain (fuel : Nat) (w h : Int) (lines : List (Png.Point × Png.Point)) : Out Png.Image := do
  let im ← picture fuel w h lines
  Png.fillRectangle fuel .blend im ⟨0, 0⟩ ⟨w + 1, h + 1⟩ (Png.Color.ofRgb 0xFF00FF 0x80) (Png.Color.ofRgb 0xFF00FF 0x80)

/-- `Stroke(color, 0.1)` and no filling (example/visualizer.svg.cpp 11, 20). -/
def outline (c : Svg.Color) : Svg.Style := ⟨some ⟨c, 1 / 10, none, none, true⟩, none⟩

/-- example/visualizer.svg.cpp 5-30: the content of the file, for the points of the test and of the answer. -/
def svgMain (test answer : List Svg.Point) : Option (List Char) :=
  Svg.file Fp.attributeText Fp.toStringText
    [.shape (.polygon test) (outline ⟨0, 0, 0⟩), .text ['\n'], .shape (.polyline answer) (outline ⟨255, 0, 0⟩), .text ['\n']] ⟨3, 3⟩ ⟨6, 6⟩

end ICPC.VisualizerExample
