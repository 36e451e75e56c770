import Verif.Model.Png
import Verif.Model.SvgText

/-!
# The objects `PNG` and `SVG` and their files (src/visualizer_png.h 306-317, 402-425, src/visualizer_svg.h 294-328, 347-349, 541-551)

Both classes have an optional file name and a picture, and their destructors call `write`. `Class` has what differs. `PNG` can be copied and moved;
`SVG` has a deleted copy constructor, copy assignment and move constructor (its base class `std::ostream` has a virtual base class that can be neither
copied nor moved), so only the move assignment is left. Opening a file for writing truncates it; if that fails nothing is written, which is
not checked. Addresses stand for objects. Not modelled: other variables of the program, and reading numbers from `testIn` and `testAns`.
-/

namespace ICPC.Life

abbrev Path := List Char

variable {P B : Type}

/-- A class of images: the picture of a new object, when nothing is written, and what is written to a file. -/
structure Class (P B : Type) where
  blank : P
  isEmpty : P → Bool
  encode : P → Out (List B)

/-- An object (src/visualizer_png.h 307-312, src/visualizer_svg.h 295-307). -/
structure Img (P : Type) where
  fileName : Option Path
  pic : P

/-- Objects and files. -/
structure World (P B : Type) where
  obj : Nat → Option (Img P)
  files : Path → Option (List B)
  canWrite : Path → Bool

def World.setObj (w : World P B) (x : Nat) (o : Option (Img P)) : World P B := { w with obj := fun y => if y = x then o else w.obj y }

def World.setFile (w : World P B) (p : Path) (t : List B) : World P B := { w with files := fun q => if q = p then some t else w.files q }

/-- `write()` (src/visualizer_png.h 402-406, src/visualizer_svg.h 314-328). -/
def save (c : Class P B) (im : Img P) (w : World P B) : Out (World P B) :=
  match im.fileName with
  | none => .ok w
  | some p =>
    if c.isEmpty im.pic then .ok w
    else do
      let t ← c.encode im.pic
      if w.canWrite p then .ok (w.setFile p t) else .ok w

/-- What a program does with images. -/
inductive Act (P : Type) where
  /-- `PNG x;` or `PNG x(name);` -/
  | make (x : Nat) (name : Option Path)
  /-- `PNG x = y;` -/
  | copy (x y : Nat)
  /-- `x = y;` -/
  | assign (x y : Nat)
  /-- `x = std::move(y);`: `junk` is the unspecified value of the string that was moved; the picture of `y` is empty then, or that of `x` if the
  pictures are swapped -/
  | move (x y : Nat) (junk : Path) (swap : Bool)
  /-- drawing -/
  | edit (x : Nat) (f : P → Out P)
  /-- `x.write();` -/
  | write (x : Nat)
  /-- the destructor (src/visualizer_png.h 408-410, src/visualizer_svg.h 347-349) -/
  | drop (x : Nat)

/-- The object at an address. -/
def World.get (w : World P B) (x : Nat) : Out (Img P) :=
  match w.obj x with
  | some o => .ok o
  | none => .error .ub

/-- One action; a new object needs a free address, and a move an object other than itself. -/
def exec (c : Class P B) (w : World P B) : Act P → Out (World P B)
  | .make x name => if (w.obj x).isSome then .error .ub else .ok (w.setObj x (some ⟨name, c.blank⟩))
  | .copy x y => do
    let o ← w.get y
    if (w.obj x).isSome then .error .ub else .ok (w.setObj x (some o))
  | .assign x y => do
    let _ ← w.get x
    let o ← w.get y
    .ok (w.setObj x (some o))
  | .move x y junk swap => do
    let a ← w.get x
    let b ← w.get y
    if x = y then .error .ub
    else
      let w := w.setObj x (some b)
      .ok (w.setObj y (some ⟨b.fileName.map fun _ => junk, if swap then a.pic else c.blank⟩))
  | .edit x f => do
    let o ← w.get x
    let q ← f o.pic
    .ok (w.setObj x (some { o with pic := q }))
  | .write x => do
    let o ← w.get x
    save c o w
  | .drop x => do
    let o ← w.get x
    let w ← save c o w
    .ok (w.setObj x none)

/-- A program. -/
def run (c : Class P B) : List (Act P) → World P B → Out (World P B)
  | [], w => .ok w
  | a :: l, w => do
    let w ← exec c w a
    run c l w

/-- What `Visualizer::init` does to images (src/visualizer_png.h 418-421, src/visualizer_svg.h 543-546): `image` has address 0, the temporary 1. -/
def initActs (name : Path) (junk : Path) (swap : Bool) : List (Act P) := [.make 1 (some name), .move 0 1 junk swap, .drop 1]

/-- A program with `using namespace Visualizer` (src/visualizer_png.h 412-427, src/visualizer_svg.h 541-552): the global object `image`, `init` with the
extension `.png` or `.svg`, the body, which can read the test and the answer, and the destructor of `image` at the end. `assert(argc > 1)` ends the
program. -/
def visualizer (c : Class P B) (ext : String) (argv : List Path) (junk : Path) (swap : Bool) (body : Option (List B) → Option (List B) → List (Act P))
    (w : World P B) : Out (World P B) := do
  let w ← exec c w (.make 0 none)
  match argv[1]? with
  | none => .error .throw
  | some name => do
    let w ← run c (initActs (name ++ ext.toList) junk swap) w
    let w ← run c (body (w.files (name ++ ".in".toList)) (w.files (name ++ ".ans".toList))) w
    exec c w (.drop 0)

/-- The class `PNG`. -/
def png : Class Png.Image Png.Byte where
  blank := []
  isEmpty im := decide (Png.width im = 0)
  encode im := do
    let w ← Png.Writer.write {} im
    pure w.out

/-- What was written to an `SVG`, and how its box was changed afterwards. -/
structure SvgPic where
  items : List Svg.Item := []
  shift : Svg.Dimension := ⟨0, 0⟩
  grow : Svg.Dimension := ⟨0, 0⟩

/-- The class `SVG`; `num` and `toString` are the notations of numbers. -/
def svg (num toString : Rat → List Char) : Class SvgPic Char where
  blank := {}
  isEmpty s := (Svg.file num toString s.items s.shift s.grow).isNone
  encode s := .ok ((Svg.file num toString s.items s.shift s.grow).getD [])

end ICPC.Life
