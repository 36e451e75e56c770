import Verif.Spec.Validator

/-!
# The shape of a file that a program reads in space sensitive mode
-/

namespace ICPC.Spec

/-- `text` consists of the tokens and separators that the call asks for. -/
def CallShape {R : Type} : Call R → List Char → Prop
  | .tok _, text => Token text
  | .many _ n sep, text => ∃ texts : List (List Char), (texts.length : Int) = n ∧ (∀ t ∈ texts, Token t) ∧ text = separate [sep] texts
  | .expectString _, text => Token text
  | .expectInt _, text => Token text
  | .expectReal _, text => Token text
  | .space, text => text = [' ']
  | .newline, text => text = ['\n']
  | .eof, text => text = []

/-- The input `s` up to `rest` is the concatenation of the texts of the calls that the program makes, where the values that they return are `vs`. -/
inductive Consists {R : Type} : Prog R → List (List (Val R)) → List Char → List Char → Prop
  | done {r rest} : Consists (.done r) [] rest rest
  | call {c k v vs text s rest} : CallShape c text → Follow c s → Consists (k v) vs s rest → Consists (.call c k) (v :: vs) (text ++ s) rest

/-- `text` is accepted by the call, where `expectReal` is as the code has it: it takes the numbers that are *not* close to the expected one
(src/validate.h 2652-2663). -/
def CallTextCode {R : Type} (fold : List Char → List Char) (ops : RealOps R) : Call R → List (Val R) → List Char → Prop
  | .expectReal e, vs, text =>
    vs = [] ∧ StrictToken text ∧ Lang REAL_REGEX (fold text) ∧ ∃ x, ops.parse (fold text) = some x ∧ ops.close x e = false
  | c, vs, text => CallText fold ops c vs text

/-- The program accepts the text `s` up to `rest`, getting the values `vs`, with `expectReal` as the code has it. -/
inductive AcceptsCode {R : Type} (fold : List Char → List Char) (ops : RealOps R) :
    Prog R → List (List (Val R)) → List Char → List Char → Prop
  | done {rest} : AcceptsCode fold ops (.done (.ok ())) [] rest rest
  | call {c k v vs text s rest} : CallTextCode fold ops c v text → Follow c s → AcceptsCode fold ops (k v) vs s rest →
      AcceptsCode fold ops (.call c k) (v :: vs) (text ++ s) rest

end ICPC.Spec
