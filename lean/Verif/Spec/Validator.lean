import Verif.Spec.Stream
import Verif.Model.Validator
import Mathlib.Data.List.Forall2

/-!
# Specification of what the read functions accept in space sensitive mode

`fold` is the identity for case sensitive streams and the conversion to the default case otherwise.
-/

namespace ICPC.Spec

/-- A token at the start of which a strict stream accepts: its first character is visible. -/
def StrictToken (t : List Char) : Prop := Token t ∧ ∃ c r, t = c :: r ∧ Visible c

/-- The number of characters after the decimal point of `t` is `n`. -/
def HasDecimals (t : List Char) (n : Nat) : Prop :=
  ('.' ∉ t ∧ n = 0) ∨ ∃ a b, t = a ++ '.' :: b ∧ '.' ∉ a ∧ b.length = n

/-- `text` is a token that the function accepts, and the function then returns the value `v`. -/
def TokText {R : Type} (fold : List Char → List Char) (ops : RealOps R) : Tok R → Val R → List Char → Prop
  | .string, .str t, text => StrictToken text ∧ t = fold text
  | .stringBounded l u, .str t, text => StrictToken text ∧ t = fold text ∧ l ≤ text.length ∧ text.length < u
  | .stringRe p, .str t, text => StrictToken text ∧ t = fold text ∧ Lang p t
  | .stringReBounded p l u, .str t, text =>
    StrictToken text ∧ t = fold text ∧ Lang p t ∧ l ≤ text.length ∧ text.length < u
  | .integer, .int v, text => text = decimal v ∧ I64 v
  | .integerBounded l u, .int v, text => text = decimal v ∧ I64 v ∧ l ≤ v ∧ v < u
  | .real, .real x, text => StrictToken text ∧ Lang REAL_REGEX (fold text) ∧ ops.parse (fold text) = some x
  | .realBounded l u, .real x, text =>
    StrictToken text ∧ Lang REAL_REGEX (fold text) ∧ ops.parse (fold text) = some x ∧
      (ops.close x l = true ∨ ops.close x u = true ∨ (ops.isNaN x = false ∧ ops.le l x = true ∧ ops.lt x u = true))
  | .realStrict l u mi ma, .real x, text =>
    StrictToken text ∧ Lang STRICT_REAL_REGEX (fold text) ∧ ops.parse (fold text) = some x ∧
      (∃ n : Nat, HasDecimals text n ∧ mi ≤ n ∧ n < ma) ∧ ops.isNaN x = false ∧ ops.le l x = true ∧ ops.lt x u = true
  | _, _, _ => False

/-- `text` is accepted by the call, which then returns the values `vs`. -/
def CallText {R : Type} (fold : List Char → List Char) (ops : RealOps R) : Call R → List (Val R) → List Char → Prop
  | .tok t, vs, text => ∃ v, vs = [v] ∧ TokText fold ops t v text
  | .many t n sep, vs, text =>
    (sep = ' ' ∨ sep = '\n') ∧ (vs.length : Int) = n ∧
      ∃ texts, List.Forall₂ (TokText fold ops t) vs texts ∧ text = separate [sep] texts
  | .expectString e, vs, text => vs = [] ∧ Token e ∧ StrictToken text ∧ fold text = fold e
  | .expectInt e, vs, text => vs = [] ∧ text = decimal e ∧ I64 e
  | .expectReal e, vs, text =>
    vs = [] ∧ StrictToken text ∧ Lang REAL_REGEX (fold text) ∧ ∃ x, ops.parse (fold text) = some x ∧ ops.close x e = true
  | .space, vs, text => vs = [] ∧ text = [' ']
  | .newline, vs, text => vs = [] ∧ text = ['\n']
  | .eof, vs, text => vs = [] ∧ text = []

/-- What may follow after the text of a call: nothing or white space after a token, nothing after `eof`. -/
def Follow {R : Type} : Call R → List Char → Prop
  | .tok _, rest => Delimited rest
  | .many _ n _, rest => 0 < n → Delimited rest
  | .expectString _, rest => Delimited rest
  | .expectInt _, rest => Delimited rest
  | .expectReal _, rest => Delimited rest
  | .space, _ => True
  | .newline, _ => True
  | .eof, rest => rest = []

/-- The program accepts the text `s` up to `rest`, getting the values `vs`. -/
inductive Accepts {R : Type} (fold : List Char → List Char) (ops : RealOps R) : Prog R → List (List (Val R)) → List Char → List Char → Prop
  | done {rest} : Accepts fold ops (.done (.ok ())) [] rest rest
  | call {c k v vs text s rest} : CallText fold ops c v text → Follow c s → Accepts fold ops (k v) vs s rest →
      Accepts fold ops (.call c k) (v :: vs) (text ++ s) rest

/-- The program never calls `expectReal`. -/
inductive NoExpectReal {R : Type} : Prog R → Prop
  | done {r} : NoExpectReal (.done r)
  | call {c k} : (∀ e, c ≠ .expectReal e) → (∀ v, NoExpectReal (k v)) → NoExpectReal (.call c k)

/-- The function returns the token itself or the number that it denotes canonically. -/
def Tok.Exact {R : Type} : Tok R → Prop
  | .real => False
  | .realBounded _ _ => False
  | .realStrict _ _ _ _ => False
  | _ => True

/-- The call reads no real numbers. -/
def Call.Exact {R : Type} : Call R → Prop
  | .tok t => Tok.Exact t
  | .many t _ _ => Tok.Exact t
  | .expectReal _ => False
  | _ => True

/-- The program reads no real numbers. -/
inductive Exact {R : Type} : Prog R → Prop
  | done {r} : Exact (.done r)
  | call {c k} : Call.Exact c → (∀ v, Exact (k v)) → Exact (.call c k)

/-- The program does not end regularly without calling `eof` last. -/
inductive Closed {R : Type} : Prog R → Prop
  | reject {e} : Closed (.done (.error e))
  | eof {k r} : (∀ v, k v = .done r) → Closed (.call .eof k)
  | step {c k} : (∀ v, Closed (k v)) → Closed (.call c k)

/-- The spelling of a value. -/
def valText {R : Type} : Val R → List Char
  | .str t => t
  | .int v => decimal v
  | .real _ => []

/-- The spelling of the values of a call. -/
def callText {R : Type} : Call R → List (Val R) → List Char
  | .tok _, vs => (vs.map valText).flatten
  | .many _ _ sep, vs => separate [sep] (vs.map valText)
  | .expectString e, _ => e
  | .expectInt e, _ => decimal e
  | .expectReal _, _ => []
  | .space, _ => [' ']
  | .newline, _ => ['\n']
  | .eof, _ => []

/-- The file that belongs to a run of a program: the values it got with the separators it asked for. -/
def render {R : Type} : Prog R → List (List (Val R)) → List Char
  | .done _, _ => []
  | .call _ _, [] => []
  | .call c k, v :: vs => callText c v ++ render (k v) vs

end ICPC.Spec
