import Mathlib.Data.List.Basic

/-!
# A reader for XML files

The part of XML 1.0 that is needed for images: an XML declaration, elements with attributes in double quotes, character data,
comments.  The names of the functions are those of the productions of the recommendation.  There are no processing instructions
besides the declaration, no document type, no references, no CDATA sections; a file that contains them is refused.
-/

namespace ICPC.Spec.Xml

/-- A node of the document. -/
inductive Node where
  | element (name : List Char) (attributes : List (List Char × List Char)) (content : List Node)
  | text (t : List Char)
  | comment (t : List Char)

/-- White space [3]. -/
def isS (c : Char) : Bool := c == ' ' || c == '\t' || c == '\n' || c == '\r'

/-- First character of a name [4], ASCII only. -/
def isNameStart (c : Char) : Bool :=
  (decide ('a' ≤ c) && decide (c ≤ 'z')) || (decide ('A' ≤ c) && decide (c ≤ 'Z')) || c == '_' || c == ':'

/-- Other characters of a name [4a], ASCII only. -/
def isNameChar (c : Char) : Bool := isNameStart c || (decide ('0' ≤ c) && decide (c ≤ '9')) || c == '-' || c == '.'

/-- A name [5] and the rest. -/
def readName (s : List Char) : Option (List Char × List Char) :=
  match s with
  | [] => none
  | c :: _ => if isNameStart c then some (s.takeWhile isNameChar, s.dropWhile isNameChar) else none

/-- An attribute [41] with its value [10] in double quotes. -/
def readAttribute (s : List Char) : Option ((List Char × List Char) × List Char) :=
  match readName s with
  | none => none
  | some (name, rest) =>
    match rest with
    | '=' :: '"' :: rest =>
      let value := rest.takeWhile (· != '"')
      if value.any fun c => c == '<' || c == '&' then none
      else match rest.dropWhile (· != '"') with
        | '"' :: rest => some ((name, value), rest)
        | _ => none
    | _ => none

/-- Attributes, each preceded by white space, and optional white space behind them [40, 44]; at most `fuel` of them. -/
def readAttributes : Nat → List Char → Option (List (List Char × List Char) × List Char)
  | 0, _ => none
  | fuel + 1, s =>
    match s.dropWhile isS with
    | [] => some ([], [])
    | c :: rest =>
      if isNameStart c then
        if rest.length + 1 < s.length then
          match readAttribute (c :: rest) with
          | none => none
          | some (a, rest) =>
            match readAttributes fuel rest with
            | none => none
            | some (l, rest) => some (a :: l, rest)
        else none
      else some ([], c :: rest)

/-- The names of the attributes of an element are different. -/
def unique (l : List (List Char × List Char)) : Bool := decide (l.map Prod.fst).Nodup

/-- The text of a comment [15] behind its start, and the rest: two hyphens are only allowed at the end. -/
def readComment : List Char → Option (List Char × List Char)
  | '-' :: '-' :: '>' :: rest => some ([], rest)
  | '-' :: '-' :: _ => none
  | c :: rest => (readComment rest).map fun x => (c :: x.1, x.2)
  | [] => none

/-- Content [43] up to the end of the file or an end tag: elements [39], character data [14] and comments. -/
def readContent : Nat → List Char → Option (List Node × List Char)
  | 0, _ => none
  | _ + 1, [] => some ([], [])
  | fuel + 1, c :: s =>
    if c = '<' then
      match s with
      | '/' :: s => some ([], '<' :: '/' :: s)
      | '!' :: '-' :: '-' :: s =>
        match readComment s with
        | none => none
        | some (t, s) => (readContent fuel s).map fun x => (.comment t :: x.1, x.2)
      | s =>
        match readName s with
        | none => none
        | some (name, s) =>
          match readAttributes s.length s with
          | none => none
          | some (attributes, s) =>
            if !unique attributes then none
            else match s with
              | '/' :: '>' :: s => (readContent fuel s).map fun x => (.element name attributes [] :: x.1, x.2)
              | '>' :: s =>
                match readContent fuel s with
                | some (content, '<' :: '/' :: s) =>
                  match readName s with
                  | none => none
                  | some (name', s) =>
                    if name' ≠ name then none
                    else match s.dropWhile isS with
                      | '>' :: s => (readContent fuel s).map fun x => (.element name attributes content :: x.1, x.2)
                      | _ => none
                | _ => none
              | _ => none
    else
      let t := (c :: s).takeWhile (· != '<')
      if t.any fun c => c == '&' || c == '>' then none
      else (readContent fuel ((c :: s).dropWhile (· != '<'))).map fun x => (.text t :: x.1, x.2)

/-- Everything but character data. -/
def markup (l : List Node) : List Node := l.filter fun
  | .text _ => false
  | _ => true

/-- The root element is the only one, and outside of it is only white space (comments are not admitted). -/
def root (l : List Node) : Option Node :=
  if l.all fun
      | .text t => t.all isS
      | _ => true then
    match markup l with
    | [.element n a c] => some (.element n a c)
    | _ => none
  else none

/-- A document [1] that starts with an XML declaration [23]: version 1.0 and the name of an encoding. -/
def read (s : List Char) : Option Node :=
  match s with
  | '<' :: '?' :: 'x' :: 'm' :: 'l' :: s =>
    match readAttributes s.length s with
    | some ([(version, value), (encoding, _)], '?' :: '>' :: s) =>
      if version = "version".toList ∧ value = "1.0".toList ∧ encoding = "encoding".toList then
        match readContent (s.length + 1) s with
        | some (l, []) => root l
        | _ => none
      else none
    | _ => none
  | _ => none

end ICPC.Spec.Xml
