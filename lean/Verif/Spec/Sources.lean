import Verif.Model.Sources
import Verif.Spec.Stream

/-! # Who is to blame for the end of a validator -/

namespace ICPC.Spec

/-- Calls that no text can satisfy because the program used the function wrongly: a separator that is neither a space nor a
line break, a negative number of elements, an expected string that is not a token. -/
inductive Misuse {R : Type} : Call R → Prop
  | separator (t : Tok R) (n : Int) (sep : Char) : sep ≠ ' ' → sep ≠ '\n' → Misuse (.many t n sep)
  | negative (t : Tok R) (n : Int) (sep : Char) : n < 0 → Misuse (.many t n sep)
  | expected (e : List Char) : ¬ Token e → Misuse (.expectString e)

/-- The program `p` with the texts `s` in front of it comes to the point `q` with the texts `s'` in front of it: all calls
in between were successful. -/
inductive Reaches {ι R : Type} (cfg : ι → StreamCfg) (ops : ι → RealOps R) : MProg ι R → (ι → List Char) → MProg ι R → (ι → List Char) → Prop
  | here (p : MProg ι R) (s : ι → List Char) : Reaches cfg ops p s p s
  | step (i : ι) (c : Call R) (k : List (Val R) → MProg ι R) (s s1 s2 : ι → List Char) (v : List (Val R)) (q : MProg ι R) :
      c.run (cfg i) (ops i) (s i) = .ok (v, s1 i) → (∀ j, j ≠ i → s1 j = s j) → Reaches cfg ops (k v) s1 q s2 →
      Reaches cfg ops (.call i c k) s q s2

/-- The stream `i` does not contain what the program asks for at this point. -/
def Rejected {ι R : Type} (cfg : ι → StreamCfg) (ops : ι → RealOps R) (q : MProg ι R) (s : ι → List Char) (i : ι) : Prop :=
  ∃ c k, q = .call i c k ∧ ¬ Misuse c ∧ ∀ v rest, c.run (cfg i) (ops i) (s i) ≠ .ok (v, rest)

/-- The program misuses a function at this point. -/
def Misused {ι R : Type} (q : MProg ι R) : Prop := ∃ i c k, q = .call i c k ∧ Misuse c

end ICPC.Spec
