import Verif.Model.Writer
import Verif.Spec.Stream
import Verif.Spec.Helpers

/-!
# What `join` should print (C106)
-/

namespace ICPC.Spec

/-- The texts of the elements, with the separator between neighbours; the null character stands for no separator. -/
def joined {α : Type} (pr : α → List Char) (sep : Char) (l : List α) : List Char :=
  separate (if sep = Char.ofNat 0 then [] else [sep]) (l.map pr)

end ICPC.Spec
