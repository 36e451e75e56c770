import Verif.Spec.WordFn

/-!
# Drawing until something acceptable comes
-/

namespace ICPC.Spec

/-- Repeated calls of `f` on the words `ws`: the first value that satisfies `A` is `a`, and `rest` are the words after it. -/
inductive FirstAccepted {α : Type} (f : List ℕ → Option (α × List ℕ)) (A : α → Prop) : List ℕ → α → List ℕ → Prop
  | now {ws rest : List ℕ} {a : α} : f ws = some (a, rest) → A a → FirstAccepted f A ws a rest
  | later {ws rest rest' : List ℕ} {a b : α} : f ws = some (b, rest) → ¬ A b → FirstAccepted f A rest a rest' → FirstAccepted f A ws a rest'

end ICPC.Spec
