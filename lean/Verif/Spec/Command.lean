import Verif.Spec.Stream

/-! # Command line arguments -/

namespace ICPC.Spec

/-- Commands start with two dashes followed by something. -/
def IsCmd (s : List Char) : Prop := ∃ c r, s = '-' :: '-' :: c :: r

/-- `args` are the arguments after `n` in `pre ++ n :: (args ++ post)`: they extend to the next command or the end. -/
def ArgumentsOf (args post : List (List Char)) : Prop :=
  (∀ a ∈ args, ¬ IsCmd a) ∧ (post = [] ∨ ∃ m r, post = m :: r ∧ IsCmd m)

/-- No command occurs twice. -/
def NoRepeatedCommand (argv : List (List Char)) : Prop :=
  ∀ i j (hi : i < argv.length) (hj : j < argv.length), IsCmd argv[i] → argv[i] = argv[j] → i = j

end ICPC.Spec
