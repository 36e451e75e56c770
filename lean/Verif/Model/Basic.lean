/-!
# Common conventions of the model

* `Integer` of the library (`std::int64_t`, src/validate.h 53-60) is `Int`; operations that can overflow
  go through the checked operations below.
* A C++ function that can throw, exit with a verdict or run into undefined behaviour returns `Out α`.
-/

namespace ICPC

/-- The ways in which a C++ computation can end without returning a value.
`throw` : a C++ exception (`judgeAssert`, src/validate.h 152-155, and friends);
`exit c` : the process ends with exit code `c` (`Verdict::exit`, src/validate.h 195-220);
`ub` : undefined behaviour (signed overflow, index out of bounds, ...);
`fuel` : the fuel of a modelled unbounded loop was used up (no statement about the code). -/
inductive Stop where
  | throw
  | exit (code : Nat)
  | ub
  | fuel
  deriving DecidableEq, Repr

/-- Outcome of a C++ computation. -/
abbrev Out (α : Type) := Except Stop α

/-- Value range of `Integer`. -/
def I64 (x : Int) : Prop := -(2 ^ 63) ≤ x ∧ x < 2 ^ 63

instance (x : Int) : Decidable (I64 x) := inferInstanceAs (Decidable (_ ∧ _))

/-- A signed 64-bit result: undefined behaviour if it does not fit. -/
def chk (x : Int) : Out Int := if I64 x then .ok x else .error .ub

/-- `judgeAssert` (src/validate.h 152-155): throws if the condition fails. -/
def judgeAssert (b : Bool) : Out Unit := if b then .ok () else .error .throw

/-- `static_cast<UInteger>` of an `Integer`: reduction modulo 2^64. -/
def toU64 (x : Int) : Nat := (x % 2 ^ 64).toNat

/-- `static_cast<Integer>` of an unsigned number: two's complement (src/validate.h 149 asserts it). -/
def toI64 (x : Nat) : Int :=
  let y : Nat := x % 2 ^ 64
  if y < 2 ^ 63 then (y : Int) else (y : Int) - 2 ^ 64

theorem chk_ok {x : Int} (h : I64 x) : chk x = .ok x := by simp [chk, h]

theorem chk_eq_ok {x y : Int} : chk x = .ok y ↔ I64 x ∧ y = x := by
  unfold chk
  split <;> simp_all [eq_comm]

section OutLemmas
variable {α β : Type}
theorem ok_bind (a : α) (f : α → Out β) : ((Except.ok a : Out α) >>= f) = f a := rfl
theorem error_bind (e : Stop) (f : α → Out β) : ((Except.error e : Out α) >>= f) = .error e := rfl
theorem pure_out (a : α) : (pure a : Out α) = .ok a := rfl
theorem judgeAssert_true : judgeAssert true = .ok () := rfl
theorem judgeAssert_false : judgeAssert false = .error .throw := rfl
end OutLemmas

/-- `boolean<T>` (src/validate.h 535-550): a truth value with an optional reason. -/
structure Boolean (α : Type) where
  value : Bool
  reason : Option α := none
  deriving DecidableEq, Repr

end ICPC
