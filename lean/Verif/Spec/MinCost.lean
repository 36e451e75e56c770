import Verif.Spec.Flow

/-!
# Flows of smallest cost and successive shortest paths

The textbook algorithm: begin with the zero flow and push flow along a cheapest path of the residual network.
-/

namespace ICPC.Spec.Flow

/-- What a flow costs. -/
def flowCost (V : Finset Int) (cost f : Int → Int → Int) : Int := ∑ u ∈ V, ∑ v ∈ V, f u v * cost u v

/-- `x` is the smallest cost of a flow of value `k`. -/
def MinCost (V : Finset Int) (cap cost : Int → Int → Int) (s t k x : Int) : Prop :=
  (∃ f, IsFlow V cap s t f ∧ value V s f = k ∧ flowCost V cost f = x) ∧
  ∀ f, IsFlow V cap s t f → value V s f = k → x ≤ flowCost V cost f

/-- One step of a path of the residual network, from `src` to `dst`: along the edge `(src, dst)` or back along `(dst, src)`. -/
structure Step where
  src : Int
  dst : Int
  forward : Bool
  deriving DecidableEq

/-- The step can take more flow. -/
def Step.Free (cap f : Int → Int → Int) (e : Step) : Prop :=
  match e.forward with
  | true => f e.src e.dst < cap e.src e.dst
  | false => 0 < f e.dst e.src

def Step.cost (cost : Int → Int → Int) (e : Step) : Int :=
  match e.forward with
  | true => cost e.src e.dst
  | false => -cost e.dst e.src

/-- The steps lead from `s` to `t` without leaving `V`. -/
def Path (V : Finset Int) : Int → List Step → Int → Prop
  | s, [], t => s = t
  | s, e :: P, t => e.src = s ∧ e.dst ∈ V ∧ Path V e.dst P t

def pathCost (cost : Int → Int → Int) (P : List Step) : Int := (P.map (Step.cost cost)).sum

/-- A path from `s` to `t` in the residual network of `f`. -/
def Augmenting (V : Finset Int) (cap f : Int → Int → Int) (s : Int) (P : List Step) (t : Int) : Prop :=
  Path V s P t ∧ ∀ e ∈ P, e.Free cap f

/-- One that costs least. -/
def Cheapest (V : Finset Int) (cap cost f : Int → Int → Int) (s : Int) (P : List Step) (t : Int) : Prop :=
  Augmenting V cap f s P t ∧ ∀ Q, Augmenting V cap f s Q t → pathCost cost P ≤ pathCost cost Q

/-- Pushing `x` units along the path. -/
def push (x : Int) (P : List Step) (f : Int → Int → Int) (u v : Int) : Int :=
  f u v + x * ((P.count ⟨u, v, true⟩ : Int) - P.count ⟨v, u, false⟩)

/-- Flows that the algorithm can have after `k` rounds, however it chooses among the cheapest paths and however much it pushes. -/
inductive Rounds (V : Finset Int) (cap cost : Int → Int → Int) (s t : Int) : Nat → (Int → Int → Int) → Prop
  | start : Rounds V cap cost s t 0 fun _ _ => 0
  | round {k f P x} : Rounds V cap cost s t k f → Cheapest V cap cost f s P t → 0 < x →
      (∀ u ∈ V, ∀ v ∈ V, 0 ≤ push x P f u v ∧ push x P f u v ≤ cap u v) → Rounds V cap cost s t (k + 1) (push x P f)

end ICPC.Spec.Flow
