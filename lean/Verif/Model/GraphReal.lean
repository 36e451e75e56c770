import Verif.Model.Ideal
import Verif.Model.RandomGraphP

/-!
# Random graphs with real parameters in exact arithmetic (src/validate.h 1412-1421, src/graph_gen.h 882-901)

Together with `Model/RandomGraphP`, where the results of the functions with floating point numbers are parameters.
-/

namespace ICPC.Ideal

open Classical

/-- The loop of `real(lower, upper)` (src/validate.h 1416-1420); at most `fuel` iterations are followed. -/
noncomputable def realInLoop (lower upper : ℝ) : ℕ → Draw ℝ
  | 0 => lift (.error .fuel)
  | fuel + 1 => do
    let x ← real
    let res := lower * (1 - x) + upper * x
    if lower ≤ res ∧ res < upper then return res
    else realInLoop lower upper fuel

/-- `real(lower, upper)` (src/validate.h 1412-1421). -/
noncomputable def realIn (fuel : ℕ) (lower upper : ℝ) : Draw ℝ := do
  require (lower < upper)
  realInLoop lower upper fuel

/-- The conversion of a `Real` to an `Integer`, which truncates. -/
noncomputable def truncated (x : ℝ) : Out Int := chk (if x < 0 then -⌊-x⌋ else ⌊x⌋)

/-- `Integer deg = p * Random::real(0, i+1)` (src/graph_gen.h 895). -/
noncomputable def degree (fuel : ℕ) (p : ℝ) (i : Int) : Draw Int := do
  let j ← lift (chk (i + 1))
  let x ← realIn fuel 0 j
  lift (truncated (p * x))

/-- `randomGrowingGraph(n, p)` (src/graph_gen.h 890-901).  Iteration `i` calls `real()` once unless its result is rejected, which does not
happen in exact arithmetic: it gets the values from `ω i` on. -/
noncomputable def randomGrowingGraph {E : Type} [Inhabited E] (fuel : ℕ) (n : Int) (p : ℝ) (ω : ℕ → ℝ) : Rand (Gen.Graph E) := do
  Rand.lift (judgeAssert (decide (0 ≤ p ∧ p ≤ 1)))
  Gen.randomGrowingGraph (fun i => Rand.lift ((degree fuel p i fun k => ω (i.toNat + k)).map (·.1))) n

end ICPC.Ideal
