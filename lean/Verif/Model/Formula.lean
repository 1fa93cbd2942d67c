import Mathlib.Analysis.SpecialFunctions.Pow.Real
import Mathlib.Analysis.Real.Pi.Bounds

/-!
# The formulas for the probability of an edge

The formulas of the spatial ensembles over the real numbers, that is, without rounding.  The ensembles of `Verif.Model.Spacial` take
the value computed in floating point as a parameter.
-/

namespace Verif

/-- `SpacialNodeContainer::distance` (src/spacial/spacial_graph.rs:138-142): `y.hypot(x)` of the differences, without rounding. -/
noncomputable def hypotDist (p q : ℝ × ℝ) : ℝ :=
  let x := p.1 - q.1
  let y := p.2 - q.2
  √(y ^ 2 + x ^ 2)

/-- `prob_unchecked` (src/spacial/spacial_ensemble.rs:99-111) with the field `sqrt_n_pi` as set by `new`
(src/spacial/spacial_ensemble.rs:67), without rounding. -/
noncomputable def spacialFormula (f alpha : ℝ) (n : ℕ) (distance : ℝ) : ℝ :=
  f * (1 + √((n : ℝ) * Real.pi) * distance / alpha) ^ (-alpha)

/-- The probability of a short edge in `DogEnsemble::randomize` (src/spacial/dog_networks.rs:97-99), without rounding. -/
noncomputable def dogFormula (kappa dist : ℝ) : ℝ :=
  let prob_m1 := -(Real.exp (-dist * kappa) - 1)
  1 - prob_m1 * prob_m1

end Verif
