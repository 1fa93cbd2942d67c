import Verif.Model.Measures
import Verif.Model.Sw

/-!
# Quotients of counts as floating point numbers

The scalar measures end with `a as f64 / b as f64` (or `f32`) for two counts `a`, `b`.  The other models keep the exact quotient or
the pair of counts.  Here the two conversions and the division are followed by a rounding `fl`.  `fl` is a parameter; the theorems
assume that it rounds to a nearest number with 53 (`f64`) or 24 (`f32`) significant bits (`Verif.Spec.Float`).  Limits of the exponent
are left out: counts are below `2^64`, so that all values are 0 or between `2^-64` and `2^65`, far inside the range of `f32`.
-/

set_option linter.unusedSectionVars false

namespace Verif

/-- The floating point values that a quotient of two counts can have: a number, infinity, not a number. -/
inductive FVal where
  | num (q : ℚ)
  | inf
  | nan

/-- `x / y` for floating point numbers `x, y ≥ 0` (IEEE 754 as used by Rust): `0 / 0` is NaN, `x / 0` is infinity. -/
def floatDiv (fl : ℚ → ℚ) (x y : ℚ) : FVal :=
  if y = 0 then (if x = 0 then .nan else .inf) else .num (fl (x / y))

/-- `a as f64 / b as f64` (`f32`) for `usize` values. -/
def countDiv (fl : ℚ → ℚ) (a b : ℕ) : FVal := floatDiv fl (fl a) (fl b)

namespace GenericGraph
variable {T A : Type} [AdjContainer T A]

/-- `average_degree` (src/generic_graph/generic_graph.rs:357-359). -/
def averageDegreeF (fl : ℚ → ℚ) (g : GenericGraph T A) : FVal := countDiv fl (2 * g.edgeCount) g.vertexCount

/-- `closeness_centrality` (src/generic_graph/generic_graph.rs:1387-1403): the last lines `val / count as f64` applied to the counts. -/
def closenessCentralityF (fl : ℚ → ℚ) (g : GenericGraph T A) : Res (List FVal) := do
  let l ← g.closenessCentrality
  return l.map (fun x => countDiv fl x.1 x.2)

/-- `transitivity` (src/generic_graph/generic_graph.rs:1414-1439): the last line `closed_path_count as f64 / path_count as f64`. -/
def transitivityF (fl : ℚ → ℚ) (g : GenericGraph T A) : Res FVal := do
  let x ← g.transitivity
  return countDiv fl x.1 x.2

end GenericGraph

namespace SwGraph
variable {T : Type}

/-- `frac_nodes_wlre` (src/sw_graph.rs:525-530). -/
def fracNodesWlreF (fl : ℚ → ℚ) (g : SwGraph T) : Res FVal := do
  let vc := g.vertexCount
  let lrn ← countNodesWithLongRangingEdges g
  return countDiv fl lrn vc

/-- `frac_long_ranging_edges` (src/sw_graph.rs:552-556). -/
def fracLongRangingEdgesF (fl : ℚ → ℚ) (g : SwGraph T) : FVal := countDiv fl (countLongRangingEdges g) g.edgeCount

end SwGraph
end Verif
