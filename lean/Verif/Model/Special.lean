import Verif.Model.Prelude

/-!
# Comparisons with special `f64` values

The other models have a rational number in place of every `f64` parameter.  The probabilities of `ErEnsembleC`, `SwEnsemble`,
`SmallWorldWS` and `SpacialEnsemble` are used in one way only: `self.rng.gen::<f64>() <= p`.
-/

namespace Verif

/-- The values of an `f64` (the sign of zero does not matter for comparisons). -/
inductive F64 where
  | num (q : ℚ)
  | posInf
  | negInf
  | nan

/-- `x <= v` for a finite `x` (IEEE 754 as used by Rust): false for NaN. -/
def F64.geNum (v : F64) (x : ℚ) : Bool :=
  match v with
  | .num q => decide (x ≤ q)
  | .posInf => true
  | .negInf => false
  | .nan => false

/-- `rng.gen::<f64>() <= v` (src/er_c.rs:133 and 158, src/sw.rs:302, src/watts_strogatz/ensemble.rs:240,
src/spacial/spacial_ensemble.rs:138, 186 and 205) for any `f64` value. -/
def coinF {R : Type} [Rng R] (r : R) (v : F64) : Bool × R :=
  let (u, r') := Rng.genUnit r
  (v.geNum ((u : ℚ) / 2 ^ 53), r')

end Verif
