import Verif.Model.Prelude

/-!
# Chains of Markov steps

`m_steps`, `undo_steps` and `undo_steps_quiet` are default methods of the trait `MarkovChain` of the external crate
`sampling` (imported in src/lib.rs and src/sampling.rs); every ensemble uses these defaults.
-/

namespace Verif

/-- `m_steps(count, &mut steps)`: the steps in the order in which they were made. -/
def mSteps {E S : Type} (mStep : E → Res (S × E)) : Nat → E → Res (List S × E)
  | 0, e => .ok ([], e)
  | k + 1, e => do
    let (s, e) ← mStep e
    let (l, e) ← mSteps mStep k e
    return (s :: l, e)

/-- `undo_steps(&steps, &mut res)`: undoes the steps from the last to the first. -/
def undoSteps {E S U : Type} (undo : E → S → Res (U × E)) (steps : List S) (e : E) : Res (List U × E) :=
  steps.reverse.foldlM (fun p s => do
    let (u, e) ← undo p.2 s
    return (p.1 ++ [u], e)) ([], e)

/-- `undo_steps_quiet(&steps)`. -/
def undoStepsQuiet {E S : Type} (undo : E → S → Res E) (steps : List S) (e : E) : Res E :=
  steps.reverse.foldlM (fun e s => undo e s) e

end Verif
