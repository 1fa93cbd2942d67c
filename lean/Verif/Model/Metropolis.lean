import Verif.Model.Chain
import Mathlib.Algebra.Order.Field.Basic
import Mathlib.Algebra.Order.Ring.Rat
import Mathlib.Algebra.BigOperators.Group.Finset.Basic

/-!
# Markov chain Monte Carlo with rejection

`Metropolis` and the entropic samplers of the external crate `sampling` (re-exported in src/sampling.rs:1-8, used in
tests/integration_test_er_c.rs:45-90) work on the ensembles by the trait functions only: a trial makes `step_size` steps with
`m_steps`, looks at the network, and takes the steps back with `undo_steps_quiet` if the trial is rejected.  These simulations use a
generator of their own for the decision, independent of the one in the ensemble; the decision is modelled by its probability (the
crate compares with a `f64`, which rounds this probability).  The crate itself is not part of the repository; what is modelled is the
procedure it documents.
-/

namespace Verif

variable {E D S O : Type}

/-- The probability to accept a trial that leads from a network with weight `w x` to one with weight `w y`: Metropolis' rule.  For a
simulation at the temperature `T` the weights are `exp (- energy / T)`, for entropic sampling the inverse of the estimated density of
states. -/
def acceptance (w : O → ℚ) (x y : O) : ℚ := min 1 (w y / w x)

/-- The mean of `F` over `k` steps (`m_steps`), where `F` may depend on the list of the steps made and on the final state.  In every
step the draws are those in the finite set `draws` of the current state with the probabilities `wt`, independent of the previous
ones. -/
def meanSteps (draws : E → Finset D) (wt : E → D → ℚ) (step : E → D → Res (S × E)) : ℕ → E → (List S → E → ℚ) → ℚ
  | 0, e, F => F [] e
  | k + 1, e, F => ∑ d ∈ draws e, wt e d * match step e d with
      | .ok (s, e') => meanSteps draws wt step k e' (fun l => F (s :: l))
      | _ => 0

/-- The probability that the observable `obs` has the value `o` after `t` trials of `k` steps each, from the state `e`.  A trial is
accepted with the probability `acceptance`; otherwise its steps are undone with `undo_steps_quiet`.  (A call that does not return
contributes nothing.) -/
def lawAfterTrials (draws : E → Finset D) (wt : E → D → ℚ) (step : E → D → Res (S × E)) (undo : E → S → Res E) [DecidableEq O]
    (obs : E → O) (w : O → ℚ) (k : ℕ) : ℕ → E → O → ℚ
  | 0, e, o => if obs e = o then 1 else 0
  | t + 1, e, o => meanSteps draws wt step k e (fun l e' =>
      acceptance w (obs e) (obs e') * lawAfterTrials draws wt step undo obs w k t e' o +
      (1 - acceptance w (obs e) (obs e')) * match undoStepsQuiet undo l e' with
        | .ok e'' => lawAfterTrials draws wt step undo obs w k t e'' o
        | _ => 0)

/-- The mean of `F` over `t` trials of `k` steps each, where `F` may depend on the list of the values that the observable `obs` has after
the single trials (after a rejected trial: of the network that is kept).  This is what a simulation averages over or collects in a
histogram. -/
def meanTrials (draws : E → Finset D) (wt : E → D → ℚ) (step : E → D → Res (S × E)) (undo : E → S → Res E) (obs : E → O) (w : O → ℚ)
    (k : ℕ) : ℕ → E → (List O → ℚ) → ℚ
  | 0, _, F => F []
  | t + 1, e, F => meanSteps draws wt step k e (fun l e' =>
      acceptance w (obs e) (obs e') * meanTrials draws wt step undo obs w k t e' (fun os => F (obs e' :: os)) +
      (1 - acceptance w (obs e) (obs e')) * match undoStepsQuiet undo l e' with
        | .ok e'' => meanTrials draws wt step undo obs w k t e'' (fun os => F (obs e'' :: os))
        | _ => 0)

end Verif
