import Verif.Model.Er
import Verif.Model.Sw
import Verif.Model.Config
import Verif.Model.Ws
import Verif.Model.Ba

/-!
# What a user may do to an ensemble between the sampling calls

The traits `WithGraph` and `HasRng`: `sort_adj`, writes through `at_mut`, `swap_rng`.
-/

namespace Verif

namespace ErC
variable {T R : Type}

/-- `sort_adj` (src/er_c.rs:342-344). -/
def sortAdj (e : ErC T R) : Res (ErC T R) := do
  let graph ← e.graph.sortAdj
  return { e with graph }

/-- Assignment through `at_mut` (src/er_c.rs:327-329). -/
def setAt (e : ErC T R) (i : Nat) (t : T) : Res (ErC T R) := do
  let graph ← e.graph.setAt i t
  return { e with graph }

/-- `swap_rng` (src/er_c.rs:115-117): the generator handed out and the new state. -/
def swapRng (e : ErC T R) (r : R) : R × ErC T R := (e.rng, { e with rng := r })

end ErC

namespace ErM
variable {T R : Type}

/-- `sort_adj` (src/er_m.rs:340-342). -/
def sortAdj (e : ErM T R) : Res (ErM T R) := do
  let graph ← e.graph.sortAdj
  return { e with graph }

/-- Assignment through `at_mut` (src/er_m.rs:325-327). -/
def setAt (e : ErM T R) (i : Nat) (t : T) : Res (ErM T R) := do
  let graph ← e.graph.setAt i t
  return { e with graph }

/-- `swap_rng` (src/er_m.rs:144-146). -/
def swapRng (e : ErM T R) (r : R) : R × ErM T R := (e.rng, { e with rng := r })

end ErM

namespace Config
variable {T R : Type}

/-- `sort_adj` (src/configuration_model.rs:324-326). -/
def sortAdj (e : Config T R) : Res (Config T R) := do
  let graph ← e.graph.sortAdj
  return { e with graph }

/-- Assignment through `at_mut` (src/configuration_model.rs:309-311). -/
def setAt (e : Config T R) (i : Nat) (t : T) : Res (Config T R) := do
  let graph ← e.graph.setAt i t
  return { e with graph }

/-- `swap_rng` (src/configuration_model.rs:276-278). -/
def swapRng (e : Config T R) (r : R) : R × Config T R := (e.rng, { e with rng := r })

end Config

namespace Ws
variable {T R : Type}

/-- `sort_adj` (src/watts_strogatz/ensemble.rs:202-204). -/
def sortAdj (e : Ws T R) : Res (Ws T R) := do
  let graph ← e.graph.sortAdj
  return { e with graph }

/-- Assignment through `at_mut` (src/watts_strogatz/ensemble.rs:194-196). -/
def setAt (e : Ws T R) (i : Nat) (t : T) : Res (Ws T R) := do
  let graph ← e.graph.setAt i t
  return { e with graph }

/-- `swap_rng` (src/watts_strogatz/ensemble.rs:210-212). -/
def swapRng (e : Ws T R) (r : R) : R × Ws T R := (e.rng, { e with rng := r })

end Ws

namespace SwEns
variable {T R : Type}

/-- `sort_adj` (src/sw.rs:412-414). -/
def sortAdj (e : SwEns T R) : Res (SwEns T R) := do
  let graph ← e.graph.sortAdj
  return { e with graph }

/-- Assignment through `at_mut` (src/sw.rs:397-399). -/
def setAt (e : SwEns T R) (i : Nat) (t : T) : Res (SwEns T R) := do
  let graph ← e.graph.setAt i t
  return { e with graph }

/-- `swap_rng` (src/sw.rs:450-452). -/
def swapRng (e : SwEns T R) (r : R) : R × SwEns T R := (e.rng, { e with rng := r })

/-- `set_r_prob` (src/sw.rs:354-356). -/
def setRProb (e : SwEns T R) (p : ℚ) : SwEns T R := { e with rProb := p }

end SwEns

namespace Ba
variable {T R : Type}

/-- `sort_adj` (src/barabasi_albert.rs:74-76). -/
def sortAdj (e : Ba T R) : Res (Ba T R) := do
  let graph ← e.graph.sortAdj
  return { e with graph }

/-- Assignment through `at_mut` (src/barabasi_albert.rs:66-68). -/
def setAt (e : Ba T R) (i : Nat) (t : T) : Res (Ba T R) := do
  let graph ← e.graph.setAt i t
  return { e with graph }

end Ba

/-! ## Histories of calls -/

/-- What the sampling calls return to the user. -/
inductive ErObs (S R : Type) where
  | unit
  | step (s : S)
  | rng (r : R)

/-- A call on `ErEnsembleC`. -/
inductive ErCCall (T R : Type) where
  | mStep
  | undoStep (s : ErStepC)
  | undoStepQuiet (s : ErStepC)
  | randomize
  | makeConnected
  | setTargetConnectivity (c : ℚ)
  | swapRng (r : R)
  | sortAdj
  | write (i : Nat) (t : T)

/-- Calls that do not take part in the sampling. -/
def ErCCall.cosmetic {T R : Type} : ErCCall T R → Bool
  | .sortAdj | .write .. => true
  | _ => false

/-- One call, with what it returns; `none` for the calls that do not take part in the sampling. -/
def ErCCall.run {T R : Type} [Rng R] (e : ErC T R) : ErCCall T R → Res (Option (ErObs ErStepC R) × ErC T R)
  | .mStep => do
    let (s, e) ← e.mStep
    return (some (.step s), e)
  | .undoStep s => do
    let (u, e) ← e.undoStep s
    return (some (.step u), e)
  | .undoStepQuiet s => do
    let e ← e.undoStepQuiet s
    return (some .unit, e)
  | .randomize => do
    let e ← e.randomize
    return (some .unit, e)
  | .makeConnected => do
    let e ← e.makeConnected
    return (some .unit, e)
  | .setTargetConnectivity c => do
    let e ← e.setTargetConnectivity c
    return (some .unit, e)
  | .swapRng r => .ok (some (.rng (e.swapRng r).1), (e.swapRng r).2)
  | .sortAdj => do
    let e ← e.sortAdj
    return (none, e)
  | .write i t => do
    let e ← e.setAt i t
    return (none, e)

/-- A call on `ErEnsembleM`. -/
inductive ErMCall (T R : Type) where
  | mStep
  | undoStep (s : ErStepM)
  | undoStepQuiet (s : ErStepM)
  | randomize
  | swapRng (r : R)
  | sortAdj
  | write (i : Nat) (t : T)

/-- Calls that do not take part in the sampling. -/
def ErMCall.cosmetic {T R : Type} : ErMCall T R → Bool
  | .sortAdj | .write .. => true
  | _ => false

/-- One call, with what it returns; `none` for the calls that do not take part in the sampling. -/
def ErMCall.run {T R : Type} [Rng R] (e : ErM T R) : ErMCall T R → Res (Option (ErObs ErStepM R) × ErM T R)
  | .mStep => do
    let (s, e) ← e.mStep
    return (some (.step s), e)
  | .undoStep s => do
    let (u, e) ← e.undoStep s
    return (some (.step u), e)
  | .undoStepQuiet s => do
    let e ← e.undoStepQuiet s
    return (some .unit, e)
  | .randomize => do
    let e ← e.randomize
    return (some .unit, e)
  | .swapRng r => .ok (some (.rng (e.swapRng r).1), (e.swapRng r).2)
  | .sortAdj => do
    let e ← e.sortAdj
    return (none, e)
  | .write i t => do
    let e ← e.setAt i t
    return (none, e)

/-- A history of calls; collects what the sampling calls return. -/
def runCalls {E C O : Type} (run : E → C → Res (Option O × E)) : List C → E → Res (List O × E)
  | [], e => .ok ([], e)
  | c :: cs, e => do
    let (o, e) ← run e c
    let (os, e) ← runCalls run cs e
    return (o.toList ++ os, e)

end Verif
