import Verif.Model.Delegate

/-!
# Parameters of the ensembles and what a step value tells

The getters of the parameters, the predicates on the values that `m_step` and `undo_step` return, and a history of calls on
`SwEnsemble`.
-/

namespace Verif

namespace SwChange

/-- `is_nothing` (src/sw.rs:46-48). -/
def isNothing : SwChange → Bool
  | .nothing => true
  | _ => false

/-- `is_nothing_or_blocked` (src/sw.rs:51-53). -/
def isNothingOrBlocked : SwChange → Bool
  | .nothing | .blockedByExistingEdge => true
  | _ => false

/-- `not_nothing_or_blocked` (src/sw.rs:56-59). -/
def notNothingOrBlocked (s : SwChange) : Bool := !s.isNothingOrBlocked

end SwChange

namespace ErStepC

/-- `is_valid` (src/er_c.rs:41-43). -/
def isValid : ErStepC → Bool
  | .gError _ => false
  | _ => true

/-- `valid_or_panic` (src/er_c.rs:46-50). -/
def validOrPanic : ErStepC → Res Unit
  | .gError _ => .panic
  | _ => .ok ()

/-- `valid_or_panic_msg` (src/er_c.rs:53-57); the text of the panic is not modelled. -/
def validOrPanicMsg (s : ErStepC) (_msg : String) : Res Unit :=
  match s with
  | .gError _ => .panic
  | _ => .ok ()

end ErStepC

/-- `invert` (src/er_m.rs:32-37): swaps the two edges in place. -/
def ErStepM.invert (s : ErStepM) : ErStepM := { s with removed := s.inserted, inserted := s.removed }

/-- `r_prob` (src/sw.rs:346-348). -/
def SwEns.getRProb {T R : Type} (e : SwEns T R) : ℚ := e.rProb

/-- `target_connectivity` (src/er_c.rs:278-280). -/
def ErC.targetConnectivity {T R : Type} (e : ErC T R) : ℚ := e.cTarget

/-- `get_m` (src/er_m.rs:285-287). -/
def ErM.getM {T R : Type} (e : ErM T R) : Nat := e.m

/-- A call on `SwEnsemble`. -/
inductive SwCall (T R : Type) where
  | mStep
  | undoStep (s : SwChange)
  | undoStepQuiet (s : SwChange)
  | randomize
  | makeConnected
  | setRProb (p : ℚ)
  | swapRng (r : R)
  | sortAdj
  | write (i : Nat) (t : T)

/-- One call, with what it returns; `none` for the calls that do not take part in the sampling. -/
def SwCall.run {T R : Type} [Rng R] (e : SwEns T R) : SwCall T R → Res (Option (ErObs SwChange R) × SwEns T R)
  | .mStep => do
    let (s, e) ← e.mStep
    return (some (.step s), e)
  | .undoStep s => do
    let (u, e) ← e.undoStep s
    return (some (.step u), e)
  | .undoStepQuiet s => do
    let e ← e.undoStepQuiet s
    return (some .unit, e)
  | .randomize => do
    let e ← e.randomize
    return (some .unit, e)
  | .makeConnected => do
    let e ← e.makeConnected
    return (some .unit, e)
  | .setRProb p => .ok (some .unit, e.setRProb p)
  | .swapRng r => .ok (some (.rng (e.swapRng r).1), (e.swapRng r).2)
  | .sortAdj => do
    let e ← e.sortAdj
    return (none, e)
  | .write i t => do
    let e ← e.setAt i t
    return (none, e)

end Verif
